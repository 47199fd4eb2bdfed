import Verif.Props.Strategy

/-! # Exact form of property C14

Which results reach the data of the current run and the surrogate, in every history and every mode. -/

namespace Verif.Props

open Verif.Strategy Verif.Spec

variable {P : Type}

/-- Is this event a restart? -/
def isRestart : Event P → Bool
  | .restart _ => true
  | _ => false

/-- Is this event a change of the sampling radius? -/
def isChange : Event P → Bool
  | .stepChange => true
  | _ => false

/-- The event at position `i` of the history, if it is a completed evaluation that was accepted after the last restart and
finished before the sampling radius was changed again. -/
def arrivedAt (log : List (Event P)) (i : Nat) : Option (P × Val) :=
  match log[i]? with
  | some (.completed x _ v a) =>
    if (log.drop a).any isRestart = false ∧ ((log.take i).drop a).any isChange = false then some (x, v) else none
  | _ => none

/-- The evaluations accepted after the last restart and completed since, in order of completion, without those during which the
sampling radius was changed. -/
def arrived (log : List (Event P)) : List (P × Val) := (List.range log.length).filterMap (arrivedAt log)

theorem arrivedAt_same {log m : List (Event P)} {i : Nat} (hi : i < log.length)
    (hc : ∀ x k v a, Event.completed x k v a ∈ log → a < log.length) (hm : m.any isRestart = false) :
    arrivedAt (log ++ m) i = arrivedAt log i := by
  unfold arrivedAt
  rw [List.getElem?_append_left hi]
  cases h : log[i]? with
  | none => rfl
  | some e =>
    cases e <;> try rfl
    rename_i x k v a
    have ha := hc x k v a (List.mem_of_getElem? h)
    simp only
    rw [List.drop_append_of_le_length (by omega), List.take_append_of_le_length (by omega), List.any_append, hm, Bool.or_false]

theorem arrived_append {log m : List (Event P)} (hc : ∀ x k v a, Event.completed x k v a ∈ log → a < log.length)
    (hm : m.any isRestart = false) :
    arrived (log ++ m) = arrived log ++ (List.range' log.length m.length).filterMap (arrivedAt (log ++ m)) := by
  unfold arrived
  rw [List.length_append, List.range_add, List.filterMap_append]
  congr 1
  · refine List.filterMap_congr fun i hi => arrivedAt_same (by simpa using hi) hc hm
  · rw [List.range'_eq_map_range]

theorem arrived_same {log m : List (Event P)} (hc : ∀ x k v a, Event.completed x k v a ∈ log → a < log.length)
    (hm : m.any isRestart = false) (hn : ∀ x k v a, Event.completed x k v a ∉ m) : arrived (log ++ m) = arrived log := by
  rw [arrived_append hc hm, List.filterMap_eq_nil_iff.mpr, List.append_nil]
  intro i hi
  unfold arrivedAt
  rw [List.getElem?_append_right (by simp [List.mem_range'] at hi; omega)]
  cases h : m[i - log.length]? with
  | none => rfl
  | some e =>
    cases e <;> try rfl
    exact absurd (List.mem_of_getElem? h) (hn _ _ _ _)

theorem arrived_restart {log : List (Event P)} {q : List P}
    (hc : ∀ x k v a, Event.completed x k v a ∈ log → a < log.length) : arrived (log ++ [.restart q]) = [] := by
  unfold arrived
  rw [List.filterMap_eq_nil_iff]
  intro i _
  unfold arrivedAt
  cases h : (log ++ [Event.restart q])[i]? with
  | none => rfl
  | some e =>
    cases e <;> try rfl
    rename_i x k v a
    have hmem := List.mem_of_getElem? h
    simp only [List.mem_append, List.mem_singleton, reduceCtorEq, or_false] at hmem
    have := hc _ _ _ _ hmem
    simp only
    rw [if_neg]
    rw [List.drop_append_of_le_length (by omega)]
    simp [isRestart]

/-- Nothing happened since position `a` iff the last change is not later. -/
theorem lastChange_le_iff [DecidableEq P] (log : List (Event P)) (a : Nat) (ha : a ≤ log.length) :
    lastChange log ≤ a ↔ (log.drop a).any isRestart = false ∧ (log.drop a).any isChange = false := by
  induction log using List.reverseRecOn with
  | nil => simp [lastChange]
  | append_singleton l e ih =>
    rw [lastChange_concat]
    rcases Nat.lt_or_ge l.length a with h | h
    · have : a = l.length + 1 := by simp at ha; omega
      subst this
      have hd : (l ++ [e]).drop (l.length + 1) = [] := by
        rw [List.drop_eq_nil_iff]; simp
      rw [hd]
      have := (lastRestart_le l).2
      cases e <;> simp <;> omega
    · rw [List.drop_append_of_le_length h, List.any_append, List.any_append]
      cases e <;> simp [isRestart, isChange] at ih ⊢ <;> first | exact ih h | omega

theorem arrived_completed [DecidableEq P] {log : List (Event P)} (hc : ∀ x k v a, Event.completed x k v a ∈ log → a < log.length) (x : P)
    (k : Kind) (v : Val) {a : Nat} (ha : a < log.length) :
    arrived (log ++ [.completed x k v a]) = arrived log ++ if lastChange log ≤ a then [(x, v)] else [] := by
  rw [arrived_append hc rfl]
  congr 1
  simp only [List.length_singleton, List.range'_one, List.filterMap_cons, List.filterMap_nil]
  have h : arrivedAt (log ++ [.completed x k v a]) log.length = if lastChange log ≤ a then some (x, v) else none := by
    unfold arrivedAt
    simp only [List.getElem?_concat_length, List.take_left']
    rw [List.drop_append_of_le_length ha.le, List.any_append]
    have hl := lastChange_le_iff log a ha.le
    by_cases hle : lastChange log ≤ a
    · rw [if_pos hle, if_pos]
      exact ⟨by rw [(hl.1 hle).1]; rfl, (hl.1 hle).2⟩
    · rw [if_neg hle, if_neg]
      rintro ⟨h1, h2⟩
      rw [Bool.or_eq_false_iff] at h1
      exact hle (hl.2 ⟨h1.1, h2⟩)
  rw [h]
  split_ifs <;> rfl

variable [DecidableEq P] {cfg : Config P}

/-- The data of the current run. -/
structure Arr (cfg : Config P) (w : Sys P) : Prop where
  cur : Cur cfg w
  X : w.st.curX = (arrived w.st.log).map Prod.fst
  fX : w.st.curFX = (arrived w.st.log).map Prod.snd

theorem Arr.of_same {w w' : Sys P} (h : Arr cfg w) (hc : Cur cfg w') (m : List (Event P)) (hl : w'.st.log = w.st.log ++ m)
    (hm : m.any isRestart = false) (hn : ∀ x k v a, Event.completed x k v a ∉ m)
    (hX : w'.st.curX = w.st.curX) (hf : w'.st.curFX = w.st.curFX) : Arr cfg w' :=
  ⟨hc, by rw [hX, h.X, hl, arrived_same h.cur.ids.compl hm hn], by rw [hf, h.fX, hl, arrived_same h.cur.ids.compl hm hn]⟩

theorem adjustStep_arr (cfg : Config P) (sc : SrbfCfg) (z : Srbf) (f : Val) (s : State P) :
    (∃ m, (s.adjustStep cfg sc z f).log = s.log ++ m ∧ (m = [.adjusted f] ∨ m = [.adjusted f, .stepChange])) ∧
    (s.adjustStep cfg sc z f).curX = s.curX ∧ (s.adjustStep cfg sc z f).curFX = s.curFX := by
  unfold State.adjustStep
  dsimp only
  split <;> split
  · exact ⟨⟨_, List.append_assoc _ _ _, .inr rfl⟩, rfl, rfl⟩
  · exact ⟨⟨_, rfl, .inl rfl⟩, rfl, rfl⟩
  · exact ⟨⟨_, List.append_assoc _ _ _, .inr rfl⟩, rfl, rfl⟩
  · exact ⟨⟨_, rfl, .inl rfl⟩, rfl, rfl⟩

theorem arr_preserved (cfg : Config P) : Preserved cfg (Arr cfg) where
  create o := by
    refine ⟨(cur_preserved cfg).create o, ?_, ?_⟩ <;> simp [Sys.create, create_eq, State.blank] <;> rfl
  setTerm w h hb := h.of_same ((cur_preserved cfg).setTerm w h.cur hb) [] (by simp) rfl (by simp) rfl rfl
  setPhase w h a b c := h.of_same ((cur_preserved cfg).setPhase w h.cur a b c) [] (by simp) rfl (by simp) rfl rfl
  gen w o n s' h a b c d e hg := by
    have hc := (cur_preserved cfg).gen w o n s' h.cur a b c d e hg
    rcases generateEvals_cases hg with ⟨ws, z, rfl, hz⟩ | ⟨_, rfl, _⟩
    · exact h.of_same hc _ rfl rfl (by simp) rfl rfl
    · exact h.of_same hc [] (by simp) rfl (by simp) rfl rfl
  restart w o h a b c d := by
    refine ⟨(cur_preserved cfg).restart w o h.cur a b c d, ?_, ?_⟩ <;>
      simp only [sampleRestart_eq, arrived_restart h.cur.ids.compl] <;> rfl
  term w h a b := h.of_same ((cur_preserved cfg).term w h.cur a b) _ rfl rfl (by simp) rfl rfl
  pop w x q k h hg hcv hq hk := h.of_same ((cur_preserved cfg).pop w x q k h.cur hg hcv hq hk) _ rfl rfl (by simp) rfl rfl
  accept w i p h hp := h.of_same ((cur_preserved cfg).accept w i p h.cur hp) _ rfl rfl (by simp) rfl rfl
  rejectInit w i p h hp hk := by
    refine h.of_same ((cur_preserved cfg).rejectInit w i p h.cur hp hk) [.rejected p.x .init] ?_ rfl (by simp) ?_ ?_ <;>
      simp [onInitialRejected_eq, State.note]
  rejectAdapt w i p h hp hk := by
    refine h.of_same ((cur_preserved cfg).rejectAdapt w i p h.cur hp hk) [.rejected p.x .adapt] ?_ rfl (by simp) ?_ ?_ <;>
      simp [onAdaptReject_eq, State.note]
  completed w i r v h hr := by
    have hrm := mem_of_getElem? hr
    have hiff := h.cur.ids.recIff r hrm
    have ha := h.cur.ids.recAcc r hrm
    refine ⟨(cur_preserved cfg).completed w i r v h.cur hr, ?_, ?_⟩ <;>
      simp only [recordCompleted_eq, State.note, arrived_completed h.cur.ids.compl _ _ _ ha]
    · by_cases hgt : r.evId > w.st.evLast
      · rw [if_pos hgt, if_pos (hiff.1 hgt), h.X]; simp
      · rw [if_neg hgt, if_neg (fun hh => hgt (hiff.2 hh)), h.X]; simp
    · by_cases hgt : r.evId > w.st.evLast
      · rw [if_pos hgt, if_pos (hiff.1 hgt), h.fX]; simp
      · rw [if_neg hgt, if_neg (fun hh => hgt (hiff.2 hh)), h.fX]; simp
  adjusted w sc z v h hsc hz hc hv := by
    obtain ⟨⟨m, hl, hm⟩, hX, hf⟩ := adjustStep_arr cfg sc z (minValue z.recordQueue v) w.st
    refine h.of_same ((cur_preserved cfg).adjusted w sc z v h.cur hsc hz hc hv) m hl ?_ ?_ hX hf
    · rcases hm with rfl | rfl <;> rfl
    · rcases hm with rfl | rfl <;> simp
  queued w z v h hz a b := h.of_same ((cur_preserved cfg).queued w z v h.cur hz a b) [] (by simp) rfl (by simp) rfl rfl
  aborted w i r h hr := by
    refine h.of_same ((cur_preserved cfg).aborted w i r h.cur hr) [.aborted r.x r.kind] ?_ rfl (by simp) ?_ ?_ <;>
      simp [onAborted_eq, State.note]
  resume w h := by
    refine h.of_same ((cur_preserved cfg).resume w h.cur)
      [.crashed w.inflight, .resumed (if w.st.phase = .initial then w.st.Xpend else [])] ?_ rfl (by simp) ?_ ?_ <;>
      simp [Sys.resumed, resume_eq, State.note]

/-- Exactly which results reach the data of the current run and the surrogate, in every mode: those of the evaluations accepted
after the last restart during which the sampling radius was not changed (plus the known extra points, until the first
restart). -/
theorem C14_exact {w : Sys P} (h : Reach cfg w) :
    w.st.curX = (arrived w.st.log).map Prod.fst ∧ w.st.curFX = (arrived w.st.log).map Prod.snd ∧
    w.st.surr = (if restarted w.st.log then [] else known cfg.extras) ++ arrived w.st.log := by
  have ha := (arr_preserved cfg).reach h
  obtain ⟨cur, h1, h2, h3, -⟩ := ha.cur.data
  refine ⟨ha.X, ha.fX, ?_⟩
  have : cur = arrived w.st.log := by
    have e1 := h1.symm.trans ha.X
    have e2 := h2.symm.trans ha.fX
    have hz : ∀ l : List (P × Val), (l.map Prod.fst).zip (l.map Prod.snd) = l := fun l => by
      induction l with
      | nil => rfl
      | cons a l ih => simp [ih]
    rw [← hz cur, e1, e2, hz]
  rw [h3, this, known_eq]

/-- The evaluation of 103 was running when the radius changed: it belongs to the run, but does not arrive; the next one
does. -/
example : ∃ w, Reach demoSrbf w ∧ (decide ((arrived w.st.log).map Prod.fst = [1, 0, 100, 101, 102, 104]) &&
    decide ((currentRun w.st.log).map Prod.fst = [1, 0, 100, 101, 102, 103, 104])) = true :=
  exists_reach (orc 0) [pr 100, .accept 0, .complete 0 3, pr 100, .accept 0, .complete 0 3,
     pr 100, .accept 0, pr 101, .accept 0, pr 102, .accept 0, pr 103, .accept 0,
     .complete 0 3, .complete 0 2, .complete 0 1, .complete 0 5, pr 104, .accept 0, .complete 0 6] _ (by decide +kernel)

end Verif.Props
