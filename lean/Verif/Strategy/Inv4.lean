import Verif.Strategy.Inv3

/-! # Invariants of the strategy: event identifiers, data of the current run -/

set_option linter.unusedSectionVars false
set_option linter.unusedSimpArgs false

namespace Verif.Strategy

open Verif.Spec

variable {P : Type} [DecidableEq P] {cfg : Config P}

/-! ### Positions -/

theorem lastRestart_fst (l : List (Event P)) (p : Nat × Nat) :
    (l.foldl (fun (p : Nat × Nat) e => match e with
      | .restart _ => (p.1 + 1, p.1 + 1)
      | _ => (p.1 + 1, p.2)) p).1 = p.1 + l.length := by
  induction l generalizing p with
  | nil => rfl
  | cons e l ih => rw [List.foldl_cons, ih]; cases e <;> simp <;> omega

theorem lastChange_fst (l : List (Event P)) (p : Nat × Nat) :
    (l.foldl (fun (p : Nat × Nat) e => match e with
      | .restart _ => (p.1 + 1, p.1 + 1)
      | .stepChange => (p.1 + 1, p.1 + 1)
      | _ => (p.1 + 1, p.2)) p).1 = p.1 + l.length := by
  induction l generalizing p with
  | nil => rfl
  | cons e l ih => rw [List.foldl_cons, ih]; cases e <;> simp <;> omega

theorem lastRestart_concat (l : List (Event P)) (e : Event P) :
    lastRestart (l ++ [e]) = match e with
      | .restart _ => l.length + 1
      | _ => lastRestart l := by
  simp only [lastRestart, List.foldl_append, List.foldl_cons, List.foldl_nil]
  cases e <;> simp only
  have := lastRestart_fst l (0, 0)
  simp only [Nat.zero_add] at this
  exact congrArg (· + 1) this

theorem lastChange_concat (l : List (Event P)) (e : Event P) :
    lastChange (l ++ [e]) = match e with
      | .restart _ => l.length + 1
      | .stepChange => l.length + 1
      | _ => lastChange l := by
  simp only [lastChange, List.foldl_append, List.foldl_cons, List.foldl_nil]
  have := lastChange_fst l (0, 0)
  simp only [Nat.zero_add] at this
  cases e <;> first | rfl | exact congrArg (· + 1) this

theorem lastRestart_le (l : List (Event P)) : lastRestart l ≤ lastChange l ∧ lastChange l ≤ l.length := by
  induction l using List.reverseRecOn with
  | nil => simp [lastRestart, lastChange]
  | append_singleton l e ih =>
    rw [lastRestart_concat, lastChange_concat]
    cases e <;> simp <;> omega

/-- The completions accepted at or after position `t`. -/
def since (t : Nat) (log : List (Event P)) : List (P × Val) :=
  log.filterMap fun e => match e with
    | .completed x _ v a => if t ≤ a then some (x, v) else none
    | _ => none

theorem currentRun_eq (l : List (Event P)) : currentRun l = since (lastRestart l) l := rfl
theorem sinceChange_eq (l : List (Event P)) : sinceChange l = since (lastChange l) l := rfl

theorem since_append (t : Nat) (l m : List (Event P)) : since t (l ++ m) = since t l ++ since t m := by
  simp [since]

theorem since_nil {t : Nat} {l : List (Event P)}
    (h : ∀ x k v a, Event.completed x k v a ∈ l → a < t) : since t l = [] := by
  unfold since
  rw [List.filterMap_eq_nil_iff]
  intro e he
  cases e <;> simp only
  rename_i x k v a
  have := h x k v a he
  rw [if_neg (by omega)]

/-- Identifiers and positions. -/
structure Ids (w : Sys P) : Prop where
  lt : w.st.evLast < w.st.evNext
  recLt : ∀ r ∈ w.recs, r.evId < w.st.evNext
  recAcc : ∀ r ∈ w.recs, r.accAt < w.st.log.length
  recIff : ∀ r ∈ w.recs, (w.st.evLast < r.evId ↔ lastChange w.st.log ≤ r.accAt)
  recMem : ∀ r ∈ w.recs, r.evId ∈ acceptedIds w.st.log
  fevMem : ∀ f ∈ w.st.fevals, f.evId ∈ acceptedIds w.st.log
  ids : (acceptedIds w.st.log).Pairwise (· < ·)
  idsLt : ∀ i ∈ acceptedIds w.st.log, i < w.st.evNext
  idsNe : ∀ i ∈ acceptedIds w.st.log, i ≠ w.st.evLast
  compl : ∀ x k v a, Event.completed x k v a ∈ w.st.log → a < w.st.log.length

/-- A step that only appends an event which is not a barrier, not an acceptance, not a completion, and removes
some records. -/
theorem Ids.of_same {w w' : Sys P} (h : Ids w) (m : List (Event P))
    (hl : w'.st.log = w.st.log ++ m)
    (hm : lastChange (w.st.log ++ m) = lastChange w.st.log)
    (hacc : acceptedIds m = [])
    (hco : ∀ x k v a, Event.completed x k v a ∈ m → a < w.st.log.length)
    (h1 : w'.st.evLast = w.st.evLast) (h2 : w'.st.evNext = w.st.evNext)
    (hr : ∀ r ∈ w'.recs, r ∈ w.recs)
    (hf : ∀ f ∈ w'.st.fevals, f ∈ w.st.fevals ∨ ∃ r ∈ w.recs, f.evId = r.evId) : Ids w' := by
  have hmem : ∀ i, i ∈ acceptedIds w'.st.log ↔ i ∈ acceptedIds w.st.log := by
    intro i; rw [hl, acceptedIds_append, hacc, List.append_nil]
  have hlen : w.st.log.length ≤ w'.st.log.length := by rw [hl]; simp
  constructor
  · rw [h1, h2]; exact h.lt
  · intro r hr'; rw [h2]; exact h.recLt r (hr r hr')
  · intro r hr'; exact (h.recAcc r (hr r hr')).trans_le hlen
  · intro r hr'; rw [h1, hl, hm]; exact h.recIff r (hr r hr')
  · intro r hr'; rw [hmem]; exact h.recMem r (hr r hr')
  · intro f hf'
    rw [hmem]
    rcases hf f hf' with h' | ⟨r, hr', he⟩
    · exact h.fevMem f h'
    · rw [he]; exact h.recMem r hr'
  · rw [hl, acceptedIds_append, hacc, List.append_nil]; exact h.ids
  · intro i hi; rw [h2]; exact h.idsLt i ((hmem i).1 hi)
  · intro i hi; rw [h1]; exact h.idsNe i ((hmem i).1 hi)
  · intro x k v a hmem'
    rw [hl, List.mem_append] at hmem'
    rcases hmem' with hh | hh
    · exact (h.compl x k v a hh).trans_le hlen
    · exact (hco x k v a hh).trans_le hlen

/-- A step that moves the barrier. -/
theorem Ids.of_barrier {w w' : Sys P} (h : Ids w) (e : Event P)
    (hl : w'.st.log = w.st.log ++ [e])
    (hm : lastChange (w.st.log ++ [e]) = w.st.log.length + 1)
    (hacc : acceptedIds [e] = [])
    (hco : ∀ x k v a, e ≠ .completed x k v a)
    (h1 : w'.st.evLast = w.st.evNext) (h2 : w'.st.evNext = w.st.evNext + 1)
    (hr : w'.recs = w.recs)
    (hf : w'.st.fevals = w.st.fevals) : Ids w' := by
  have hmem : acceptedIds w'.st.log = acceptedIds w.st.log := by
    rw [hl, acceptedIds_append, hacc, List.append_nil]
  constructor
  · omega
  · intro r hr'; rw [hr] at hr'; have := h.recLt r hr'; omega
  · intro r hr'; rw [hr] at hr'; have := h.recAcc r hr'; rw [hl]; simp; omega
  · intro r hr'
    rw [hr] at hr'
    have a := h.recAcc r hr'
    have b := h.recLt r hr'
    rw [hl, hm]; omega
  · intro r hr'; rw [hr] at hr'; rw [hmem]; exact h.recMem r hr'
  · rw [hmem, hf]; exact h.fevMem
  · rw [hmem]; exact h.ids
  · intro i hi; rw [hmem] at hi; have := h.idsLt i hi; omega
  · intro i hi; rw [hmem] at hi; have := h.idsLt i hi; omega
  · intro x k v a hh
    rw [hl, List.mem_append] at hh
    rcases hh with hh | hh
    · have := h.compl x k v a hh; rw [hl]; simp; omega
    · simp only [List.mem_singleton] at hh; exact absurd hh.symm (hco x k v a)

theorem ids_preserved (cfg : Config P) : Preserved cfg Ids where
  create o := by
    constructor <;> simp [Sys.create, create_eq, State.blank, acceptedIds]
  setTerm w h hb := h.of_same [] (by simp) (by simp) rfl (by simp) rfl rfl (fun _ => id) (fun _ => .inl)
  setPhase w h a b c := h.of_same [] (by simp) (by simp) rfl (by simp) rfl rfl (fun _ => id) (fun _ => .inl)
  gen w o n s' h a b c d e hg := by
    rcases generateEvals_cases hg with ⟨ws, z, rfl, hz⟩ | ⟨_, rfl, _⟩
    · exact h.of_same _ rfl (by rw [lastChange_concat]) rfl (by simp) rfl rfl (fun _ => id) (fun _ => .inl)
    · exact h.of_same [] (by simp) (by simp) rfl (by simp) rfl rfl (fun _ => id) (fun _ => .inl)
  restart w o h a b c d := by
    refine h.of_barrier (.restart _) (by rw [sampleRestart_eq]) (by rw [lastChange_concat]) rfl (by simp) ?_ ?_
      rfl ?_ <;> simp [sampleRestart_eq]
  term w h a b :=
    h.of_same _ rfl (by rw [lastChange_concat]) rfl (by simp) rfl rfl (fun _ => id) (fun _ => .inl)
  pop w x q k h hg hcv hq hk :=
    h.of_same _ rfl (by rw [lastChange_concat]) rfl (by simp) rfl rfl (fun _ => id) (fun _ => .inl)
  accept w i p h hp := by
    constructor <;> simp only [State.onAccept, State.note, acceptedIds_append, lastChange_concat,
      List.length_append, List.length_cons, List.length_nil]
    · have := h.lt; omega
    · intro r hr
      simp only [List.mem_append, List.mem_singleton] at hr
      rcases hr with hr | rfl
      · have := h.recLt r hr; omega
      · simp
    · intro r hr
      simp only [List.mem_append, List.mem_singleton] at hr
      rcases hr with hr | rfl
      · have := h.recAcc r hr; omega
      · simp
    · intro r hr
      simp only [List.mem_append, List.mem_singleton] at hr
      rcases hr with hr | rfl
      · exact h.recIff r hr
      · have h1 := h.lt
        have h2 := (lastRestart_le w.st.log).2
        simp only; omega
    · intro r hr
      simp only [List.mem_append, List.mem_singleton] at hr ⊢
      rcases hr with hr | rfl
      · exact .inl (h.recMem r hr)
      · right; simp [acceptedIds]
    · intro f hf
      exact List.mem_append_left _ (h.fevMem f hf)
    · rw [List.pairwise_append]
      refine ⟨h.ids, by simp [acceptedIds], ?_⟩
      intro a ha b hb
      simp [acceptedIds] at hb
      subst hb
      exact h.idsLt a ha
    · intro i hi
      simp only [List.mem_append] at hi
      rcases hi with hi | hi
      · have := h.idsLt i hi; omega
      · simp [acceptedIds] at hi; omega
    · intro i hi
      simp only [List.mem_append] at hi
      rcases hi with hi | hi
      · exact h.idsNe i hi
      · simp [acceptedIds] at hi; have := h.lt; omega
    · intro x k v a hh
      simp at hh
      have := h.compl x k v a hh; omega
  rejectInit w i p h hp hk := by
    refine h.of_same [.rejected p.x .init] ?_ (by rw [lastChange_concat]) rfl (by simp) ?_ ?_ (fun _ => id) ?_ <;>
      simp [onInitialRejected_eq, State.note]
    intro f hf; exact .inl hf
  rejectAdapt w i p h hp hk := by
    refine h.of_same [.rejected p.x .adapt] ?_ (by rw [lastChange_concat]) rfl (by simp) ?_ ?_ (fun _ => id) ?_ <;>
      simp [onAdaptReject_eq, State.note]
    intro f hf; exact .inl hf
  completed w i r v h hr := by
    refine h.of_same [.completed r.x r.kind v r.accAt] ?_ (by rw [lastChange_concat]) rfl ?_ ?_ ?_ ?_ ?_ <;>
      (try simp only [recordCompleted_eq, State.note])
    · intro x k v' a hh
      simp at hh
      rw [hh.2.2.2]; exact h.recAcc r (mem_of_getElem? hr)
    · intro r' hr'; exact mem_of_eraseIdx hr'
    · intro f hf
      simp only [List.mem_append, List.mem_singleton] at hf
      rcases hf with hf | rfl
      · exact .inl hf
      · exact .inr ⟨r, mem_of_getElem? hr, rfl⟩
  adjusted w sc z v h hsc hz hc _ := by
    refine adjusted_of (I := Ids) ?_ ?_ ?_ w sc z _ h hz hc
    · intro w z f h hs
      exact h.of_same _ rfl (by rw [lastChange_concat]) rfl (by simp) rfl rfl (fun _ => id) (fun _ => .inl)
    · intro w h hs _
      exact h.of_barrier .stepChange rfl (by rw [lastChange_concat]) rfl (by simp) rfl rfl rfl rfl
    · intro w h _
      exact h.of_same [] (by simp) (by simp) rfl (by simp) rfl rfl (fun _ => id) (fun _ => .inl)
  queued w z v h hz _ _ :=
    h.of_same [] (by simp) (by simp) rfl (by simp) rfl rfl (fun _ => id) (fun _ => .inl)
  aborted w i r h hr := by
    refine h.of_same [.aborted r.x r.kind] ?_ (by rw [lastChange_concat]) rfl (by simp) ?_ ?_ ?_ ?_ <;>
      simp only [onAborted_eq, State.note]
    · intro r' hr'; exact mem_of_eraseIdx hr'
    · intro f hf
      simp only [List.mem_append, List.mem_singleton] at hf
      rcases hf with hf | rfl
      · exact .inl hf
      · exact .inr ⟨r, mem_of_getElem? hr, rfl⟩
  resume w h := by
    refine h.of_same [.crashed w.inflight, .resumed (if w.st.phase = .initial then w.st.Xpend else [])]
      ?_ ?_ rfl (by simp) ?_ ?_ ?_ ?_ <;> (try simp only [Sys.resumed, resume_eq, State.note])
    · simp
    · have : w.st.log ++ [.crashed w.inflight, .resumed (if w.st.phase = .initial then w.st.Xpend else [])] =
        (w.st.log ++ [.crashed w.inflight]) ++ [.resumed (if w.st.phase = .initial then w.st.Xpend else [])] := by
        simp
      rw [this, lastChange_concat, lastChange_concat]
    · simp
    · intro f hf; exact .inl hf

theorem Reach.ids {w : Sys P} (h : Reach cfg w) : Ids w := (ids_preserved cfg).reach h

/-! ### Data of the current run -/

theorem restarted_append (l m : List (Event P)) : restarted (l ++ m) = (restarted l || restarted m) := by
  simp [restarted]
theorem radiusChanged_append (l m : List (Event P)) :
    radiusChanged (l ++ m) = (radiusChanged l || radiusChanged m) := by
  simp [radiusChanged]

/-- The data of the current run lies between what was accepted since the last barrier and what was accepted
since the last restart. -/
structure Cur (cfg : Config P) (w : Sys P) : Prop where
  book : Book cfg w
  ids : Ids w
  data : ∃ cur, w.st.curX = cur.map Prod.fst ∧ w.st.curFX = cur.map Prod.snd ∧
    w.st.surr = (if restarted w.st.log then [] else knownExtras cfg) ++ cur ∧
    cur.Sublist (currentRun w.st.log) ∧ (sinceChange w.st.log).Sublist cur ∧
    (cfg.asynchronous = false ∨ radiusChanged w.st.log = false → cur = currentRun w.st.log)
  same : cfg.asynchronous = false ∨ radiusChanged w.st.log = false →
    ∀ r ∈ w.recs, lastRestart w.st.log ≤ r.accAt → lastChange w.st.log ≤ r.accAt
  noSrbf : cfg.srbf = none → radiusChanged w.st.log = false

theorem Cur.of_same {w w' : Sys P} (h : Cur cfg w) (hb : Book cfg w') (hi : Ids w') (m : List (Event P))
    (hl : w'.st.log = w.st.log ++ m)
    (h1 : lastChange (w.st.log ++ m) = lastChange w.st.log)
    (h2 : lastRestart (w.st.log ++ m) = lastRestart w.st.log)
    (hco : ∀ t, since t m = [])
    (hre : restarted m = false) (hra : radiusChanged m = false)
    (hc : w'.st.curX = w.st.curX) (hcf : w'.st.curFX = w.st.curFX) (hs : w'.st.surr = w.st.surr)
    (hr : ∀ r ∈ w'.recs, r ∈ w.recs ∨ lastChange w.st.log ≤ r.accAt) : Cur cfg w' := by
  refine ⟨hb, hi, ?_, ?_, ?_⟩
  · obtain ⟨cur, a, b, c, d, e, f⟩ := h.data
    refine ⟨cur, hc.trans a, hcf.trans b, ?_, ?_, ?_, ?_⟩
    · rw [hs, c, hl, restarted_append, hre, Bool.or_false]
    · rw [currentRun_eq, hl, h2, since_append, hco, List.append_nil]; exact d
    · rw [sinceChange_eq, hl, h1, since_append, hco, List.append_nil]; exact e
    · rw [currentRun_eq, hl, h2, since_append, hco, List.append_nil, radiusChanged_append, hra, Bool.or_false]
      exact f
  · rw [hl, radiusChanged_append, hra, Bool.or_false, h1, h2]
    intro hh r hr' hlr
    rcases hr r hr' with h' | h'
    · exact h.same hh r h' hlr
    · exact h'
  · rw [hl, radiusChanged_append, hra, Bool.or_false]; exact h.noSrbf

theorem cur_preserved (cfg : Config P) : Preserved cfg (Cur cfg) where
  create o := by
    refine ⟨(book_preserved cfg).create o, (ids_preserved cfg).create o, ⟨[], ?_⟩, ?_, ?_⟩ <;>
      simp [Sys.create, create_eq, State.blank, restarted, radiusChanged, sinceChange, currentRun]
  setTerm w h hb := h.of_same ((book_preserved cfg).setTerm w h.book hb) ((ids_preserved cfg).setTerm w h.ids hb)
    [] (by simp) (by simp) (by simp) (fun _ => rfl) rfl rfl rfl rfl rfl (fun _ => .inl)
  setPhase w h a b c := h.of_same ((book_preserved cfg).setPhase w h.book a b c)
    ((ids_preserved cfg).setPhase w h.ids a b c)
    [] (by simp) (by simp) (by simp) (fun _ => rfl) rfl rfl rfl rfl rfl (fun _ => .inl)
  gen w o n s' h a b c d e hg := by
    have hb := (book_preserved cfg).gen w o n s' h.book a b c d e hg
    have hi := (ids_preserved cfg).gen w o n s' h.ids a b c d e hg
    rcases generateEvals_cases hg with ⟨ws, z, rfl, hz⟩ | ⟨_, rfl, _⟩
    · exact h.of_same hb hi _ rfl (by rw [lastChange_concat]) (by rw [lastRestart_concat]) (fun _ => rfl) rfl rfl
        rfl rfl rfl (fun _ => .inl)
    · exact h.of_same hb hi [] (by simp) (by simp) (by simp) (fun _ => rfl) rfl rfl rfl rfl rfl (fun _ => .inl)
  restart w o h a b c d := by
    have hsurr : (if w.st.X = [] then knownExtras cfg else []) = [] := by
      split
      · rename_i hh; exact knownExtras_nil_of h.book hh
      · rfl
    refine ⟨(book_preserved cfg).restart w o h.book a b c d, (ids_preserved cfg).restart w o h.ids a b c d,
      ⟨[], ?_⟩, ?_, ?_⟩ <;> simp only [sampleRestart_eq, hsurr]
    · have hnil : ∀ q, since (w.st.log.length + 1) (w.st.log ++ [.restart q]) = [] := by
        intro q
        apply since_nil
        intro x k v a hh
        simp at hh
        have := h.ids.compl x k v a hh; omega
      refine ⟨rfl, rfl, ?_, by simp, ?_, ?_⟩
      · simp [restarted]
      · rw [sinceChange_eq, lastChange_concat, hnil]
      · intro _
        rw [currentRun_eq, lastRestart_concat, hnil]
    · intro _ r hr
      simp only [lastRestart_concat, lastChange_concat]; exact id
    · intro hh; rw [radiusChanged_append, h.noSrbf hh]; rfl
  term w h a b := h.of_same ((book_preserved cfg).term w h.book a b) ((ids_preserved cfg).term w h.ids a b)
    _ rfl (by rw [lastChange_concat]) (by rw [lastRestart_concat]) (fun _ => rfl) rfl rfl rfl rfl rfl (fun _ => .inl)
  pop w x q k h hg hcv hq hk := h.of_same ((book_preserved cfg).pop w x q k h.book hg hcv hq hk)
    ((ids_preserved cfg).pop w x q k h.ids hg hcv hq hk)
    _ rfl (by rw [lastChange_concat]) (by rw [lastRestart_concat]) (fun _ => rfl) rfl rfl rfl rfl rfl (fun _ => .inl)
  accept w i p h hp := h.of_same ((book_preserved cfg).accept w i p h.book hp)
    ((ids_preserved cfg).accept w i p h.ids hp)
    _ rfl (by rw [lastChange_concat]) (by rw [lastRestart_concat]) (fun _ => rfl) rfl rfl rfl rfl rfl (by
      intro r hr
      simp only [List.mem_append, List.mem_singleton] at hr
      rcases hr with hr | rfl
      · exact .inl hr
      · exact .inr (lastRestart_le w.st.log).2)
  rejectInit w i p h hp hk := by
    refine h.of_same ((book_preserved cfg).rejectInit w i p h.book hp hk)
      ((ids_preserved cfg).rejectInit w i p h.ids hp hk) [.rejected p.x .init]
      ?_ (by rw [lastChange_concat]) (by rw [lastRestart_concat]) (fun _ => rfl) rfl rfl ?_ ?_ ?_ (fun _ => .inl) <;>
      simp [onInitialRejected_eq, State.note]
  rejectAdapt w i p h hp hk := by
    refine h.of_same ((book_preserved cfg).rejectAdapt w i p h.book hp hk)
      ((ids_preserved cfg).rejectAdapt w i p h.ids hp hk) [.rejected p.x .adapt]
      ?_ (by rw [lastChange_concat]) (by rw [lastRestart_concat]) (fun _ => rfl) rfl rfl ?_ ?_ ?_ (fun _ => .inl) <;>
      simp [onAdaptReject_eq, State.note]
  completed w i r v h hr := by
    have hrm := mem_of_getElem? hr
    obtain ⟨cur, a, b, c, d, e, f⟩ := h.data
    have hiff := h.ids.recIff r hrm
    have hle := (lastRestart_le w.st.log).1
    refine ⟨(book_preserved cfg).completed w i r v h.book hr, (ids_preserved cfg).completed w i r v h.ids hr,
      ⟨cur ++ if r.evId > w.st.evLast then [(r.x, v)] else [], ?_⟩, ?_, ?_⟩ <;>
      simp only [recordCompleted_eq, State.note]
    · by_cases hgt : r.evId > w.st.evLast
      · have hch : lastChange w.st.log ≤ r.accAt := hiff.1 hgt
        have hrs : lastRestart w.st.log ≤ r.accAt := hle.trans hch
        simp only [if_pos hgt]
        refine ⟨by rw [a]; simp, by rw [b]; simp, ?_, ?_, ?_, ?_⟩
        · rw [c, restarted_append]; simp [restarted]
        · rw [currentRun_eq, lastRestart_concat, since_append]
          refine List.Sublist.append d ?_
          simp [since, hrs]
        · rw [sinceChange_eq, lastChange_concat, since_append]
          refine List.Sublist.append e ?_
          simp [since, hch]
        · rw [currentRun_eq, lastRestart_concat, since_append, radiusChanged_append]
          intro hh
          rw [f (by simpa [radiusChanged] using hh)]
          simp [since, hrs, currentRun_eq]
      · have hch : ¬ lastChange w.st.log ≤ r.accAt := fun hh => hgt (hiff.2 hh)
        simp only [if_neg hgt, List.append_nil]
        refine ⟨a, b, ?_, ?_, ?_, ?_⟩
        · rw [c, restarted_append]; simp [restarted]
        · rw [currentRun_eq, lastRestart_concat, since_append]
          exact d.trans (List.sublist_append_left _ _)
        · rw [sinceChange_eq, lastChange_concat, since_append]
          have : since (lastChange w.st.log) [Event.completed r.x r.kind v r.accAt] = [] := by simp [since, hch]
          simp only [this, List.append_nil]; exact e
        · rw [currentRun_eq, lastRestart_concat, since_append, radiusChanged_append]
          intro hh
          have hh' : cfg.asynchronous = false ∨ radiusChanged w.st.log = false := by
            simpa [radiusChanged] using hh
          have hrs : ¬ lastRestart w.st.log ≤ r.accAt := fun h' => hch (h.same hh' r hrm h')
          rw [f hh']
          simp [since, hrs, currentRun_eq]
    · rw [radiusChanged_append, lastRestart_concat, lastChange_concat]
      intro hh r' hr'
      exact h.same (by simpa [radiusChanged] using hh) r' (mem_of_eraseIdx hr')
    · rw [radiusChanged_append]; intro hh; rw [h.noSrbf hh]; rfl
  adjusted w sc z v h hsc hz hc hv := by
    refine (adjusted_of (I := fun w => Cur cfg w) ?_ ?_ ?_ w sc z _ h hz hc)
    · intro w z' f h hs
      exact h.of_same (h.book.adj z' f hs)
        (h.ids.of_same _ rfl (by rw [lastChange_concat]) rfl (by simp) rfl rfl (fun _ => id) (fun _ => .inl))
        _ rfl (by rw [lastChange_concat]) (by rw [lastRestart_concat]) (fun _ => rfl) rfl rfl rfl rfl rfl (fun _ => .inl)
    · intro w h hs hcond
      have hi : Ids { w with st := { w.st.moveEvLast with log := w.st.log ++ [.stepChange] } } :=
        h.ids.of_barrier .stepChange rfl (by rw [lastChange_concat]) rfl (by simp) rfl rfl rfl rfl
      have hb := h.book.stepChange
      obtain ⟨cur, a, b, c, d, e, f⟩ := h.data
      have hch : radiusChanged (w.st.log ++ [.stepChange]) = true := by simp [radiusChanged]
      refine ⟨hb, hi, ⟨cur, a, b, ?_, ?_, ?_, ?_⟩, ?_, ?_⟩ <;> simp only [State.moveEvLast]
      · rw [restarted_append]; simpa [restarted] using c
      · rw [currentRun_eq, lastRestart_concat, since_append]
        simpa [since, currentRun_eq] using d
      · rw [sinceChange_eq, lastChange_concat, since_nil]
        · simp
        · intro x k v a hh
          simp at hh
          have := h.ids.compl x k v a hh
          simp only; omega
      · rw [currentRun_eq, lastRestart_concat, since_append, hch]
        intro hh
        have hh : cfg.asynchronous = false := by simpa using hh
        rw [f (.inl hh)]
        simp [since, currentRun_eq]
      · rw [hch]
        intro hh r hr
        have hh : cfg.asynchronous = false := by simpa using hh
        rcases hcond with hcond | ⟨_, hcond⟩
        · rw [hh] at hcond; cases hcond
        · have := h.book.pending
          rw [hcond] at this
          have h0 : w.recs.length = 0 := by omega
          have : w.recs = [] := List.length_eq_zero_iff.1 h0
          rw [this] at hr; simp at hr
      · intro hh
        have := h.book.srbf
        rw [hh] at this
        rw [this] at hs; simp at hs
    · intro w h hs
      refine h.of_same ?_ ?_ [] (by simp) (by simp) (by simp) (fun _ => rfl) rfl rfl rfl rfl rfl (fun _ => .inl)
      · have h := h.book
        exact ⟨h.pending, h.num, h.X, h.fX, h.fevals, h.acc, h.rej, h.budget, h.srbf, h.opn⟩
      · exact h.ids.of_same [] (by simp) (by simp) rfl (by simp) rfl rfl (fun _ => id) (fun _ => .inl)
  queued w z v h hz a b := h.of_same ((book_preserved cfg).queued w z v h.book hz a b)
    ((ids_preserved cfg).queued w z v h.ids hz a b)
    [] (by simp) (by simp) (by simp) (fun _ => rfl) rfl rfl rfl rfl rfl (fun _ => .inl)
  aborted w i r h hr := by
    refine h.of_same ((book_preserved cfg).aborted w i r h.book hr)
      ((ids_preserved cfg).aborted w i r h.ids hr) [.aborted r.x r.kind]
      ?_ (by rw [lastChange_concat]) (by rw [lastRestart_concat]) (fun _ => rfl) rfl rfl ?_ ?_ ?_ ?_ <;>
      simp [onAborted_eq, State.note]
    intro r' hr'; exact .inl (mem_of_eraseIdx hr')
  resume w h := by
    have hm : w.st.log ++ [.crashed w.inflight, .resumed (if w.st.phase = .initial then w.st.Xpend else [])] =
        (w.st.log ++ [.crashed w.inflight]) ++ [.resumed (if w.st.phase = .initial then w.st.Xpend else [])] := by
        simp
    refine h.of_same ((book_preserved cfg).resume w h.book) ((ids_preserved cfg).resume w h.ids)
      [.crashed w.inflight, .resumed (if w.st.phase = .initial then w.st.Xpend else [])]
      ?_ (by rw [hm, lastChange_concat, lastChange_concat]) (by rw [hm, lastRestart_concat, lastRestart_concat])
      (fun _ => rfl) rfl rfl ?_ ?_ ?_ ?_ <;> simp [Sys.resumed, resume_eq, State.note]

theorem Reach.cur {w : Sys P} (h : Reach cfg w) : Cur cfg w := (cur_preserved cfg).reach h

end Verif.Strategy
