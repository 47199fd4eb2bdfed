import Verif.Strategy.Inv2
import Mathlib.Data.List.Induction

/-! # Invariants of the strategy: pending points, batches, termination -/

set_option linter.unusedSectionVars false
set_option linter.unusedSimpArgs false

namespace Verif.Strategy

open Verif.Spec

variable {P : Type} [DecidableEq P] {cfg : Config P}

/-! ### Pending points -/

/-- `x` was never in flight more than once at a time. -/
def OnceOpen (x : P) (log : List (Event P)) : Prop :=
  ∀ l, l <+: log → (openPoints l).count x ≤ 1

theorem OnceOpen.of_append {x : P} {l m : List (Event P)} (h : OnceOpen x (l ++ m)) : OnceOpen x l :=
  fun k hk => h k (hk.trans (List.prefix_append l m))

structure XPend (cfg : Config P) (w : Sys P) : Prop where
  book : Book cfg w
  le : ∀ x, w.st.Xpend.count x ≤ w.inflight.count x
  eq : ∀ x, OnceOpen x w.st.log → w.st.Xpend.count x = w.inflight.count x

theorem XPend.of_same {w w' : Sys P} (h : XPend cfg w) (hb : Book cfg w')
    (hl : ∃ m, w'.st.log = w.st.log ++ m) (hx : w'.st.Xpend = w.st.Xpend)
    (hi : ∀ x, w'.inflight.count x = w.inflight.count x) : XPend cfg w' := by
  refine ⟨hb, ?_, ?_⟩
  · intro x; rw [hx, hi]; exact h.le x
  · intro x ho
    obtain ⟨m, hm⟩ := hl
    rw [hx, hi]; exact h.eq x (by rw [hm] at ho; exact ho.of_append)

theorem count_filter_ne (l : List P) (x y : P) :
    (l.filter fun z => decide (z ≠ x)).count y = if y = x then 0 else l.count y := by
  split
  · rename_i h; subst h
    rw [List.count_eq_zero]; simp
  · rename_i h
    rw [List.count_filter]; simpa using h

theorem XPend.of_remove {w w' : Sys P} {x : P} (h : XPend cfg w) (hb : Book cfg w')
    (hl : ∃ m, w'.st.log = w.st.log ++ m)
    (hx : w'.st.Xpend = w.st.Xpend.filter fun z => decide (z ≠ x))
    (hi : w.inflight.Perm (x :: w'.inflight)) : XPend cfg w' := by
  have hc : ∀ y, w.inflight.count y = w'.inflight.count y + if x = y then 1 else 0 := by
    intro y; rw [hi.count_eq]; simp [List.count_cons]
  refine ⟨hb, ?_, ?_⟩
  · intro y
    rw [hx, count_filter_ne]
    have := h.le y
    have := hc y
    split
    · omega
    · rename_i hne
      have : ¬ (x = y) := fun hh => hne hh.symm
      simp [this] at *
      omega
  · intro y ho
    rw [hx, count_filter_ne]
    obtain ⟨m, hm⟩ := hl
    have ho' : OnceOpen y w.st.log := by rw [hm] at ho; exact ho.of_append
    have h1 := h.eq y ho'
    have h2 := hc y
    have h3 := ho' w.st.log (List.prefix_refl _)
    rw [h.book.opn.count_eq] at h3
    split
    · rename_i heq; subst heq; simp at h2; omega
    · rename_i hne
      have : ¬ (x = y) := fun hh => hne hh.symm
      simp [this] at h2
      omega

theorem adjustStep_log (sc : SrbfCfg) (z : Srbf) (f : Val) (s : State P) :
    ∃ m, (s.adjustStep cfg sc z f).log = s.log ++ m := by
  unfold State.adjustStep
  simp only
  split <;> split <;> simp [State.moveEvLast]

theorem adjustStep_Xpend (sc : SrbfCfg) (z : Srbf) (f : Val) (s : State P) :
    (s.adjustStep cfg sc z f).Xpend = s.Xpend := by
  unfold State.adjustStep
  simp only
  split <;> split <;> simp [State.moveEvLast]

theorem xpend_preserved (cfg : Config P) : Preserved cfg (XPend cfg) where
  create o := by
    refine ⟨(book_preserved cfg).create o, ?_, ?_⟩ <;>
      simp [Sys.create, create_eq, State.blank, Sys.inflight]
  setTerm w h hb := h.of_same ((book_preserved cfg).setTerm w h.book hb) ⟨[], by simp⟩ rfl (fun _ => rfl)
  setPhase w h a b c :=
    h.of_same ((book_preserved cfg).setPhase w h.book a b c) ⟨[], by simp⟩ rfl (fun _ => rfl)
  gen w o n s' h a b c d e hg := by
    refine h.of_same ((book_preserved cfg).gen w o n s' h.book a b c d e hg) ?_ ?_ (fun _ => rfl) <;>
      rcases generateEvals_cases hg with ⟨ws, z, rfl, hz⟩ | ⟨_, rfl, _⟩ <;> simp
  restart w o h a b c d := by
    refine h.of_same ((book_preserved cfg).restart w o h.book a b c d) ?_ ?_ (fun _ => rfl) <;>
      simp [sampleRestart_eq]
  term w h a b :=
    h.of_same ((book_preserved cfg).term w h.book a b) ⟨_, rfl⟩ rfl (fun _ => rfl)
  pop w x q k h hg hcv hq hk := by
    refine ⟨(book_preserved cfg).pop w x q k h.book hg hcv hq hk, ?_, ?_⟩
    · intro y
      have := h.le y
      simp [State.makeProposal, State.note, Sys.inflight, List.count_append, List.count_cons] at this ⊢
      omega
    · intro y ho
      simp only [State.makeProposal, State.note] at ho
      have := h.eq y ho.of_append
      simp [State.makeProposal, State.note, Sys.inflight, List.count_append, List.count_cons] at this ⊢
      omega
  accept w i p h hp := by
    refine h.of_same ((book_preserved cfg).accept w i p h.book hp) ⟨_, rfl⟩ rfl ?_
    intro y
    rw [(inflight_props hp).count_eq]
    simp [Sys.inflight, List.count_append, List.count_cons]
    omega
  rejectInit w i p h hp hk := by
    refine h.of_remove (x := p.x) ((book_preserved cfg).rejectInit w i p h.book hp hk) ?_ ?_
      (inflight_props hp)
    · exact ⟨[.rejected p.x .init], by simp [onInitialRejected_eq, State.note]⟩
    · simp [onInitialRejected_eq, State.note]
  rejectAdapt w i p h hp hk := by
    refine h.of_remove (x := p.x) ((book_preserved cfg).rejectAdapt w i p h.book hp hk) ?_ ?_
      (inflight_props hp)
    · exact ⟨[.rejected p.x .adapt], by simp [onAdaptReject_eq, State.note]⟩
    · simp [onAdaptReject_eq, State.note]
  completed w i r v h hr := by
    refine h.of_remove (x := r.x) ((book_preserved cfg).completed w i r v h.book hr) ?_ ?_
      (inflight_recs hr)
    · exact ⟨[.completed r.x r.kind v r.accAt], by simp [recordCompleted_eq, State.note]⟩
    · simp [recordCompleted_eq, State.note]
  adjusted w sc z v h hsc hz hc hv :=
    h.of_same ((book_preserved cfg).adjusted w sc z v h.book hsc hz hc hv) (adjustStep_log sc z _ _)
      (adjustStep_Xpend sc z _ _) (fun _ => rfl)
  queued w z v h hz a b :=
    h.of_same ((book_preserved cfg).queued w z v h.book hz a b) ⟨[], by simp⟩ rfl (fun _ => rfl)
  aborted w i r h hr := by
    refine h.of_remove (x := r.x) ((book_preserved cfg).aborted w i r h.book hr) ?_ ?_
      (inflight_recs hr)
    · exact ⟨[.aborted r.x r.kind], by simp [onAborted_eq, State.note]⟩
    · simp [onAborted_eq, State.note]
  resume w h := by
    refine ⟨(book_preserved cfg).resume w h.book, ?_, ?_⟩ <;>
      simp [Sys.resumed, resume_eq, State.note, Sys.inflight]

theorem Reach.xpend {w : Sys P} (h : Reach cfg w) : XPend cfg w := (xpend_preserved cfg).reach h

/-! ### Termination flag -/

/-- The termination flag is only set when the budget has been charged completely at some point. -/
structure Term (cfg : Config P) (w : Sys P) : Prop where
  book : Book cfg w
  reached : w.st.terminate = true → ∃ l, l <+: w.st.log ∧ cfg.maxEvals ≤ (charged l : Int)

theorem Book.charged {w : Sys P} (h : Book cfg w) :
    (charged w.st.log : Int) = w.st.numEvals + w.st.pendingEvals := by
  have h1 := h.opn.length_eq
  have h2 := h.num
  have h3 := h.pending
  simp only [Spec.charged, Sys.inflight, List.length_append, List.length_map] at *
  omega

theorem Term.of_same {w w' : Sys P} (h : Term cfg w) (hb : Book cfg w')
    (hl : w.st.log <+: w'.st.log) (ht : w'.st.terminate = w.st.terminate) : Term cfg w' := by
  refine ⟨hb, fun hh => ?_⟩
  obtain ⟨l, h1, h2⟩ := h.reached (by rw [← ht]; exact hh)
  exact ⟨l, h1.trans hl, h2⟩

theorem term_preserved (cfg : Config P) : Preserved cfg (Term cfg) where
  create o := ⟨(book_preserved cfg).create o, by simp [Sys.create, create_eq, State.blank]⟩
  setTerm w h hb := by
    refine ⟨(book_preserved cfg).setTerm w h.book hb, fun _ => ⟨w.st.log, List.prefix_refl _, ?_⟩⟩
    rw [h.book.charged]; omega
  setPhase w h a b c :=
    h.of_same ((book_preserved cfg).setPhase w h.book a b c) (List.prefix_refl _) rfl
  gen w o n s' h a b c d e hg := by
    refine h.of_same ((book_preserved cfg).gen w o n s' h.book a b c d e hg) ?_ ?_ <;>
      rcases generateEvals_cases hg with ⟨ws, z, rfl, hz⟩ | ⟨_, rfl, _⟩ <;> simp
  restart w o h a b c d := by
    refine h.of_same ((book_preserved cfg).restart w o h.book a b c d) ?_ ?_ <;>
      simp [sampleRestart_eq]
  term w h a b :=
    h.of_same ((book_preserved cfg).term w h.book a b) (List.prefix_append _ _) rfl
  pop w x q k h hg hcv hq hk :=
    h.of_same ((book_preserved cfg).pop w x q k h.book hg hcv hq hk) (List.prefix_append _ _) rfl
  accept w i p h hp :=
    h.of_same ((book_preserved cfg).accept w i p h.book hp) (List.prefix_append _ _) rfl
  rejectInit w i p h hp hk := by
    refine h.of_same ((book_preserved cfg).rejectInit w i p h.book hp hk) ?_ ?_ <;>
      simp [onInitialRejected_eq, State.note]
  rejectAdapt w i p h hp hk := by
    refine h.of_same ((book_preserved cfg).rejectAdapt w i p h.book hp hk) ?_ ?_ <;>
      simp [onAdaptReject_eq, State.note]
  completed w i r v h hr := by
    refine h.of_same ((book_preserved cfg).completed w i r v h.book hr) ?_ ?_ <;>
      simp [recordCompleted_eq, State.note]
  adjusted w sc z v h hsc hz hc hv := by
    refine h.of_same ((book_preserved cfg).adjusted w sc z v h.book hsc hz hc hv) ?_ ?_
    · obtain ⟨m, hm⟩ := adjustStep_log (cfg := cfg) sc z (minValue z.recordQueue v) w.st
      simp [hm]
    · unfold State.adjustStep
      simp only
      split <;> split <;> simp [State.moveEvLast]
  queued w z v h hz a b :=
    h.of_same ((book_preserved cfg).queued w z v h.book hz a b) (List.prefix_refl _) rfl
  aborted w i r h hr := by
    refine h.of_same ((book_preserved cfg).aborted w i r h.book hr) ?_ ?_ <;>
      simp [onAborted_eq, State.note]
  resume w h := by
    refine h.of_same ((book_preserved cfg).resume w h.book) ?_ ?_ <;>
      simp [Sys.resumed, resume_eq, State.note]

theorem Reach.term {w : Sys P} (h : Reach cfg w) : Term cfg w := (term_preserved cfg).reach h

/-- Events that give nothing up never lower what has been charged. -/
theorem charged_mono (l m : List (Event P)) (h : ∀ e ∈ m, isLoss e = false)
    (hopen : ∀ k x kd v a, k <+: l ++ m → k ≠ l ++ m →
      k ++ [.completed x kd v a] <+: l ++ m → x ∈ openPoints k) :
    charged l ≤ charged (l ++ m) := by
  induction m using List.reverseRecOn with
  | nil => simp
  | append_singleton m e ih =>
    have h1 : charged l ≤ charged (l ++ m) := by
      apply ih
      · intro e' he'; exact h e' (by simp [he'])
      · intro k x kd v a hk hne hc
        refine hopen k x kd v a (hk.trans (by simp [← List.append_assoc])) ?_
          (hc.trans (by simp [← List.append_assoc]))
        intro heq
        have := hk.length_le
        rw [heq] at this
        simp at this
    refine h1.trans ?_
    have he := h e (by simp)
    simp only [charged, ← List.append_assoc, openPoints_concat, completions_append]
    cases e <;> simp [openStep, completions, isLoss] at he ⊢
    · rename_i x kd v a
      have hmem := hopen (l ++ m) x kd v a (by simp [← List.append_assoc]) (by
        intro heq
        have := congrArg List.length heq
        simp at this) (by simp)
      rw [List.length_erase_of_mem hmem]
      have : 0 < (openPoints (l ++ m)).length := List.length_pos_of_mem hmem
      simp [completions] at *
      omega

/-- In a reachable history only open points are completed. -/
def CompletedOpen (w : Sys P) : Prop :=
  ∀ k x kd v a, k ++ [.completed x kd v a] <+: w.st.log → x ∈ openPoints k

theorem prefix_concat_cases {α : Type} {k l : List α} {e : α} (h : k <+: l ++ [e]) :
    k <+: l ∨ k = l ++ [e] := by
  rcases List.prefix_concat_iff.1 h with h | h
  · exact .inr h
  · exact .inl h

theorem CompletedOpen.of_same {w w' : Sys P} (h : CompletedOpen w) (e : Event P)
    (he : ∀ x kd v a, e = .completed x kd v a → x ∈ openPoints w.st.log)
    (hl : w'.st.log = w.st.log ++ [e]) : CompletedOpen w' := by
  intro k x kd v a hk
  rw [hl] at hk
  rcases prefix_concat_cases hk with hk | hk
  · exact h k x kd v a hk
  · have := List.append_inj' hk rfl
    obtain ⟨rfl, h2⟩ := this
    simp at h2
    exact he x kd v a h2.symm

theorem completedOpen_preserved (cfg : Config P) :
    Preserved cfg (fun w => Book cfg w ∧ CompletedOpen w) where
  create o := by
    refine ⟨(book_preserved cfg).create o, ?_⟩
    intro k x kd v a hk
    simp only [Sys.create, create_eq] at hk
    have hk' : k ++ [.completed x kd v a] <+: [] ++ [Event.start _] := hk
    rcases prefix_concat_cases hk' with hk | hk
    · simp at hk
    · have := List.append_inj' hk rfl
      simp at this
  setTerm w h hb := ⟨(book_preserved cfg).setTerm w h.1 hb, h.2⟩
  setPhase w h a b c := ⟨(book_preserved cfg).setPhase w h.1 a b c, h.2⟩
  gen w o n s' h a b c d e hg := by
    refine ⟨(book_preserved cfg).gen w o n s' h.1 a b c d e hg, ?_⟩
    rcases generateEvals_cases hg with ⟨ws, z, rfl, hz⟩ | ⟨_, rfl, _⟩
    · exact h.2.of_same _ (by simp) rfl
    · exact h.2
  restart w o h a b c d := by
    refine ⟨(book_preserved cfg).restart w o h.1 a b c d, ?_⟩
    exact h.2.of_same (.restart _) (by simp) (by rw [sampleRestart_eq])
  term w h a b := ⟨(book_preserved cfg).term w h.1 a b, h.2.of_same _ (by simp) rfl⟩
  pop w x q k h hg hcv hq hk :=
    ⟨(book_preserved cfg).pop w x q k h.1 hg hcv hq hk, h.2.of_same _ (by simp) rfl⟩
  accept w i p h hp := ⟨(book_preserved cfg).accept w i p h.1 hp, h.2.of_same _ (by simp) rfl⟩
  rejectInit w i p h hp hk :=
    ⟨(book_preserved cfg).rejectInit w i p h.1 hp hk, h.2.of_same (.rejected p.x .init) (by simp)
      (by rw [onInitialRejected_eq]; rfl)⟩
  rejectAdapt w i p h hp hk :=
    ⟨(book_preserved cfg).rejectAdapt w i p h.1 hp hk, h.2.of_same (.rejected p.x .adapt) (by simp)
      (by rw [onAdaptReject_eq]; rfl)⟩
  completed w i r v h hr := by
    refine ⟨(book_preserved cfg).completed w i r v h.1 hr,
      h.2.of_same (.completed r.x r.kind v r.accAt) ?_ (by rw [recordCompleted_eq]; rfl)⟩
    intro x kd v' a heq
    cases heq
    rw [h.1.opn.mem_iff, (inflight_recs hr).mem_iff]; simp
  adjusted w sc z v h hsc hz hc hv := by
    refine adjusted_of (I := fun w => Book cfg w ∧ CompletedOpen w) ?_ ?_ ?_ w sc z _ h hz hc
    · intro w z f h hs
      exact ⟨h.1.adj z f hs, h.2.of_same (.adjusted f) (by simp) rfl⟩
    · intro w h hs hc
      exact ⟨h.1.stepChange, h.2.of_same .stepChange (by simp) rfl⟩
    · intro w h _
      exact ⟨⟨h.1.pending, h.1.num, h.1.X, h.1.fX, h.1.fevals, h.1.acc, h.1.rej, h.1.budget, h.1.srbf, h.1.opn⟩, h.2⟩
  queued w z v h hz a b := ⟨(book_preserved cfg).queued w z v h.1 hz a b, h.2⟩
  aborted w i r h hr :=
    ⟨(book_preserved cfg).aborted w i r h.1 hr, h.2.of_same (.aborted r.x r.kind) (by simp)
      (by rw [onAborted_eq]; rfl)⟩
  resume w h := by
    refine ⟨(book_preserved cfg).resume w h.1, ?_⟩
    have h1 : CompletedOpen { w with st := w.st.note (.crashed w.inflight) } :=
      h.2.of_same (.crashed w.inflight) (by simp) rfl
    exact h1.of_same (.resumed (if w.st.phase = .initial then w.st.Xpend else [])) (by simp)
      (by simp [Sys.resumed, resume_eq, State.note])

theorem Reach.completedOpen {w : Sys P} (h : Reach cfg w) : CompletedOpen w :=
  ((completedOpen_preserved cfg).reach h).2

/-! ### Synchronous batches -/

theorem lastSource_concat (l : List (Event P)) (e : Event P) :
    lastSourceAdaptive (l ++ [e]) = match e with
      | .start _ => false
      | .restart _ => false
      | .generated _ _ => true
      | _ => lastSourceAdaptive l := by
  simp only [lastSourceAdaptive, List.foldl_append, List.foldl_cons, List.foldl_nil]
  cases e <;> rfl

structure Batch (cfg : Config P) (w : Sys P) : Prop where
  book : Book cfg w
  phase : lastSourceAdaptive w.st.log = true → w.st.phase = .adaptive
  bound : cfg.asynchronous = false → lastSourceAdaptive w.st.log = true →
    w.st.batchQueue.length + w.props.length + w.recs.length ≤ cfg.batchSize

theorem batch_preserved (cfg : Config P) : Preserved cfg (Batch cfg) where
  create o := by
    refine ⟨(book_preserved cfg).create o, ?_, ?_⟩ <;>
      simp [Sys.create, create_eq, State.blank, lastSourceAdaptive]
  setTerm w h hb := ⟨(book_preserved cfg).setTerm w h.book hb, h.phase, h.bound⟩
  setPhase w h a b c := ⟨(book_preserved cfg).setPhase w h.book a b c, fun _ => rfl, h.bound⟩
  gen w o n s' h a b c d e hg := by
    refine ⟨(book_preserved cfg).gen w o n s' h.book a b c d e hg, ?_, ?_⟩
    · intro _
      rcases generateEvals_cases hg with ⟨ws, z, rfl, hz⟩ | ⟨_, rfl, _⟩ <;> exact d
    · intro ha hl
      have hp := h.book.pending
      rcases generateEvals_cases hg with ⟨ws, z, rfl, hz⟩ | ⟨_, rfl, _⟩
      · rcases e with e | e
        · simp [ha] at e
        · simp [c]
          omega
      · exact h.bound ha hl
  restart w o h a b c d := by
    refine ⟨(book_preserved cfg).restart w o h.book a b c d, ?_, ?_⟩ <;>
      simp [sampleRestart_eq, lastSource_concat]
  term w h a b := by
    refine ⟨(book_preserved cfg).term w h.book a b, ?_, ?_⟩ <;>
      simp only [State.note, lastSource_concat]
    · exact h.phase
    · exact h.bound
  pop w x q k h hg hcv hq hk := by
    refine ⟨(book_preserved cfg).pop w x q k h.book hg hcv hq hk, ?_, ?_⟩ <;>
      simp only [State.makeProposal, State.note, lastSource_concat]
    · exact h.phase
    · intro ha hl
      have := h.bound ha hl
      rw [hq] at this
      simp at this ⊢; omega
  accept w i p h hp := by
    have hl' := length_eraseIdx' hp
    refine ⟨(book_preserved cfg).accept w i p h.book hp, ?_, ?_⟩ <;>
      simp only [State.onAccept, State.note, lastSource_concat]
    · exact h.phase
    · intro ha hl
      have := h.bound ha hl
      simp at this ⊢; omega
  rejectInit w i p h hp hk := by
    have hl' := length_eraseIdx' hp
    refine ⟨(book_preserved cfg).rejectInit w i p h.book hp hk, ?_, ?_⟩ <;>
      simp only [onInitialRejected_eq, State.note, lastSource_concat]
    · exact h.phase
    · intro ha hl
      have := h.bound ha hl
      simp at this ⊢; omega
  rejectAdapt w i p h hp hk := by
    have hl' := length_eraseIdx' hp
    refine ⟨(book_preserved cfg).rejectAdapt w i p h.book hp hk, ?_, ?_⟩ <;>
      simp only [onAdaptReject_eq, State.note, lastSource_concat]
    · exact h.phase
    · intro ha hl
      have := h.bound ha hl
      simp [ha] at this ⊢; omega
  completed w i r v h hr := by
    have hl' := length_eraseIdx' hr
    refine ⟨(book_preserved cfg).completed w i r v h.book hr, ?_, ?_⟩ <;>
      simp only [recordCompleted_eq, State.note, lastSource_concat]
    · exact h.phase
    · intro ha hl
      have := h.bound ha hl
      simp at this ⊢; omega
  adjusted w sc z v h hsc hz hc hv := by
    refine ⟨(book_preserved cfg).adjusted w sc z v h.book hsc hz hc hv, ?_, ?_⟩ <;>
      simp only [State.adjustStep] <;> split <;> split <;>
      simp only [State.moveEvLast, lastSource_concat]
    all_goals first | exact h.phase | exact h.bound
  queued w z v h hz a b := ⟨(book_preserved cfg).queued w z v h.book hz a b, h.phase, h.bound⟩
  aborted w i r h hr := by
    have hl' := length_eraseIdx' hr
    refine ⟨(book_preserved cfg).aborted w i r h.book hr, ?_, ?_⟩ <;>
      simp only [onAborted_eq, State.note, lastSource_concat]
    · exact h.phase
    · intro ha hl
      have := h.bound ha hl
      split <;> simp at this ⊢ <;> omega
  resume w h := by
    refine ⟨(book_preserved cfg).resume w h.book, ?_, ?_⟩ <;>
      simp only [Sys.resumed, resume_eq, State.note, lastSource_concat]
    · exact h.phase
    · intro ha hl
      have := h.bound ha hl
      simp [h.phase hl] at this ⊢
      omega

theorem Reach.batch {w : Sys P} (h : Reach cfg w) : Batch cfg w := (batch_preserved cfg).reach h

end Verif.Strategy
