import Verif.Strategy.Restarts
import Mathlib.Data.List.Perm.Subperm

/-! # The ledger of the current run -/

set_option linter.unusedSectionVars false
set_option linter.unusedSimpArgs false

namespace Verif.Strategy

open Verif.Spec

variable {P : Type} [DecidableEq P] {cfg : Config P}

theorem designs_append (l m : List (Event P)) : designs (l ++ m) = designs l ++ designs m := by simp [designs]
theorem requeued_append (l m : List (Event P)) : requeued (l ++ m) = requeued l ++ requeued m := by simp [requeued]

theorem thisRun_concat (l : List (Event P)) (e : Event P) : thisRun (l ++ [e]) = thisRunStep (thisRun l) e := by
  simp [thisRun]

/-- Records whose result will be given to the surrogate. -/
def Sys.freshRecs (w : Sys P) : List P := (w.recs.filter fun r => decide (w.st.evLast < r.evId)).map Rec.x

/-- Every point of the current design is accounted for. -/
structure RunLedger (cfg : Config P) (w : Sys P) : Prop where
  book : Book cfg w
  ids : Ids w
  led : cfg.asynchronous = false ∨ radiusChanged (thisRun w.st.log) = false → ∀ x,
    (designs (thisRun w.st.log)).count x + (requeued (thisRun w.st.log)).count x ≤
      w.st.curX.count x + w.st.batchQueue.count x + (w.props.map Proposal.x).count x + w.freshRecs.count x +
        (droppedBy cfg.asynchronous (thisRun w.st.log)).count x + (crashedBy (thisRun w.st.log)).count x

theorem RunLedger.of_same {w w' : Sys P} (h : RunLedger cfg w) (hb : Book cfg w') (hi : Ids w') (m : List (Event P))
    (hl : w'.st.log = w.st.log ++ m) (hm : thisRun (w.st.log ++ m) = thisRun w.st.log ++ m) (hd : designs m = [])
    (hra : radiusChanged m = false)
    (hc : ∀ x, (requeued m).count x + (w.st.curX.count x + w.st.batchQueue.count x + (w.props.map Proposal.x).count x +
        w.freshRecs.count x) ≤
      w'.st.curX.count x + w'.st.batchQueue.count x + (w'.props.map Proposal.x).count x + w'.freshRecs.count x +
        (droppedBy cfg.asynchronous m).count x + (crashedBy m).count x) : RunLedger cfg w' := by
  refine ⟨hb, hi, ?_⟩
  rw [hl, hm]
  simp only [radiusChanged_append, hra, Bool.or_false, designs_append, requeued_append, droppedBy_append, crashedBy_append,
    List.count_append, hd, List.count_nil]
  intro hh x
  have h1 := h.led hh x
  have h2 := hc x
  omega

theorem thisRun_one (l : List (Event P)) {e : Event P} (he : thisRunStep [] e = [] ++ [e])
    (h1 : ∀ q, e ≠ .start q) (h2 : ∀ q, e ≠ .restart q) : thisRun (l ++ [e]) = thisRun l ++ [e] := by
  rw [thisRun_concat]
  cases e <;> first | rfl | exact absurd rfl (h1 _) | exact absurd rfl (h2 _)

macro "oneEv" : tactic => `(tactic| exact thisRun_one _ rfl (by intro q; simp) (by intro q; simp))

macro "runled" : tactic => `(tactic|
  simp [requeued, droppedBy, crashedBy, List.count_append, List.count_cons, Sys.freshRecs])

theorem count_fresh {l : List (Rec P)} {i : Nat} {r : Rec P} (t : Nat) (h : l[i]? = some r) (x : P) :
    ((l.filter fun r => decide (t < r.evId)).map Rec.x).count x =
      (((l.eraseIdx i).filter fun r => decide (t < r.evId)).map Rec.x).count x + (if t < r.evId ∧ r.x = x then 1 else 0) := by
  have := (((perm_eraseIdx h).filter fun r => decide (t < r.evId)).map Rec.x).count_eq x
  rw [this]
  by_cases ht : t < r.evId <;> simp [List.filter_cons, ht, List.count_cons]

theorem runLedger_preserved (cfg : Config P) : Preserved cfg (RunLedger cfg) where
  create o := by
    refine ⟨(book_preserved cfg).create o, (ids_preserved cfg).create o, fun _ x => ?_⟩
    simp [Sys.create, create_eq, State.blank, thisRun, thisRunStep, designs, requeued]
    omega
  setTerm w h a := ⟨(book_preserved cfg).setTerm w h.book a, (ids_preserved cfg).setTerm w h.ids a, h.led⟩
  setPhase w h a b c := ⟨(book_preserved cfg).setPhase w h.book a b c, (ids_preserved cfg).setPhase w h.ids a b c, h.led⟩
  gen w o n s' h a b c d e hg := by
    have hb := (book_preserved cfg).gen w o n s' h.book a b c d e hg
    have hi := (ids_preserved cfg).gen w o n s' h.ids a b c d e hg
    rcases generateEvals_cases hg with ⟨ws, z, rfl, hz⟩ | ⟨_, rfl, _⟩
    · refine h.of_same hb hi _ rfl (by oneEv) rfl rfl fun x => ?_
      runled
    · exact ⟨hb, hi, h.led⟩
  restart w o h a b c d := by
    refine ⟨(book_preserved cfg).restart w o h.book a b c d, (ids_preserved cfg).restart w o h.ids a b c d, fun _ x => ?_⟩
    rw [sampleRestart_eq]
    simp [thisRun_concat, thisRunStep, designs, requeued, List.count_append]
    omega
  term w h a b := by
    refine h.of_same ((book_preserved cfg).term w h.book a b) ((ids_preserved cfg).term w h.ids a b) _ rfl (by oneEv) rfl rfl
      fun x => ?_
    runled; exact le_rfl
  pop w x q k h hg hcv hq hk := by
    refine h.of_same ((book_preserved cfg).pop w x q k h.book hg hcv hq hk) ((ids_preserved cfg).pop w x q k h.ids hg hcv hq hk)
      [.proposed x k] rfl (by oneEv) rfl rfl fun y => ?_
    rw [hq]
    simp only [State.makeProposal, State.note]
    runled; omega
  accept w i p h hp := by
    refine h.of_same ((book_preserved cfg).accept w i p h.book hp) ((ids_preserved cfg).accept w i p h.ids hp)
      [.accepted p.x p.kind w.st.evNext] rfl (by oneEv) rfl rfl fun y => ?_
    rw [count_eraseIdx_map Proposal.x hp y]
    have hlt := h.ids.lt
    simp only [State.onAccept, State.note]
    runled
    simp [List.filter_cons, hlt, List.count_cons]
    omega
  rejectInit w i p h hp hk := by
    refine h.of_same ((book_preserved cfg).rejectInit w i p h.book hp hk) ((ids_preserved cfg).rejectInit w i p h.ids hp hk)
      [.rejected p.x .init] (by simp [onInitialRejected_eq, State.note]) (by oneEv) rfl rfl fun y => ?_
    rw [count_eraseIdx_map Proposal.x hp y]
    simp only [onInitialRejected_eq, State.note]
    runled; omega
  rejectAdapt w i p h hp hk := by
    refine h.of_same ((book_preserved cfg).rejectAdapt w i p h.book hp hk) ((ids_preserved cfg).rejectAdapt w i p h.ids hp hk)
      [.rejected p.x .adapt] (by simp [onAdaptReject_eq, State.note]) (by oneEv) rfl rfl fun y => ?_
    rw [count_eraseIdx_map Proposal.x hp y]
    simp only [onAdaptReject_eq, State.note]
    cases ha : cfg.asynchronous <;> runled <;> omega
  completed w i r v h hr := by
    refine h.of_same ((book_preserved cfg).completed w i r v h.book hr) ((ids_preserved cfg).completed w i r v h.ids hr)
      [.completed r.x r.kind v r.accAt] (by simp [recordCompleted_eq, State.note]) (by oneEv) rfl rfl fun y => ?_
    rw [Sys.freshRecs, count_fresh _ hr y]
    simp only [recordCompleted_eq, State.note]
    by_cases hgt : w.st.evLast < r.evId
    · simp only [hgt, true_and]
      runled
      omega
    · simp only [hgt, false_and]
      runled
  adjusted w sc z v h hsc hz hc hv := by
    refine (adjusted_of (I := fun w => RunLedger cfg w) ?_ ?_ ?_ w sc z _ h hz hc)
    · intro w z' f h hs
      refine h.of_same (h.book.adj z' f hs)
        (h.ids.of_same _ rfl (by rw [lastChange_concat]) rfl (by simp) rfl rfl (fun _ => id) (fun _ => .inl))
        [.adjusted f] rfl (by oneEv) rfl rfl fun y => ?_
      runled
    · intro w h hs hcond
      refine ⟨h.book.stepChange, h.ids.of_barrier .stepChange rfl (by rw [lastChange_concat]) rfl (by simp) rfl rfl rfl rfl, ?_⟩
      have he : thisRun (w.st.log ++ [Event.stepChange]) = thisRun w.st.log ++ [.stepChange] := by oneEv
      simp only [State.moveEvLast, he, radiusChanged_append]
      intro hc y
      have hh : cfg.asynchronous = false := by simpa [radiusChanged] using hc
      have := h.led (.inl hh) y
      have h0 : w.recs = [] := by
        rcases hcond with hcond | ⟨_, hcond⟩
        · rw [hh] at hcond; cases hcond
        · have := h.book.pending
          rw [hcond] at this
          have h0 : w.recs.length = 0 := by omega
          exact List.length_eq_zero_iff.1 h0
      simp only [Sys.freshRecs, h0, designs_append, requeued_append, droppedBy_append, crashedBy_append, List.count_append] at this ⊢
      simpa [designs, requeued, droppedBy, crashedBy] using this
    · intro w h hs
      refine ⟨?_, ?_, h.led⟩
      · have h := h.book
        exact ⟨h.pending, h.num, h.X, h.fX, h.fevals, h.acc, h.rej, h.budget, h.srbf, h.opn⟩
      · exact h.ids.of_same [] (by simp) (by simp) rfl (by simp) rfl rfl (fun _ => id) (fun _ => .inl)
  queued w z v h hz a b := ⟨(book_preserved cfg).queued w z v h.book hz a b, (ids_preserved cfg).queued w z v h.ids hz a b, h.led⟩
  aborted w i r h hr := by
    refine h.of_same ((book_preserved cfg).aborted w i r h.book hr) ((ids_preserved cfg).aborted w i r h.ids hr)
      [.aborted r.x r.kind] (by simp [onAborted_eq, State.note]) (by oneEv) rfl rfl fun y => ?_
    rw [Sys.freshRecs, count_fresh _ hr y]
    have hle : (if w.st.evLast < r.evId ∧ r.x = y then 1 else 0) ≤ (if r.x = y then 1 else 0) := by
      split <;> rename_i hq <;> simp [hq]
    simp only [onAborted_eq, State.note]
    cases hk : r.kind <;> runled <;> omega
  resume w h := by
    refine h.of_same ((book_preserved cfg).resume w h.book) ((ids_preserved cfg).resume w h.ids)
      [.crashed w.inflight, .resumed (if w.st.phase = .initial then w.st.Xpend else [])]
      (by simp [Sys.resumed, resume_eq, State.note])
      (by
        rw [show w.st.log ++ [.crashed w.inflight, .resumed (if w.st.phase = .initial then w.st.Xpend else [])] =
          (w.st.log ++ [.crashed w.inflight]) ++ [.resumed (if w.st.phase = .initial then w.st.Xpend else [])] by simp,
          thisRun_one _ rfl (by intro q; simp) (by intro q; simp), thisRun_one _ rfl (by intro q; simp) (by intro q; simp)]
        simp) rfl rfl fun y => ?_
    have hsub : w.freshRecs.count y ≤ (w.recs.map Rec.x).count y := (List.filter_sublist.map Rec.x).count_le y
    simp only [Sys.freshRecs] at hsub
    simp only [Sys.resumed, resume_eq, Sys.inflight, State.note]
    runled
    omega

theorem Reach.runLedger {w : Sys P} (h : Reach cfg w) : RunLedger cfg w := (runLedger_preserved cfg).reach h

/-! ### What holds whenever points are generated -/

theorem Preserved.and {I J : Sys P → Prop} (a : Preserved cfg I) (b : Preserved cfg J) :
    Preserved cfg (fun w => I w ∧ J w) where
  create o := ⟨a.create o, b.create o⟩
  setTerm w h x := ⟨a.setTerm w h.1 x, b.setTerm w h.2 x⟩
  setPhase w h x y z := ⟨a.setPhase w h.1 x y z, b.setPhase w h.2 x y z⟩
  gen w o n s h x1 x2 x3 x4 x5 x6 := ⟨a.gen w o n s h.1 x1 x2 x3 x4 x5 x6, b.gen w o n s h.2 x1 x2 x3 x4 x5 x6⟩
  restart w o h x1 x2 x3 x4 := ⟨a.restart w o h.1 x1 x2 x3 x4, b.restart w o h.2 x1 x2 x3 x4⟩
  term w h x y := ⟨a.term w h.1 x y, b.term w h.2 x y⟩
  pop w x q k h x1 x2 x3 x4 := ⟨a.pop w x q k h.1 x1 x2 x3 x4, b.pop w x q k h.2 x1 x2 x3 x4⟩
  accept w i p h x := ⟨a.accept w i p h.1 x, b.accept w i p h.2 x⟩
  rejectInit w i p h x y := ⟨a.rejectInit w i p h.1 x y, b.rejectInit w i p h.2 x y⟩
  rejectAdapt w i p h x y := ⟨a.rejectAdapt w i p h.1 x y, b.rejectAdapt w i p h.2 x y⟩
  completed w i r v h x := ⟨a.completed w i r v h.1 x, b.completed w i r v h.2 x⟩
  adjusted w sc z v h x1 x2 x3 x4 := ⟨a.adjusted w sc z v h.1 x1 x2 x3 x4, b.adjusted w sc z v h.2 x1 x2 x3 x4⟩
  queued w z v h x1 x2 x3 := ⟨a.queued w z v h.1 x1 x2 x3, b.queued w z v h.2 x1 x2 x3⟩
  aborted w i r h x := ⟨a.aborted w i r h.1 x, b.aborted w i r h.2 x⟩
  resume w h := ⟨a.resume w h.1, b.resume w h.2⟩

theorem prefix_append_noGen {l t m : List (Event P)} {q : List P} {ws : List ℚ} (hm : ∀ q ws, Event.generated q ws ∉ m)
    (hp : l ++ [.generated q ws] <+: t ++ m) : l ++ [.generated q ws] <+: t := by
  induction m using List.reverseRecOn with
  | nil => simpa using hp
  | append_singleton m e ih =>
    rw [← List.append_assoc] at hp
    rcases prefix_concat_cases hp with hp | hp
    · exact ih (fun q ws hq => hm q ws (by simp [hq])) hp
    · have := congrArg List.getLast? hp
      simp at this
      exact absurd this (by intro hh; exact hm q ws (by simp [hh]))

/-- What holds in every state in which points are generated holds before every such event of the history. -/
theorem generated_preserved {J : Sys P → Prop} {Q : List (Event P) → Prop} (hJ : Preserved cfg J)
    (hQ : ∀ w, J w → w.st.batchQueue = [] → (cfg.asynchronous = true ∨ w.st.pendingEvals = 0) → Q w.st.log) :
    Preserved cfg (fun w => J w ∧ ∀ l q ws, l ++ [.generated q ws] <+: w.st.log → Q l) := by
  have same : ∀ (t m : List (Event P)), (∀ q ws, Event.generated q ws ∉ m) → (∀ l q ws, l ++ [.generated q ws] <+: t → Q l) →
      ∀ l q ws, l ++ [.generated q ws] <+: t ++ m → Q l := fun t m hm h l q ws hp => h l q ws (prefix_append_noGen hm hp)
  refine ⟨⟨?_, ?_, ?_, ?_, ?_, ?_, ?_, ?_, ?_, ?_, ?_, ?_, ?_, ?_⟩, fun o => ⟨hJ.create o, ?_⟩⟩
  · intro w h a; exact ⟨hJ.setTerm w h.1 a, h.2⟩
  · intro w h a b c; exact ⟨hJ.setPhase w h.1 a b c, h.2⟩
  · intro w o n s' h a b c d e hg
    refine ⟨hJ.gen w o n s' h.1 a b c d e hg, ?_⟩
    rcases generateEvals_cases hg with ⟨ws, z, rfl, hz⟩ | ⟨_, rfl, hno⟩
    · intro l q ws' hp
      rcases prefix_concat_cases hp with hp | hp
      · exact h.2 l q ws' hp
      · rw [List.append_inj_left' hp rfl]
        exact hQ w h.1 c (e.imp (fun h => h.1) fun h => h.2.1)
    · exact h.2
  · intro w o h a b c d
    refine ⟨hJ.restart w o h.1 a b c d, ?_⟩
    rw [sampleRestart_eq]
    exact same _ _ (by simp) h.2
  · intro w h a b; exact ⟨hJ.term w h.1 a b, same _ _ (by simp) h.2⟩
  · intro w x q k h a b c d; exact ⟨hJ.pop w x q k h.1 a b c d, same _ _ (by simp) h.2⟩
  · intro w i p h hp; exact ⟨hJ.accept w i p h.1 hp, same _ _ (by simp) h.2⟩
  · intro w i p h hp hk
    exact ⟨hJ.rejectInit w i p h.1 hp hk, by rw [onInitialRejected_eq]; exact same _ _ (by simp) h.2⟩
  · intro w i p h hp hk
    exact ⟨hJ.rejectAdapt w i p h.1 hp hk, by rw [onAdaptReject_eq]; exact same _ _ (by simp) h.2⟩
  · intro w i r v h hr
    exact ⟨hJ.completed w i r v h.1 hr, by rw [recordCompleted_eq]; exact same _ _ (by simp) h.2⟩
  · intro w sc' z v h hsc' hz hc hv
    refine ⟨hJ.adjusted w sc' z v h.1 hsc' hz hc hv, ?_⟩
    rw [adjustStep_eq]
    refine same _ _ ?_ h.2
    intro q ws; split <;> simp
  · intro w z v h hz a b; exact ⟨hJ.queued w z v h.1 hz a b, h.2⟩
  · intro w i r h hr
    exact ⟨hJ.aborted w i r h.1 hr, by rw [onAborted_eq]; exact same _ _ (by simp) h.2⟩
  · intro w h
    refine ⟨hJ.resume w h.1, ?_⟩
    simp only [Sys.resumed, resume_eq, State.note, List.append_assoc]
    exact same _ _ (by simp) h.2
  · intro l q ws hp
    simp only [Sys.create, create_eq] at hp
    rcases prefix_concat_cases (l := []) hp with hp | hp
    · simp at hp
    · have := congrArg List.getLast? hp
      simp at this

/-- The ledger of the run when points are asked for. -/
theorem RunLedger.asked {w : Sys P} (h : RunLedger cfg w) (hq : w.st.batchQueue = [])
    (hr : cfg.asynchronous = false ∨ radiusChanged (thisRun w.st.log) = false) :
    (designs (thisRun w.st.log) ++ requeued (thisRun w.st.log)).Subperm
      (w.st.curX ++ openPoints w.st.log ++ droppedBy cfg.asynchronous (thisRun w.st.log) ++ crashedBy (thisRun w.st.log)) := by
  rw [List.subperm_iff_count]
  intro x
  have h1 := h.led hr x
  have h2 := h.book.opn.count_eq x
  have hsub : w.freshRecs.count x ≤ (w.recs.map Rec.x).count x := (List.filter_sublist.map Rec.x).count_le x
  rw [hq] at h1
  simp only [List.count_append, List.count_nil, Sys.inflight] at h1 h2 ⊢
  omega

theorem RunLedger.idle {w : Sys P} (h : RunLedger cfg w) (hp : w.st.pendingEvals = 0) : openPoints w.st.log = [] := by
  have h1 := h.book.pending
  have h2 := h.book.opn.length_eq
  rw [hp] at h1
  simp only [Sys.inflight, List.length_append, List.length_map] at h2
  exact List.length_eq_zero_iff.1 (by omega)

theorem Reach.generatedAfter {w : Sys P} (h : Reach cfg w) : ∀ l q ws, l ++ [.generated q ws] <+: w.st.log →
    (cfg.asynchronous = false → openPoints l = []) ∧
    (cfg.asynchronous = false ∨ radiusChanged (thisRun l) = false →
      (designs (thisRun l) ++ requeued (thisRun l)).Subperm
        ((currentRun l).map Prod.fst ++ openPoints l ++ droppedBy cfg.asynchronous (thisRun l) ++ crashedBy (thisRun l))) := by
  refine ((generated_preserved ((runLedger_preserved cfg).and (cur_preserved cfg))
    (Q := fun l => (cfg.asynchronous = false → openPoints l = []) ∧
    (cfg.asynchronous = false ∨ radiusChanged (thisRun l) = false →
      (designs (thisRun l) ++ requeued (thisRun l)).Subperm
        ((currentRun l).map Prod.fst ++ openPoints l ++ droppedBy cfg.asynchronous (thisRun l) ++ crashedBy (thisRun l))))
    ?_).reach h).2
  intro w hw hq hp
  refine ⟨fun ha => hw.1.idle (hp.resolve_left (by simp [ha])), fun hr => (hw.1.asked hq hr).trans ?_⟩
  obtain ⟨cur, h1, _, _, h4, _⟩ := hw.2.data
  rw [h1]
  exact ((((h4.map Prod.fst).append (List.Sublist.refl _)).append (List.Sublist.refl _)).append
    (List.Sublist.refl _)).subperm

end Verif.Strategy
