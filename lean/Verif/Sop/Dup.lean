import Verif.Sop.Loss

/-! # Batches of SOP with equal points (C56) -/

set_option linter.unusedSectionVars false

namespace Verif.Spec

open Verif.Strategy

variable {P : Type}

/-- The points of the last batch that was generated. -/
def lastBatch (log : List (Event P)) : List P :=
  log.foldl (fun b e => match e with | .generated pts _ => pts | _ => b) []

theorem lastBatch_concat (l : List (Event P)) (e : Event P) :
    lastBatch (l ++ [e]) = match e with | .generated pts _ => pts | _ => lastBatch l := by
  simp only [lastBatch, List.foldl_append, List.foldl_cons, List.foldl_nil]

theorem lastBatch_append_two (l : List (Event P)) (e e' : Event P) :
    lastBatch (l ++ [e, e']) = lastBatch ((l ++ [e]) ++ [e']) := by simp

end Verif.Spec

namespace Verif.Sop

open Verif.Num Verif.Utils Verif.Strategy Verif.Spec
open List (Perm Sublist)

variable {d : ℕ} {c : Cfg d}

/-- Of several centers with the same new point only the first one is ever marked. -/
def FirstMarked (cs : List (Center d)) : Prop := cs.Pairwise fun a b => a.newPoint = b.newPoint → b.newIndex = none

theorem mark_first {cs : List (Center d)} (h : FirstMarked cs) (x : Pt d) (ni : ℕ) :
    FirstMarked (markCenter cs x ni).1 := by
  rcases markCenter_spec cs x ni with ⟨_, h1⟩ | ⟨l, ce, r, rfl, h2, h3, h4⟩
  · rw [h1]; exact h
  · rw [h4]
    simp only [FirstMarked, List.pairwise_append, List.pairwise_cons, List.mem_cons] at h ⊢
    obtain ⟨a1, ⟨a2, a3⟩, a4⟩ := h
    refine ⟨a1, ⟨fun b hb he => a2 b hb he, a3⟩, fun a ha b hb => ?_⟩
    rcases hb with rfl | hb
    · intro he
      simp only [h2] at he
      exact absurd he (h3 a ha)
    · exact a4 a ha b (.inr hb)

theorem assign_unmarked {cs cs' : List (Center d)} {x : Pt d} (h : assignPoint cs x = some cs')
    (hn : ∀ ce ∈ cs, ce.newIndex = none) : ∀ ce ∈ cs', ce.newIndex = none := by
  obtain ⟨l, ce, r, rfl, rfl, _, _⟩ := assignPoint_spec h
  intro a ha
  simp only [List.mem_append, List.mem_cons] at ha
  rcases ha with ha | rfl | ha
  · exact hn a (by simp [ha])
  · exact hn ce (by simp)
  · exact hn a (by simp [ha])

theorem assignLoop_unmarked : ∀ {pts : List (Pt d)} {cs cs' : List (Center d)}, pts.foldlM assignPoint cs = some cs' →
    (∀ ce ∈ cs, ce.newIndex = none) → ∀ ce ∈ cs', ce.newIndex = none
  | [], cs, cs', h, hn => by
    simp only [List.foldlM_nil, Option.pure_def, Option.some.injEq] at h; subst h; exact hn
  | x :: l, cs, cs', h, hn => by
    rw [List.foldlM_cons] at h
    obtain ⟨e1, h1, h2⟩ := Option.bind_eq_some_iff.mp h
    exact assignLoop_unmarked h2 (assign_unmarked h1 hn)

theorem generate_unmarked {n : ℕ} {pts : List (Pt d)} {z z' : Sop d} (h : z.generate c n pts = some z') :
    ∀ ce ∈ z'.centers, ce.newIndex = none := by
  obtain ⟨z1, z2, _, h2, h3, _⟩ := generate_spec h
  refine assignLoop_unmarked h3 fun ce hce => ?_
  obtain ⟨F, dt, mi, _, _, _, _, _, new, hc, hnew, _⟩ := updateCenterList_spec h2
  rw [hc] at hce
  rcases List.mem_append.mp hce with h1 | h1
  · simpa using (List.mem_filter.mp h1).2
  · exact (hnew ce h1).2.2

/-- A proposal from the queue. -/
theorem step_propose_queue (hs : c.base.srbf = none) (w : SopSys d) (hcv : w.sys.st.converged = false)
    (o : Oracle (Pt d)) (hg : Going c.base w.sys.st) {x : Pt d} {q : List (Pt d)} (hq : w.sys.st.batchQueue = q ++ [x]) :
    w.step c (.propose o) = some ⟨proposeLast w.sys w.sys.st q x (kindOf w.sys.st.phase), w.sop⟩ := by
  unfold SopSys.step
  simp only [base_propose c.base hs w.sys hcv { o with giveUp := false } rfl]
  have ht : ¬ (w.sys.st.terminate = true ∨ c.base.maxEvals ≤ w.sys.st.numEvals + w.sys.st.pendingEvals) := by
    have := hg.budget
    rw [hg.notTerm]; simp; omega
  have hne : w.sys.st.batchQueue ≠ [] := by rw [hq]; simp
  simp only [if_neg ht, if_neg hne]
  have hpop : popLast w.sys.st.batchQueue = some (x, q) := by rw [hq, popLast_append]
  simp only [hpop]
  have hn : generatedNow w.sys.st.log (proposeLast w.sys w.sys.st q x (kindOf w.sys.st.phase)).st.log = none :=
    generatedNow_append _ _ []
  simp only [hn]

/-- A completion that does not end the batch. -/
theorem step_complete_mid (hs : c.base.srbf = none) {w : SopSys d} (ha : c.base.asynchronous = false) {i : ℕ}
    {r : Rec (Pt d)} (hr : w.sys.recs[i]? = some r) (hk : r.kind = .adapt) (hp : w.sys.st.pendingEvals ≠ 1) (v : Val) :
    ∃ z, w.step c (.complete i v) = some ⟨{ w.sys with
        st := (w.sys.st.note (.completed r.x r.kind v r.accAt)).recordCompleted r.x v r.evId
        recs := w.sys.recs.eraseIdx i }, z⟩ := by
  have hc : (w.sys.st.note (.completed r.x r.kind v r.accAt)).onCompleted c.base r.x r.kind v r.evId =
      (w.sys.st.note (.completed r.x r.kind v r.accAt)).recordCompleted r.x v r.evId := by
    unfold State.onCompleted
    rw [hs]
    cases r.kind <;> rfl
  unfold SopSys.step Sys.step
  simp only [hr, hc]
  simp only [hk]
  have hpe : ((w.sys.st.note (.completed r.x .adapt v r.accAt)).recordCompleted r.x v r.evId).pendingEvals ≠ 0 := by
    simp only [recordCompleted_eq, State.note]; omega
  obtain ⟨z, hz⟩ : ∃ z, w.sop.onAdaptCompleted c
      ((w.sys.st.note (.completed r.x .adapt v r.accAt)).recordCompleted r.x v r.evId) r.x v r.evId = some z := by
    unfold Sop.onAdaptCompleted
    simp only [ha, Bool.false_eq_true, if_false]
    have : (((w.sys.st.note (.completed r.x .adapt v r.accAt)).recordCompleted r.x v r.evId).pendingEvals == 0) = false := by
      simpa using hpe
    simp only [this, Bool.and_false, Bool.false_eq_true, if_false]
    split <;> exact ⟨_, rfl⟩
  exact ⟨z, by rw [hz]; rfl⟩

/-- What holds of the new points of the centers. -/
structure DupInv (w : SopSys d) : Prop where
  first : FirstMarked w.sop.centers
  batch : (lastBatch w.sys.st.log).Subperm (newPts w.sop.centers)

theorem firstMarked_of_unmarked {cs : List (Center d)} (h : ∀ ce ∈ cs, ce.newIndex = none) : FirstMarked cs := by
  unfold FirstMarked
  rw [List.pairwise_iff_forall_sublist]
  intro a b hab _
  exact h b (hab.subset (by simp))

theorem Reach.dup (hs : c.base.srbf = none) {w : SopSys d} (h : Reach c w) : DupInv w := by
  induction h with
  | create o => exact ⟨by simp [SopSys.create, FirstMarked], by simp [SopSys.create, Sys.create, State.create, lastBatch, newPts]⟩
  | @step w w' op hr hstep ih =>
    cases op with
    | propose o =>
      cases step_propose hs (hr.inv hs).conv hstep with
      | term ht =>
        refine ⟨ih.first, ?_⟩
        unfold termState
        split
        · simp only [State.note, lastBatch_concat]; exact ih.batch
        · exact ih.batch
      | queue x q hq hg =>
        refine ⟨ih.first, ?_⟩
        simp only [proposeLast, State.note, State.makeProposal, lastBatch_concat]; exact ih.batch
      | gen x q z hpts hq hg ha hz =>
        refine ⟨firstMarked_of_unmarked (generate_unmarked hz), ?_⟩
        simp only [proposeLast, State.note, State.makeProposal, genState, lastBatch_concat]
        exact (List.Sublist.subperm (List.sublist_append_left _ _)).trans (generate_pts hz).1.symm.subperm
      | genNone z hn hq hg ha hz =>
        refine ⟨firstMarked_of_unmarked (generate_unmarked hz), ?_⟩
        simp only [genState, lastBatch_concat]
        exact List.nil_subperm
      | wait hq hg ha hp => exact ⟨ih.first, ih.batch⟩
    | complete i v =>
      have hev := ((hr.step _ hstep).inv hs).evLast
      obtain ⟨r, hrec, hsys, hsop⟩ := step_complete hs hstep
      have hlog : w'.sys.st.log = w.sys.st.log ++ [.completed r.x r.kind v r.accAt] := by
        rw [hsys]; simp only [recordCompleted_eq]; rfl
      have hkeep : w'.sop.centers = w.sop.centers ∨ ∃ ni, w'.sop.centers = (markCenter w.sop.centers r.x ni).1 := by
        cases hk : r.kind with
        | init =>
          rw [hk] at hsop
          simp only at hsop
          left
          rw [hsop, Sop.onInitialCompleted]
          split <;> rfl
        | adapt =>
          rw [hk] at hsop
          simp only at hsop
          right
          refine ⟨w'.sys.st.numEvals.toNat - 1, ?_⟩
          rcases onAdaptCompleted_spec hev hsop with ⟨_, h3⟩ | ⟨_, _, _, h3⟩ | ⟨_, _, h3⟩
          · obtain ⟨_, _, _, _, _, _, h4, _⟩ := adjustMemory_spec h3; exact h4
          · obtain ⟨_, _, _, _, _, _, h4, _⟩ := adjustMemory_spec h3; exact h4
          · rw [h3]
      have hb : lastBatch w'.sys.st.log = lastBatch w.sys.st.log := by rw [hlog, lastBatch_concat]
      rcases hkeep with h1 | ⟨ni, h1⟩
      · exact ⟨by rw [h1]; exact ih.first, by rw [h1, hb]; exact ih.batch⟩
      · refine ⟨by rw [h1]; exact mark_first ih.first _ _, ?_⟩
        rw [hb, h1, mark_new]; exact ih.batch
    | accept i =>
      obtain ⟨h1, h2⟩ := step_other hstep (by simp) (by simp)
      refine ⟨by rw [h1]; exact ih.first, ?_⟩
      rw [h1]
      unfold Sys.step at h2
      simp only at h2
      split at h2
      · simp at h2
      · simp only [Option.some.injEq] at h2
        rw [← h2]
        simp only [State.note, State.onAccept, lastBatch_concat]; exact ih.batch
    | reject i =>
      obtain ⟨h1, h2⟩ := step_other hstep (by simp) (by simp)
      refine ⟨by rw [h1]; exact ih.first, ?_⟩
      rw [h1]
      unfold Sys.step at h2
      simp only at h2
      split at h2
      · simp at h2
      · rename_i p hp
        simp only [Option.some.injEq] at h2
        cases hk : p.kind <;> rw [hk] at h2 <;> simp only [onInitialRejected_eq, onAdaptReject_eq] at h2 <;>
          (rw [← h2]; simp only [State.note, lastBatch_concat]; exact ih.batch)
    | abort i =>
      obtain ⟨h1, h2⟩ := step_other hstep (by simp) (by simp)
      refine ⟨by rw [h1]; exact ih.first, ?_⟩
      rw [h1]
      unfold Sys.step at h2
      simp only at h2
      split at h2
      · simp at h2
      · simp only [Option.some.injEq, onAborted_eq] at h2
        rw [← h2]; simp only [State.note, lastBatch_concat]; exact ih.batch
    | update i =>
      obtain ⟨h1, h2⟩ := step_other hstep (by simp) (by simp)
      refine ⟨by rw [h1]; exact ih.first, ?_⟩
      rw [h1]
      unfold Sys.step at h2
      simp only at h2
      split at h2
      · simp at h2
      · simp only [Option.some.injEq] at h2
        rw [← h2]; exact ih.batch
  | @resume w hr ih =>
    refine ⟨ih.first, ?_⟩
    simp only [Sys.resumed, resume_eq, State.note, lastBatch_concat]
    exact ih.batch

/-- The completion that ends a batch with equal points raises. -/
theorem complete_dup (hs : c.base.srbf = none) {w : SopSys d} (h : Reach c w) (ha : c.base.asynchronous = false) {i : ℕ}
    {r : Rec (Pt d)} (hr : w.sys.recs[i]? = some r) (hk : r.kind = .adapt) (hq : w.sys.st.batchQueue = [])
    (hp : w.sys.st.pendingEvals = 1) (hn : ¬ (lastBatch w.sys.st.log).Nodup) (v : Val) :
    w.step c (.complete i v) = none := by
  cases hst : w.step c (.complete i v) with
  | none => rfl
  | some w' =>
    exfalso
    have hev := ((h.step _ hst).inv hs).evLast
    obtain ⟨r', hr', hsys, hsop⟩ := step_complete hs hst
    rw [hr] at hr'
    simp only [Option.some.injEq] at hr'
    subst hr'
    rw [hk] at hsop
    simp only at hsop
    obtain ⟨hnum, hq', _, _, _, hp'⟩ := evals_completed h hs hr hsys
    rcases onAdaptCompleted_spec hev hsop with ⟨hb, _⟩ | ⟨_, _, _, h3⟩ | ⟨_, hb, _⟩
    · rw [ha] at hb; simp at hb
    · set cs := (markCenter w.sop.centers r.x (w'.sys.st.numEvals.toNat - 1)).1 with hcs
      have hnew : newPts cs = newPts w.sop.centers := mark_new _ _ _
      have hf : FirstMarked cs := mark_first (h.dup hs).first _ _
      have hnd : ¬ (newPts cs).Nodup := by
        rw [hnew]
        intro hh
        obtain ⟨l, hl, hl'⟩ := (h.dup hs).batch
        exact hn (hl.nodup_iff.mp (hh.sublist hl'))
      have hlen : cs.length = c.ncenters := by
        rcases (h.cinv hs).len with h0 | h0
        · exfalso
          rw [hnew, h0] at hnd
          simp [newPts] at hnd
        · rw [← h0]
          rcases markCenter_spec w.sop.centers r.x (w'.sys.st.numEvals.toNat - 1) with ⟨_, h1⟩ | ⟨l, ce, q, h2, _, _, h4⟩
          · rw [hcs, h1]
          · rw [hcs, h4, h2]; simp
      have : ∃ j < c.ncenters, ∀ ce, cs[j]? = some ce → ce.newIndex = none := by
        by_contra hcon
        push Not at hcon
        have hall : ∀ ce ∈ cs, ce.newIndex ≠ none := by
          intro ce hce
          obtain ⟨j, hj⟩ := List.mem_iff_getElem?.mp hce
          obtain ⟨ce', hce', hni⟩ := hcon j (by rw [← hlen]; exact (List.getElem?_eq_some_iff.mp hj).1)
          rw [hj] at hce'
          simp only [Option.some.injEq] at hce'
          subst hce'; exact hni
        refine hnd ?_
        have hne : cs.Pairwise fun a b => a.newPoint ≠ b.newPoint := by
          refine List.Pairwise.imp_of_mem ?_ hf
          intro a b _ hb hab he
          exact hall b hb (hab he)
        unfold newPts
        rw [List.Nodup, List.pairwise_filterMap]
        refine hne.imp ?_
        intro a b hab x hx y hy he
        rw [hx, hy, he] at hab
        exact hab rfl
      obtain ⟨j, hj, hnone⟩ := this
      rw [adjustMemory_none (i := j) (by simp [processed, hj]) hnone] at h3
      simp at h3
    · exact hb ⟨by rw [hq']; exact hq, by rw [hp', hp]; rfl⟩

end Verif.Sop
