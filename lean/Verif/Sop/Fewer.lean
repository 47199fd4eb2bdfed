import Verif.Sop.Dup

/-! # Synchronous mode with fewer points per batch than centers -/

namespace Verif.Sop

open Verif.Num Verif.Utils Verif.Strategy Verif.Spec
open List (Perm Sublist)

variable {d : ℕ} {c : Cfg d}

/-- The centers whose new point has been evaluated. -/
def marked (cs : List (Center d)) : ℕ := cs.countP fun ce => ce.newIndex.isSome

theorem marked_mark (cs : List (Center d)) (x : Pt d) (ni : ℕ) : marked (markCenter cs x ni).1 ≤ marked cs + 1 := by
  rcases markCenter_spec cs x ni with ⟨_, h1⟩ | ⟨l, ce, r, rfl, _, _, h4⟩
  · rw [h1]; exact Nat.le_succ _
  · rw [h4]
    simp only [marked, List.countP_append, List.countP_cons]
    split_ifs <;> simp_all <;> omega

theorem marked_zero {cs : List (Center d)} (h : ∀ ce ∈ cs, ce.newIndex = none) : marked cs = 0 := by
  unfold marked
  rw [List.countP_eq_zero]
  intro ce hce
  simp [h ce hce]

/-- After the first batch the evaluated new points of the centers, the pending evaluations and the queue are together not more
than one batch. -/
def FewInv (c : Cfg d) (w : SopSys d) : Prop :=
  w.sop.centers = [] ∨ (w.sys.st.phase = .adaptive ∧
    (marked w.sop.centers : ℤ) + w.sys.st.pendingEvals + w.sys.st.batchQueue.length ≤ c.base.batchSize)

theorem Reach.few (hs : c.base.srbf = none) (ha : c.base.asynchronous = false) {w : SopSys d} (h : Reach c w) : FewInv c w := by
  induction h with
  | create o => exact .inl rfl
  | @step w w' op hr hstep ih =>
    cases op with
    | propose o =>
      have hgc : genCount c.base = c.base.batchSize := by simp [genCount, ha]
      cases step_propose hs (hr.inv hs).conv hstep with
      | term ht =>
        refine ih.imp id fun hi => ?_
        unfold termState
        split <;> exact hi
      | queue x q hq hg =>
        refine ih.imp id fun hi => ⟨hi.1, ?_⟩
        have := hi.2
        rw [hq] at this
        simp only [proposeLast, State.note, State.makeProposal, List.length_append, List.length_singleton, Nat.cast_add,
          Nat.cast_one] at this ⊢
        omega
      | gen x q z hpts hq hg hp hz =>
        right
        refine ⟨rfl, ?_⟩
        rcases hp with hp | hp
        · rw [ha] at hp; cases hp
        have hl : q.length + 1 = c.base.batchSize := by
          have := congrArg List.length hpts
          simpa [hgc] using this.symm
        rw [marked_zero (generate_unmarked hz)]
        simp only [proposeLast, State.note, State.makeProposal, genState, hp]
        push_cast [← hl]
        omega
      | genNone z hn hq hg hp hz =>
        right
        refine ⟨rfl, ?_⟩
        rcases hp with hp | hp
        · rw [ha] at hp; cases hp
        rw [marked_zero (generate_unmarked hz)]
        simp [genState, hp]
      | wait hq hg _ hp => exact ih.imp id fun hi => ⟨rfl, hi.2⟩
    | complete i v =>
      have hev := ((hr.step _ hstep).inv hs).evLast
      obtain ⟨r, hrec, hsys, hsop⟩ := step_complete hs hstep
      obtain ⟨_, hq', hph, _, _, hp'⟩ := evals_completed hr hs hrec hsys
      have hkeep : w'.sop.centers = w.sop.centers ∨ ∃ ni, w'.sop.centers = (markCenter w.sop.centers r.x ni).1 := by
        cases hk : r.kind with
        | init =>
          rw [hk] at hsop
          simp only at hsop
          left
          rw [hsop, Sop.onInitialCompleted]
          split <;> rfl
        | adapt =>
          rw [hk] at hsop
          simp only at hsop
          right
          refine ⟨w'.sys.st.numEvals.toNat - 1, ?_⟩
          rcases onAdaptCompleted_spec hev hsop with ⟨_, h3⟩ | ⟨_, _, _, h3⟩ | ⟨_, _, h3⟩
          · obtain ⟨_, _, _, _, _, _, h4, _⟩ := adjustMemory_spec h3; exact h4
          · obtain ⟨_, _, _, _, _, _, h4, _⟩ := adjustMemory_spec h3; exact h4
          · rw [h3]
      rcases ih with ih | ⟨i1, i2⟩
      · left
        rcases hkeep with h1 | ⟨ni, h1⟩
        · rw [h1, ih]
        · rw [h1, ih]; rfl
      · right
        refine ⟨by rw [hph, i1], ?_⟩
        have hm : marked w'.sop.centers ≤ marked w.sop.centers + 1 := by
          rcases hkeep with h1 | ⟨ni, h1⟩
          · rw [h1]; omega
          · rw [h1]; exact marked_mark _ _ _
        rw [hq', hp']
        omega
    | accept i =>
      obtain ⟨h1, h2⟩ := step_other hstep (by simp) (by simp)
      unfold FewInv
      rw [h1]
      unfold Sys.step at h2
      simp only at h2
      split at h2
      · simp at h2
      · simp only [Option.some.injEq] at h2
        rw [← h2]
        exact ih
    | reject i =>
      obtain ⟨h1, h2⟩ := step_other hstep (by simp) (by simp)
      unfold FewInv
      rw [h1]
      refine ih.imp id fun hi => ?_
      have := hi.2
      unfold Sys.step at h2
      simp only at h2
      split at h2
      · simp at h2
      · rename_i p hp
        simp only [Option.some.injEq] at h2
        cases hk : p.kind <;> rw [hk] at h2 <;> simp only [onInitialRejected_eq, onAdaptReject_eq] at h2 <;>
          (rw [← h2]; refine ⟨hi.1, ?_⟩; simp only [State.note, ha, List.length_append, List.length_singleton, Bool.false_eq_true, if_false]; push_cast; omega)
    | abort i =>
      obtain ⟨h1, h2⟩ := step_other hstep (by simp) (by simp)
      unfold FewInv
      rw [h1]
      refine ih.imp id fun hi => ?_
      have := hi.2
      unfold Sys.step at h2
      simp only at h2
      split at h2
      · simp at h2
      · simp only [Option.some.injEq, onAborted_eq] at h2
        rw [← h2]
        refine ⟨hi.1, ?_⟩
        simp only [State.note, List.length_append]
        split_ifs <;> simp only [List.length_singleton, List.length_nil] <;> push_cast <;> omega
    | update i =>
      obtain ⟨h1, h2⟩ := step_other hstep (by simp) (by simp)
      unfold FewInv
      rw [h1]
      unfold Sys.step at h2
      simp only at h2
      split at h2
      · simp at h2
      · simp only [Option.some.injEq] at h2
        rw [← h2]; exact ih
  | @resume w hr ih =>
    refine ih.imp id fun hi => ⟨?_, ?_⟩
    · simp only [Sys.resumed, resume_eq]; exact hi.1
    · have h2 := hi.2
      have hp : 0 ≤ w.sys.st.pendingEvals := by have h3 := hr.base.book.pending; omega
      simp only [Sys.resumed, resume_eq, State.note, hi.1, reduceCtorEq, if_false, List.append_nil]
      omega

/-- Fewer points per batch than centers: every completion that would end a batch raises. -/
theorem complete_few (hs : c.base.srbf = none) (ha : c.base.asynchronous = false) (hb : c.base.batchSize < c.ncenters)
    {w : SopSys d} (h : Reach c w) {i : ℕ} {r : Rec (Pt d)} (hr : w.sys.recs[i]? = some r) (hk : r.kind = .adapt)
    (hq : w.sys.st.batchQueue = []) (hp : w.sys.st.pendingEvals = 1) (v : Val) : w.step c (.complete i v) = none := by
  cases hst : w.step c (.complete i v) with
  | none => rfl
  | some w' =>
    exfalso
    have hev := ((h.step _ hst).inv hs).evLast
    have hfew := h.few hs ha
    obtain ⟨r', hr', hsys, hsop⟩ := step_complete hs hst
    rw [hr] at hr'
    simp only [Option.some.injEq] at hr'
    subst hr'
    rw [hk] at hsop
    simp only at hsop
    obtain ⟨hnum, hq', _, _, _, hp'⟩ := evals_completed h hs hr hsys
    rcases onAdaptCompleted_spec hev hsop with ⟨hb', _⟩ | ⟨_, _, _, h3⟩ | ⟨_, hb', _⟩
    · rw [ha] at hb'; cases hb'
    · set cs := (markCenter w.sop.centers r.x (w'.sys.st.numEvals.toNat - 1)).1 with hcs
      have hm : marked cs < c.ncenters := by
        have h1 := marked_mark w.sop.centers r.x (w'.sys.st.numEvals.toNat - 1)
        rw [← hcs] at h1
        rcases hfew with h0 | ⟨_, h2⟩
        · rw [hcs, h0]; simp [markCenter, marked]; omega
        · rw [hp] at h2
          omega
      have : ∃ j < c.ncenters, ∀ ce, cs[j]? = some ce → ce.newIndex = none := by
        by_contra hcon
        push Not at hcon
        have hlen : c.ncenters ≤ cs.length := by
          by_contra hl
          obtain ⟨ce, hce, _⟩ := hcon cs.length (by omega)
          simp at hce
        have htake : (cs.take c.ncenters).countP (fun ce => ce.newIndex.isSome) = (cs.take c.ncenters).length := by
          rw [List.countP_eq_length]
          intro ce hce
          obtain ⟨j, hj⟩ := List.mem_iff_getElem?.mp hce
          have hjl : j < c.ncenters := by
            have := (List.getElem?_eq_some_iff.mp hj).1
            simp at this; omega
          rw [List.getElem?_take_of_lt hjl] at hj
          obtain ⟨ce', hce', hni⟩ := hcon j hjl
          rw [hj, Option.some.injEq] at hce'
          subst hce'
          exact Option.isSome_iff_ne_none.mpr hni
        have hle : (cs.take c.ncenters).countP (fun ce => ce.newIndex.isSome) ≤ marked cs :=
          (List.take_sublist _ _).countP_le
        rw [htake, List.length_take] at hle
        omega
      obtain ⟨j, hj, hnone⟩ := this
      rw [adjustMemory_none (i := j) (by simp [processed, hj]) hnone] at h3
      simp at h3
    · exact hb' ⟨by rw [hq']; exact hq, by rw [hp', hp]; rfl⟩

end Verif.Sop
