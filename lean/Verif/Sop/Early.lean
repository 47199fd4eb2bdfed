import Verif.Sop.Facts
import Verif.Sop.Calm

/-! # The first generation of SOP (C93) -/

set_option linter.unusedSectionVars false

namespace Verif.Sop

open Verif.Num Verif.Utils Verif.Strategy
open List (Perm Sublist)

variable {d : ℕ} {c : Cfg d}

/-- With several centers but none selected `adjust_memory` raises. -/
theorem adjustMemory_nil {z z' : Sop d} {n : ℕ} (hz : z.centers = []) (hk : 0 < c.ncenters)
    (h : z.adjustMemory c n none = some z') : False := by
  obtain ⟨ds, evals, _, _, hf, _⟩ := adjustMemory_spec h
  obtain ⟨k, hk'⟩ := Nat.exists_eq_succ_of_ne_zero hk.ne'
  have : processed c none = 0 :: (List.range k).map Nat.succ := by
    unfold processed; simp only; rw [hk', List.range_succ_eq_map]
  rw [this, List.foldlM_cons, hz] at hf
  simp [failStep] at hf

/-- Before the first generation there are no ranks and no centers. -/
theorem Reach.beforeGen (hs : c.base.srbf = none) (hk : 0 < c.ncenters) (hb : 0 < genCount c.base) {w : SopSys d}
    (h : Reach c w) : generatedPts w.sys.st.log = [] → w.sop.F = none ∧ w.sop.centers = [] := by
  induction h with
  | create o => intro _; exact ⟨rfl, rfl⟩
  | @step w w' op hr hstep ih =>
    intro hg
    cases step_effect hs hr hstep with
    | quiet h1 h2 h3 h4 => rw [h3, h4]; exact ih (h1 ▸ hg)
    | gen pts h1 h2 h3 h4 =>
      rw [h1, List.append_eq_nil_iff] at hg
      rw [hg.2] at h4
      simp at h4
      omega
    | done x h1 h2 h3 =>
      obtain ⟨i1, i2⟩ := ih (h1 ▸ hg)
      refine ⟨?_, by rw [h3, i2]; rfl⟩
      by_cases hp : ∃ o, op = .propose o
      · obtain ⟨o, rfl⟩ := hp
        cases step_propose hs (hr.inv hs).conv hstep with
        | term ht => exact i1
        | queue x q hq hg => exact i1
        | gen x q z hpts hq hg' ha hz =>
          exfalso
          rw [show generatedPts (proposeLast w.sys (genState w.sys.st (q ++ [x])) q x .adapt).st.log =
            generatedPts w.sys.st.log ++ (q ++ [x]) by
              simp [proposeLast, State.note, State.makeProposal, genState, generatedPts]] at hg
          simp at hg
        | genNone z hn hq hg ha hz => omega
        | wait hq hg ha hp => exact i1
      · by_cases hc : ∃ i v, op = .complete i v
        · obtain ⟨i, v, rfl⟩ := hc
          have hev := ((hr.step _ hstep).inv hs).evLast
          obtain ⟨r, hrec, hsys, hsop⟩ := step_complete hs hstep
          cases hkd : r.kind with
          | init =>
            rw [hkd] at hsop
            simp only at hsop
            rw [Sop.onInitialCompleted, hev, if_pos (Nat.zero_le _)] at hsop
            rw [hsop]; exact i1
          | adapt =>
            rw [hkd] at hsop
            simp only at hsop
            rcases onAdaptCompleted_spec hev hsop with ⟨_, h5⟩ | ⟨_, _, _, h5⟩ | ⟨_, _, h5⟩
            · exfalso
              simp only [i2, markCenter] at h5
              exact adjustMemory_nil rfl hk h5
            · exfalso
              simp only [i2, markCenter] at h5
              exact adjustMemory_nil rfl hk h5
            · rw [h5]; exact i1
        · rw [(step_other hstep (fun o he => hp ⟨o, he⟩) (fun i v he => hc ⟨i, v, he⟩)).1]; exact i1
  | @resume w hr ih =>
    intro hg
    exact ih (by simpa [Sys.resumed, resume_eq, State.note, generatedPts] using hg)

/-- Without two evaluated points at different places the first ranks cannot be computed. -/
theorem generate_early {z : Sop d} {n : ℕ} {pts : List (Pt d)} (hF : z.F = none) (h2 : ¬ TwoPoints c z.evals) :
    z.generate c n pts = none := by
  cases h : z.generate c n pts with
  | none => rfl
  | some z' =>
    exfalso
    obtain ⟨z1, z2, h1, hcl, _, _⟩ := generate_spec h
    rcases h1 with ⟨_, h1⟩ | ⟨h1, _⟩
    · obtain ⟨_, ds, hds, e⟩ := updateRanks_spec h1
      obtain ⟨hl, hsp⟩ := distCol_spec hds
      rcases hev : z.evals with _ | ⟨r, rest⟩
      · obtain ⟨F, dt, mi, hF1, _, hmi, _⟩ := updateCenterList_spec hcl
        rw [e] at hF1
        simp only [hev, List.map_nil, Option.some.injEq] at hF1
        rw [← hF1] at hmi
        simp [rankRows, tagRows, minIndex] at hmi
      · obtain ⟨m, _, hm, ⟨u', hu', hd⟩, _⟩ := hsp 0 (toUnitBox r.x c.lb c.ub) (by rw [hev]; rfl)
        rw [List.map_map] at hu'
        obtain ⟨r', hr', e'⟩ := List.mem_map.mp hu'
        refine h2 ⟨r, by rw [hev]; simp, r', hr', fun he => ?_⟩
        have e'' : toUnitBox r'.x c.lb c.ub = u' := e'
        rw [← e'', ← he] at hd
        have : eucl (toUnitBox r.x c.lb c.ub) (toUnitBox r.x c.lb c.ub) = 0 := by simp [eucl]
        linarith
    · exact h1 hF

/-- Two completed evaluations at different places in the unit box. -/
def TwoPlaces (c : Cfg d) (log : List (Event (Pt d))) : Prop :=
  ∃ p ∈ Spec.completions log, ∃ q ∈ Spec.completions log, toUnitBox p.1 c.lb c.ub ≠ toUnitBox q.1 c.lb c.ub

theorem twoPlaces_iff {w : SopSys d} (h : Inv w) : TwoPlaces c w.sys.st.log ↔ TwoPoints c w.sop.evals := by
  refine ⟨two_of_completions h, ?_⟩
  rintro ⟨r1, h1, r2, h2, hne⟩
  refine ⟨(r1.x, r1.fx), ?_, (r2.x, r2.fx), ?_, hne⟩ <;> rw [← h.arch]
  · exact List.mem_map.mpr ⟨r1, h1, rfl⟩
  · exact List.mem_map.mpr ⟨r2, h2, rfl⟩

/-- The first generation succeeds exactly if two points at different places have been evaluated. -/
theorem first_generation (hs : c.base.srbf = none) (hb : 0 < genCount c.base) (hk : genCount c.base ≤ c.ncenters)
    (hm : c.base.maxEvals ≠ c.base.numPts) {w : SopSys d} (h : Reach c w) (hn : generatedPts w.sys.st.log = [])
    (hq : w.sys.st.batchQueue = []) (hg : Going c.base w.sys.st)
    (ha : c.base.asynchronous = true ∨ w.sys.st.pendingEvals = 0) (o : Oracle (Pt d)) :
    (∃ w', w.step c (.propose o) = some w') ↔ TwoPlaces c w.sys.st.log := by
  have hi := h.inv hs
  obtain ⟨hF, hC⟩ := h.beforeGen hs (by omega) hb hn
  obtain ⟨q, x, hpts⟩ : ∃ q x, (List.range (genCount c.base)).map o.pts = q ++ [x] := by
    obtain ⟨k, hk'⟩ := Nat.exists_eq_succ_of_ne_zero hb.ne'
    exact ⟨(List.range k).map o.pts, o.pts k, by rw [hk', List.range_succ]; simp⟩
  rw [step_propose_gen hs w hi.conv o hg hq ha x q hpts, twoPlaces_iff hi]
  have hlen : (q ++ [x]).length = genCount c.base := by rw [← hpts]; simp
  have hcount : w.sop.evals.length = w.sys.st.numEvals.toNat := by have := h.count hs; omega
  constructor
  · rintro ⟨w', hw⟩
    by_contra h2
    rw [generate_early hF h2] at hw
    simp at hw
  · intro h2
    obtain ⟨z, hz⟩ := generate_isSome (c := c) (z := w.sop) (pts := q ++ [x]) (h.cinv hs) hcount h2
      (by rw [hF]; simp) hm (by rw [hC, hlen]; simpa [busyPts] using hk)
    exact ⟨_, by rw [hz]; rfl⟩

end Verif.Sop
