import Verif.Loop.SopModel
import Verif.Loop.Feasible
import Verif.Sop.Memory
import Verif.Sop.Round

/-! # All points generated in the closed loop of SOP are feasible -/

namespace Verif.Loop

open Verif.Num Verif.Utils Verif.Cand Verif.Design Verif.Strategy Verif.Spec Verif.Props Verif.Sop

variable {d : ℕ} {L : SopSetup d}

theorem SopLoopReach.reach {w : SopSys d} (h : SopLoopReach L w) : Sop.Reach L.cfg w := by
  induction h with
  | create D _ => exact .create _
  | propose D g _ _ _ _ hs ih => exact .step _ ih hs
  | other op _ _ hs ih => exact .step _ ih hs
  | resume _ ih => exact .resume ih

theorem SopPointOf.feasible (ok : ProbOk L.prob) {s : State (Pt d)} {xc x : Pt d} {sigma : ℚ} (hc : Feasible L.prob xc)
    (hs : 0 < sigma) (h : SopPointOf L s xc sigma x) : Feasible L.prob x := by
  obtain ⟨k, X, m, pred, u, forced, draws, prob, _, _, _, hd, hres⟩ := h
  obtain ⟨res', h4, _, h5⟩ := C26_dycors L.prob ok pred X [1] prob s.Xpend _ (by exact_mod_cast hs)
      1e-3 xc hc u forced draws hd
  rw [h4, Option.some.injEq] at hres
  subst hres
  exact h5 x (by simp)

theorem assignPoint_centers {cs cs' : List (Center d)} {x : Pt d} (h : assignPoint cs x = some cs') (P : Pt d → ℕ → Prop)
    (hP : ∀ ce ∈ cs, P ce.xc ce.index) : ∀ ce ∈ cs', P ce.xc ce.index := by
  obtain ⟨l, ce, r, rfl, rfl, _, _⟩ := assignPoint_spec h
  intro a ha
  simp only [List.mem_append, List.mem_cons] at ha
  rcases ha with ha | rfl | ha
  · exact hP a (by simp [ha])
  · exact hP ce (by simp)
  · exact hP a (by simp [ha])

theorem SopPointsOf.feasible (ok : ProbOk L.prob) {s : State (Pt d)} {evals : List (SopRec d)}
    (he : ∀ r ∈ evals, 0 < r.sigma) : ∀ {pts : List (Pt d)} {cs : List (Center d)}, (∀ ce ∈ cs, Feasible L.prob ce.xc) →
    SopPointsOf L s evals cs pts → ∀ x ∈ pts, Feasible L.prob x
  | [], _, _, _ => by simp
  | y :: rest, cs, hc, h => by
    obtain ⟨ce, r, cs', h1, h2, h3, h4, h5⟩ := h
    intro x hx
    rcases List.mem_cons.mp hx with rfl | hx
    · exact h3.feasible ok (hc ce (List.mem_of_find?_eq_some h1)) (he r (List.mem_of_getElem? h2))
    · exact SopPointsOf.feasible ok he (assignPoint_centers h4 (fun x _ => Feasible L.prob x) hc) h5 x hx

theorem generate_first {c : Cfg d} {n : ℕ} {pts : List (Pt d)} {z z' : Sop d} (h : z.generate c n pts = some z') :
    ∃ z1 z2, z.firstRanks c n = some z1 ∧ z1.updateCenterList c n = some z2 := by
  unfold Sop.generate at h
  split at h
  · simp at h
  · rename_i z1 h1
    split at h
    · simp at h
    · rename_i z2 h2
      exact ⟨z1, z2, h1, h2⟩

theorem firstRanks_keeps {c : Cfg d} {n : ℕ} {z z1 : Sop d} (h : z.firstRanks c n = some z1) (hz : CInv c z) :
    z1.evals = z.evals ∧ CInv c z1 := by
  unfold Sop.firstRanks at h
  split at h
  · obtain ⟨_, ds, _, rfl⟩ := updateRanks_spec h
    exact ⟨rfl, updateRanks_cinv h hz⟩
  · rw [Option.some.injEq] at h; subst h; exact ⟨rfl, hz⟩

/-- What is generated from feasible data is feasible. -/
theorem SopGenOf.feasible (ok : ProbOk L.prob) (hs : L.base.srbf = none) {w : SopSys d} (hw : Sop.Reach L.cfg w)
    (hX : ∀ x ∈ w.sys.st.X, Feasible L.prob x) {n : ℕ} {pts : List (Pt d)} (h : SopGenOf L w n pts)
    {z : Sop d} {ps : List (Pt d)} (hz : w.sop.generate L.cfg w.sys.st.numEvals.toNat ps = some z) :
    ∀ x ∈ pts, Feasible L.prob x := by
  have hs' : L.cfg.base.srbf = none := hs
  obtain ⟨z1, z2, h1, h2⟩ := generate_first hz
  obtain ⟨e1, i1⟩ := firstRanks_keeps h1 (hw.cinv hs')
  have e2 := (updateCenterList_keeps h2).1
  have i2 := (updateCenterList_cinv h2 i1).1
  have e : z2.evals = w.sop.evals := by rw [e2, e1]
  refine SopPointsOf.feasible ok (fun r hr => ?_) (fun ce hce => ?_) (h.2 z1 z2 h1 h2)
  · rw [(hw.evals_ok hs' r (e ▸ hr)).sig]
    unfold radius0; positivity
  · obtain ⟨v, hv⟩ := i2.at_ ce hce
    refine hX _ ?_
    rw [(C03_history hw.base).1, List.map_append]
    refine List.mem_append_right _ ?_
    have : archive z2 = archive w.sop := by unfold archive; rw [e]
    rw [this, (hw.inv hs').arch] at hv
    exact List.mem_map.mpr ⟨_, List.mem_of_getElem? hv, rfl⟩

theorem step_propose_sys {c : Cfg d} {w w' : SopSys d} {o : Oracle (Pt d)} (ho : o.giveUp = false)
    (h : w.step c (.propose o) = some w') : w.sys.step c.base (.propose o) = some w'.sys := by
  have e : { o with giveUp := false } = o := by cases o; simp at ho; simp [ho]
  unfold SopSys.step at h
  simp only [e] at h
  rcases hst : w.sys.step c.base (.propose o) with _ | sys
  · rw [hst] at h; simp at h
  · rw [hst] at h
    simp only at h
    split at h
    · simp only [Option.some.injEq] at h
      rw [← h]
    · obtain ⟨z, _, rfl⟩ := Option.map_eq_some_iff.mp h; rfl

/-- If `propose_action` asks for points, `generate_evals` is called. -/
theorem wants_generates {c : Cfg d} (hs : c.base.srbf = none) {w w' : SopSys d} (hr : Sop.Reach c w)
    {o : Oracle (Pt d)} (h : w.step c (.propose o) = some w') (hw : wantsPoints c.base w.sys.st) :
    ∃ ps z, w.sop.generate c w.sys.st.numEvals.toNat ps = some z := by
  obtain ⟨h1, h2, _, h4, h5⟩ := hw
  cases step_propose hs (hr.inv hs).conv h with
  | term ht =>
    rcases ht with ht | ht
    · rw [h1] at ht; simp at ht
    · omega
  | queue x q hq hg => rw [h4] at hq; simp at hq
  | gen x q z hpts hq hg ha hz => exact ⟨_, _, hz⟩
  | genNone z hn hq hg ha hz => exact ⟨_, _, hz⟩
  | wait hq hg ha hp =>
    rcases h5 with h5 | h5
    · rw [ha] at h5; simp at h5
    · exact absurd h5 hp

theorem step_other_sys {c : Cfg d} {w w' : SopSys d} {op : Op (Pt d)} (hop : ∀ o, op ≠ .propose o)
    (h : w.step c op = some w') : w.sys.step c.base op = some w'.sys := by
  by_cases hc : ∃ i v, op = .complete i v
  · obtain ⟨i, v, rfl⟩ := hc
    unfold SopSys.step at h
    simp only at h
    split at h
    · rename_i r sys hr hst
      rw [hst]
      split at h
      · simp only [Option.some.injEq] at h
        rw [← h]
      · obtain ⟨z, _, rfl⟩ := Option.map_eq_some_iff.mp h; rfl
    · simp at h
  · exact (step_other h hop fun i v hv => hc ⟨i, v, hv⟩).2

theorem SopLoopReach.reachF (ok : ProbOk L.prob) (hs : L.base.srbf = none)
    (hx : ∀ e ∈ L.base.extras, Feasible L.prob e.1) {w : SopSys d} (h : SopLoopReach L w) :
    ReachF L.base (Feasible L.prob) w.sys := by
  induction h with
  | create D hD => exact .create _ fun i => getD_feasible ok (hD.spec ok).2.2 i
  | @propose w w' D pts hw hD hg hg' hst ih =>
    refine .propose (sopOracle L D pts) (fun i => getD_feasible ok (hD.spec ok).2.2 i) (fun i => ?_) ih
      (step_propose_sys rfl hst)
    refine getD_feasible ok (fun x hx' => ?_) i
    by_cases hwp : wantsPoints L.base w.sys.st
    · obtain ⟨ps, z, hz⟩ := wants_generates (c := L.cfg) hs hw.reach hst hwp
      exact (hg hwp).feasible ok hs hw.reach (C62_feasible hx ih).2.2.2.2 hz x hx'
    · rw [hg' hwp] at hx'; simp at hx'
  | @other w w' op _ hop hst ih => exact .other op hop ih (step_other_sys hop hst)
  | resume _ ih => exact .resume ih

end Verif.Loop
