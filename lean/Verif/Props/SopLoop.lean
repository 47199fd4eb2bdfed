import Verif.Loop.SopFeasible
import Verif.Sop.Dup
import Verif.Props.Loop
import Verif.Props.Sop

/-! # Properties C90 and C56: the whole loop of SOP -/

namespace Verif.Props

open Verif.Num Verif.Utils Verif.Cand Verif.Design Verif.Strategy Verif.Spec Verif.Loop Verif.Sop

variable {d : ℕ} {L : SopSetup d}

/-! ## C90: every point evaluated by SOP is feasible -/

/-- SOP with any of the three designs: for every problem with integer bounds on the integer variables, feasible extra
points, every surrogate, all random draws and every history of answers, values, aborts and crashes, all points ever queued,
proposed, running, pending or recorded, all points of the archive, all centers and their new points satisfy the bounds and
the integrality constraints. -/
theorem C90_feasible (ok : ProbOk L.prob) (hs : L.base.srbf = none) (hx : ∀ e ∈ L.base.extras, Feasible L.prob e.1)
    {w : SopSys d} (h : SopLoopReach L w) :
    (∀ x ∈ w.sys.st.batchQueue, Feasible L.prob x) ∧ (∀ x ∈ proposals w.sys.st.log, Feasible L.prob x) ∧
    (∀ x ∈ w.sys.inflight, Feasible L.prob x) ∧ (∀ x ∈ w.sys.st.Xpend, Feasible L.prob x) ∧
    (∀ x ∈ w.sys.st.X, Feasible L.prob x) ∧ (∀ r ∈ w.sop.evals, Feasible L.prob r.x) ∧
    (∀ ce ∈ w.sop.centers, Feasible L.prob ce.xc) := by
  have hs' : L.cfg.base.srbf = none := hs
  obtain ⟨a1, a2, a3, a4, a5⟩ := C62_feasible hx (h.reachF ok hs hx)
  have hc : ∀ e ∈ completions w.sys.st.log, Feasible L.prob e.1 := by
    intro e he
    refine a5 _ ?_
    rw [(C03_history h.reach.base).1, List.map_append]
    exact List.mem_append_right _ (List.mem_map.mpr ⟨e, he, rfl⟩)
  refine ⟨a1, a2, a3, a4, a5, fun r hr => ?_, fun ce hce => ?_⟩
  · refine hc (r.x, r.fx) ?_
    rw [← (C52_archive hs' h.reach).1]
    exact List.mem_map.mpr ⟨r, hr, rfl⟩
  · obtain ⟨v, hv⟩ := (C53_count hs' h.reach).2.1 ce hce
    exact hc _ (List.mem_of_getElem? hv)

/-! ## A run on the integer problem `{0, 1}` -/

/-- Synchronous, two centers, batches of two. -/
noncomputable def bitSetup : SopSetup 1 :=
  { prob := bitProb
    base := { asynchronous := false, batchSize := 2, maxEvals := 10, useRestarts := false, numPts := 2, extras := [],
              srbf := none }
    ncenters := 2 }

/-- Every value of `prob_perturb` compares with the draws as some real number. -/
theorem NF.real (p : NF) : ∃ prob : ℝ, ∀ v, 0 ≤ v → v < 1 → (v < prob ↔ p.gt v) := by
  cases p with
  | fin a => exact ⟨a, fun v _ _ => Iff.rfl⟩
  | pinf => exact ⟨1, fun v _ h => by simp [NF.gt, h]⟩
  | ninf => exact ⟨0, fun v h _ => by simp [NF.gt, h]⟩
  | nan => exact ⟨0, fun v h _ => by simp [NF.gt, h]⟩

/-- Around every center of `{0, 1}` the candidate search may return 0. -/
theorem bit_point (s : State (Pt 1)) (hX : s.curX ≠ []) (xc : Pt 1) (hc : Feasible bitProb xc) :
    SopPointOf bitSetup s xc (2 / 10) (fun _ => 0) := by
  obtain ⟨x0, xs, hxs⟩ := List.exists_cons_of_ne_nil hX
  have hsc : scalefactors bitProb (((2 / 10 : ℚ) : ℚ) : ℝ) (List.finRange 1) = fun _ => 1 := by
    funext i
    obtain rfl : i = 0 := Fin.ext (by omega)
    simp only [scalefactors, bitProb, List.mem_finRange, and_true, List.mem_singleton, if_true]
    norm_num
  obtain ⟨prob, hprob⟩ := NF.real (State.perturbProb bitSetup.base 1 s)
  refine ⟨xs.length, fun i => (x0 :: xs).get i, 0, fun _ => 0, fun _ _ => 0, fun _ => 0, fun _ => fun i => - xc i, prob, ?_, hprob, ?_, ?_, ?_⟩
  · rw [hxs]; exact (List.ofFn_get _).symm
  · intro _ _; norm_num
  · intro j i
    rw [show bitSetup.prob = bitProb from rfl, hsc]
    have := (hc.1 i)
    simp only [bitProb] at this
    simp only [DrawOk, bitProb]
    constructor <;> linarith [this.1, this.2]
  · have hrow : dycorsCand xc (scalefactors bitProb (((2 / 10 : ℚ) : ℚ) : ℝ) (List.finRange 1)) (List.finRange 1)
        (dycorsMask (List.finRange 1).length prob (fun _ => 0) 0) (fun i => - xc i) = some (fun _ => 0) := by
      rw [hsc]
      simp only [List.finRange_succ, List.finRange_zero, List.map_nil, dycorsCand, dycorsLoop, dycorsMask, truncnorm]
      simp
      funext i
      obtain rfl : i = 0 := Fin.ext (by omega)
      simp
    have hr : roundVars (fun _ => 0 : Pt 1) bitProb.intVar bitProb.lb bitProb.ub = fun _ => 0 := by
      funext i
      obtain rfl : i = 0 := Fin.ext (by omega)
      simp [roundVars_apply, bitProb, clip, rint_zero']
    unfold candidateDycors
    rw [show bitSetup.prob = bitProb from rfl]
    simp only [hrow, Option.isSome_some, implies_true, dite_true, Option.get_some, hr, weightedDistanceMerit, wdmIdx, wdmLoop,
      List.map_cons, List.map_nil]

/-- The design is evaluated. -/
theorem bit_warm : ∃ w : SopSys 1, SopLoopReach bitSetup w ∧
    w.sop = ⟨[SopRec.new (fun _ => 1) 0, SopRec.new (fun _ => 0) 1], [], none⟩ ∧ w.sys.st.batchQueue = [] ∧
    w.sys.props = [] ∧ w.sys.recs = [] ∧ w.sys.st.pendingEvals = 0 ∧ w.sys.st.numEvals = 2 ∧ w.sys.st.terminate = false ∧
    w.sys.st.converged = false ∧ (∃ x l, w.sys.st.curX = x :: l) ∧ w.sys.st.log.any isLoss = false := by
  have hD : DesignOf bitSetup.prob bitSetup.base.numPts [fun _ => 0, fun _ => 1] := design_unit bitProb rfl rfl
  have c0 : SopLoopReach bitSetup _ := .create _ hD
  have c1 := SopLoopReach.propose _ [] c0 hD (fun h => by cases h.2.2.2.1) (fun _ => rfl) rfl
  have c2 := SopLoopReach.propose _ [] c1 hD (fun h => by cases h.2.2.2.1) (fun _ => rfl) rfl
  have c3 := SopLoopReach.other (.accept 0) c2 (by simp) rfl
  have c4 := SopLoopReach.other (.accept 0) c3 (by simp) rfl
  have c5 := SopLoopReach.other (.complete 0 0) c4 (by simp) rfl
  have c6 := SopLoopReach.other (.complete 0 1) c5 (by simp) rfl
  exact ⟨_, c6, rfl, rfl, rfl, rfl, rfl, rfl, rfl, rfl, ⟨_, _, rfl⟩, rfl⟩

/-- A batch of two equal points is generated, proposed and accepted, and the first evaluation completes. -/
theorem bit_batch : ∃ w : SopSys 1, SopLoopReach bitSetup w ∧ lastBatch w.sys.st.log = [fun _ => 0, fun _ => 0] ∧
    w.sys.recs.length = 1 ∧ (∀ r ∈ w.sys.recs, r.kind = .adapt) ∧ w.sys.st.batchQueue = [] ∧ w.sys.st.pendingEvals = 1 ∧
    w.sys.st.log.any isLoss = false := by
  have hs : bitSetup.cfg.base.srbf = none := rfl
  obtain ⟨w, hw, hsop, hq, hp, hr, hpend, hnum, ht, hcv, ⟨_, _, hX'⟩, hloss⟩ := bit_warm
  have hX : w.sys.st.curX ≠ [] := by rw [hX']; simp
  have hrr := hw.reach
  have hD : DesignOf bitSetup.prob bitSetup.base.numPts [fun _ => 0, fun _ => 1] := design_unit bitProb rfl rfl
  have hg : Going bitSetup.cfg.base w.sys.st := ⟨ht, by rw [hnum, hpend]; norm_num [SopSetup.cfg, bitSetup]⟩
  have hstep := step_propose_gen hs w hcv (sopOracle bitSetup [fun _ => 0, fun _ => 1] [fun _ => 0, fun _ => 0]) hg hq
    (.inr hpend) (fun _ => 0) [fun _ => 0] rfl
  obtain ⟨z, hz⟩ := generate_isSome (c := bitSetup.cfg) (z := w.sop) (n := w.sys.st.numEvals.toNat)
    (pts := [fun _ => 0] ++ [fun _ => 0]) (hrr.cinv hs)
    (by rw [hsop, hnum]; rfl)
    (by
      rw [hsop]
      refine ⟨SopRec.new (fun _ => 1) 0, by simp, SopRec.new (fun _ => 0) 1, by simp, ?_⟩
      simp only [SopRec.new]
      intro he
      have := congrFun he 0
      simp [toUnitBox, SopSetup.cfg, bitSetup, bitProb] at this)
    (by rw [hsop]; simp) (by simp [SopSetup.cfg, bitSetup]) (by rw [hsop]; simp [busyPts, SopSetup.cfg, bitSetup])
  rw [hz] at hstep
  have hgen : SopGenOf bitSetup w (wanted bitSetup.base) [fun _ => 0, fun _ => 0] := by
    refine ⟨rfl, fun z1 z2 h1 h2 => ?_⟩
    obtain ⟨e1, i1⟩ := firstRanks_keeps h1 (hrr.cinv hs)
    have e2 := (updateCenterList_keeps h2).1
    have hev : z2.evals = [SopRec.new (fun _ => 1) 0, SopRec.new (fun _ => 0) 1] := by rw [e2, e1, hsop]
    have hc1 : z1.centers = [] := by
      unfold Sop.firstRanks at h1
      rw [hsop] at h1
      simp only at h1
      obtain ⟨_, _, _, rfl⟩ := updateRanks_spec h1; rfl
    obtain ⟨_, _, _, _, _, _, _, _, new, hc, hnew, hl, _⟩ := updateCenterList_spec h2
    rw [hc1] at hc hl
    simp only [List.filter_nil, List.nil_append, List.length_nil] at hc hl
    rw [← e2, hev] at hnew
    have h2 : new.length = 2 := hl
    obtain ⟨a, b, rfl⟩ := List.length_eq_two.mp h2
    rw [hc, hev]
    have key : ∀ ce ∈ [a, b], ∃ r : SopRec 1,
        ([SopRec.new (fun _ => 1) 0, SopRec.new (fun _ => 0) 1] : List (SopRec 1))[ce.index]? = some r ∧
        r.sigma = 2 / 10 ∧ Feasible bitProb ce.xc := by
      intro ce hce
      obtain ⟨r, hr1, hr2⟩ := Option.map_eq_some_iff.mp (hnew ce hce).1
      refine ⟨r, hr1, ?_⟩
      have hm := List.mem_of_getElem? hr1
      simp only [List.mem_cons, List.not_mem_nil, or_false] at hm
      rw [← hr2]
      rcases hm with rfl | rfl
      · exact ⟨rfl, fun i => by simp [bitProb, SopRec.new], fun i _ => ⟨1, by simp [SopRec.new]⟩⟩
      · exact ⟨rfl, fun i => by simp [bitProb, SopRec.new], fun i _ => ⟨0, by simp [SopRec.new]⟩⟩
    obtain ⟨ra, ha1, ha2, ha3⟩ := key a (by simp)
    obtain ⟨rb, hb1, hb2, hb3⟩ := key b (by simp)
    have na := (hnew a (by simp)).2.1
    have nb := (hnew b (by simp)).2.1
    refine ⟨a, ra, [{ a with newPoint := some fun _ => 0 }, b], by simp [na], ha1, ?_, by simp [assignPoint, na],
      b, rb, [{ a with newPoint := some fun _ => 0 }, { b with newPoint := some fun _ => 0 }], by simp [nb], hb1, ?_,
      by simp [assignPoint, nb], trivial⟩
    · rw [ha2]; exact bit_point _ hX _ ha3
    · rw [hb2]; exact bit_point _ hX _ hb3
  have c1 := SopLoopReach.propose _ _ hw hD (fun _ => hgen)
    (fun h => absurd ⟨ht, hg.budget, hcv, hq, .inr hpend⟩ h) hstep
  have s2 := step_propose_queue hs (⟨proposeLast w.sys (genState w.sys.st ([fun _ => 0] ++ [fun _ => 0])) [fun _ => 0]
    (fun _ => 0) Kind.adapt, z⟩ : SopSys 1) hcv (sopOracle bitSetup [fun _ => 0, fun _ => 1] [])
    ⟨ht, by simp [proposeLast, genState, State.note, State.makeProposal, hnum, hpend, SopSetup.cfg, bitSetup]⟩
    (x := fun _ => 0) (q := []) rfl
  have c2 := SopLoopReach.propose _ _ c1 hD (fun h => by cases h.2.2.2.1) (fun _ => rfl) s2
  have c3 := SopLoopReach.other (.accept 0) c2 (by simp) (by
    simp only [SopSys.step, Sys.step, proposeLast, hp]; rfl)
  have c4 := SopLoopReach.other (.accept 0) c3 (by simp) (by
    simp only [SopSys.step, Sys.step, proposeLast, hp]; rfl)
  obtain ⟨w4, c4, r1, r2, f1, f2, f3, f4, f5, f6, f7⟩ : ∃ w4, SopLoopReach bitSetup w4 ∧ ∃ r1 r2, w4.sys.recs = [r1, r2] ∧
      r1.kind = .adapt ∧ r2.kind = .adapt ∧ w4.sys.st.batchQueue = [] ∧ w4.sys.st.pendingEvals = 2 ∧
      lastBatch w4.sys.st.log = [fun _ => 0, fun _ => 0] ∧ w4.sys.st.log.any isLoss = false := by
    refine ⟨_, c4, _, _, by simp only [hr]; rfl, rfl, rfl, rfl, ?_, ?_, ?_⟩
    · simp [proposeLast, genState, State.note, State.makeProposal, State.onAccept, hpend]
    · simp [proposeLast, genState, State.note, State.makeProposal, State.onAccept, lastBatch]
    · simp only [proposeLast, genState, State.note, State.makeProposal, State.onAccept, List.any_append, hloss]; rfl
  obtain ⟨z', s5⟩ := step_complete_mid hs (w := w4) rfl (i := 0) (r := r1) (by rw [f1]; rfl) f2 (by omega) 5
  have c5 := SopLoopReach.other (.complete 0 5) c4 (by simp) s5
  refine ⟨_, c5, ?_, by simp [f1], by simp [f1, f3], ?_, ?_, ?_⟩
  · simp only [recordCompleted_eq, State.note, lastBatch_concat]; exact f6
  · simp only [recordCompleted_eq, State.note]; exact f4
  · simp only [recordCompleted_eq, State.note, f5]; rfl
  · simp only [recordCompleted_eq, State.note, List.any_append, f7]; rfl

/-- The hypotheses of `C90_feasible` are met by this run, which has adaptive points. -/
example : ProbOk bitSetup.prob ∧ bitSetup.base.srbf = none ∧ (∀ e ∈ bitSetup.base.extras, Feasible bitSetup.prob e.1) ∧
    ∃ w, SopLoopReach bitSetup w ∧ lastBatch w.sys.st.log = [fun _ => 0, fun _ => 0] := by
  obtain ⟨w, h1, h2, _⟩ := bit_batch
  exact ⟨bitProb_ok, rfl, by simp [bitSetup], w, h1, h2⟩

/-! ## C56: batches with equal points -/

/-- Synchronous: if two points of a batch are equal, the completion of its last evaluation raises, whatever the values are
and although nothing was lost. -/
theorem C56_duplicates_refuted {c : Cfg d} (hs : c.base.srbf = none) {w : SopSys d} (h : Sop.Reach c w)
    (ha : c.base.asynchronous = false) {i : ℕ} {r : Rec (Pt d)} (hr : w.sys.recs[i]? = some r) (hk : r.kind = .adapt)
    (hq : w.sys.st.batchQueue = []) (hp : w.sys.st.pendingEvals = 1) (hn : ¬ (lastBatch w.sys.st.log).Nodup) (v : Val) :
    w.step c (.complete i v) = none := complete_dup hs h ha hr hk hq hp hn v

/-- This happens in the closed loop, on a problem with integer variables: all points come from the design and the candidate
search, `batch_size = ncenters`, nothing is rejected or aborted, and the last completion of the first batch raises. -/
theorem C56_integer_refuted : ∃ w, SopLoopReach bitSetup w ∧ (∀ e ∈ w.sys.st.log, isLoss e = false) ∧
    w.sys.recs.length = 1 ∧ ∀ v, w.step bitSetup.cfg (.complete 0 v) = none := by
  obtain ⟨w, h1, h2, h3, h4, h5, h6, h7⟩ := bit_batch
  obtain ⟨r, hr⟩ := List.length_eq_one_iff.mp h3
  refine ⟨w, h1, ?_, h3, fun v => ?_⟩
  · simpa using h7
  · exact C56_duplicates_refuted rfl h1.reach rfl (r := r) (by rw [hr]; rfl) (h4 r (by rw [hr]; simp)) h5 h6
      (by rw [h2]; simp) v

end Verif.Props
