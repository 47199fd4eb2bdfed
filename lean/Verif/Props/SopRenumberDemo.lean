import Verif.Props.SopMirror
import Verif.Props.SopMirrorDesign
import Verif.Props.Uniform

/-! # Property C144: a run that meets the hypotheses -/

namespace Verif.Props

open Verif.Num Verif.Utils Verif.Cand Verif.Design Verif.Strategy Verif.Spec Verif.Loop Verif.Sop

/-- SOP with one center, on the unit square. -/
noncomputable def planeSetup : SopSetup 2 :=
  { prob := areaProb
    base := { asynchronous := false, batchSize := 1, maxEvals := 10, useRestarts := false, numPts := 2, extras := [],
              srbf := none }
    ncenters := 1 }

/-- The design `[0, 1], [1, 0]`; the candidate searches draw the center itself. -/
noncomputable def planeRnd : SopRnd 2 where
  design := [![0, 1], ![1, 0]]
  cands := fun _ => ⟨0, fun _ _ => 0, fun _ _ => 0, fun _ => 0⟩

/-- The design is evaluated. -/
theorem plane_warm : ∃ w : SopSys 2, sopLoopRun planeSetup meanSurr (fun x => if x 0 = 0 then 0 else 1) [![0, 1], ![1, 0]]
      [.propose planeRnd, .propose planeRnd, .accept 0, .accept 0, .complete 0, .complete 0] = some w ∧ Sop.Reach planeSetup.cfg w ∧
    (∃ u v, w.sop = ⟨[SopRec.new ![1, 0] u, SopRec.new ![0, 1] v], [], none⟩) ∧ w.sys.st.batchQueue = [] ∧
    w.sys.st.pendingEvals = 0 ∧ w.sys.st.numEvals = 2 ∧ w.sys.st.terminate = false ∧
    w.sys.st.converged = false ∧ w.sys.st.curX ≠ [] ∧ w.sys.st.surr ≠ [] ∧ generatedPts w.sys.st.log = [] := by
  have key : ∀ {w w1 w2 w3 w4 w5 w6 : SopSys 2} {f : Pt 2 → Val}, w.sys.st.batchQueue ≠ [] →
      w.step planeSetup.cfg (.propose (sopOracle planeSetup planeRnd.design [])) = some w1 → w1.sys.st.batchQueue ≠ [] →
      w1.step planeSetup.cfg (.propose (sopOracle planeSetup planeRnd.design [])) = some w2 →
      w2.step planeSetup.cfg (.accept 0) = some w3 → w3.step planeSetup.cfg (.accept 0) = some w4 →
      (w4.sys.recs[0]?.bind fun r => w4.step planeSetup.cfg (.complete 0 (f r.x))) = some w5 →
      (w5.sys.recs[0]?.bind fun r => w5.step planeSetup.cfg (.complete 0 (f r.x))) = some w6 →
      sopLoopSteps planeSetup meanSurr f w
        [.propose planeRnd, .propose planeRnd, .accept 0, .accept 0, .complete 0, .complete 0] = some w6 := by
    intro w w1 w2 w3 w4 w5 w6 f h0 e1 h1 e2 e3 e4 e5 e6
    simp only [sopLoopSteps, sopLoopStep, sopAnswer_none h0, Option.bind_some, e1, sopAnswer_none h1, e2, e3, e4, e5, e6]
  have c0 : Sop.Reach planeSetup.cfg _ := .create (sopOracle planeSetup [![0, 1], ![1, 0]] [])
  have c1 := c0.step (.propose (sopOracle planeSetup planeRnd.design [])) rfl
  have c2 := c1.step (.propose (sopOracle planeSetup planeRnd.design [])) rfl
  have c3 := c2.step (.accept 0) rfl
  have c4 := c3.step (.accept 0) rfl
  have c5 := c4.step (.complete 0 (if (1 : ℝ) = 0 then 0 else 1)) rfl
  have c6 := c5.step (.complete 0 (if (0 : ℝ) = 0 then 0 else 1)) rfl
  refine ⟨_, key (w := SopSys.create planeSetup.cfg (sopOracle planeSetup [![0, 1], ![1, 0]] [])) ?_ rfl ?_ rfl rfl rfl rfl rfl,
    c6, ⟨_, _, rfl⟩, rfl, rfl, rfl, rfl, rfl, ?_, ?_, rfl⟩
  · exact List.cons_ne_nil _ _
  · exact List.cons_ne_nil _ _
  · exact List.cons_ne_nil _ _
  · exact List.cons_ne_nil _ _

/-- A run of SOP with two evaluated design points, after which a point is generated. -/
theorem plane_demo : ∃ w, sopLoopRun planeSetup meanSurr (fun x => if x 0 = 0 then 0 else 1) [![0, 1], ![1, 0]]
      ([.propose planeRnd, .propose planeRnd, .accept 0, .accept 0, .complete 0, .complete 0] ++ [.propose planeRnd]) = some w ∧
    (generatedPts w.sys.st.log).length = 1 := by
  obtain ⟨w, hw, hr, ⟨u, v, hsop⟩, hq, hpend, hnum, ht, hcv, hX, hsu, hgp⟩ := plane_warm
  have hs : planeSetup.cfg.base.srbf = none := rfl
  have hg : Going planeSetup.cfg.base w.sys.st := ⟨ht, by rw [hnum, hpend]; norm_num [SopSetup.cfg, planeSetup]⟩
  have hgen : ∀ x, ∃ z, w.sop.generate planeSetup.cfg w.sys.st.numEvals.toNat [x] = some z := by
    intro x
    refine generate_isSome (hr.cinv hs) (by rw [hsop, hnum]; rfl) ?_ (by rw [hsop]; simp) (by simp [SopSetup.cfg, planeSetup])
      (by rw [hsop]; simp [busyPts, SopSetup.cfg, planeSetup])
    rw [hsop]
    refine ⟨SopRec.new ![1, 0] u, by simp, SopRec.new ![0, 1] v, by simp, ?_⟩
    simp only [SopRec.new]
    intro he
    have := congrFun he 0
    simp [toUnitBox, SopSetup.cfg, planeSetup, areaProb] at this
  obtain ⟨pred, hpred⟩ : ∃ pred, (meanSurr : Surr 2).mean (surrData w.sys.st) = some pred := by
    unfold meanSurr
    simp only
    rw [if_neg (by simpa [surrData] using hsu)]
    exact ⟨_, rfl⟩
  obtain ⟨x, hx⟩ : ∃ x, sopAnswer planeSetup meanSurr w planeRnd = some [x] := by
    unfold sopAnswer
    rw [if_pos ⟨ht, hg.2, hcv, hq, .inr hpend⟩]
    obtain ⟨z, hz⟩ := hgen (fun _ => 0)
    unfold Sop.generate at hz
    unfold sopGen
    cases h1 : w.sop.firstRanks planeSetup.cfg w.sys.st.numEvals.toNat with
    | none => rw [h1] at hz; cases hz
    | some z1 =>
      rw [h1] at hz
      simp only [Option.bind_some] at hz ⊢
      cases h2 : z1.updateCenterList planeSetup.cfg w.sys.st.numEvals.toNat with
      | none => rw [h2] at hz; cases hz
      | some z2 =>
        rw [h2] at hz
        simp only [Option.bind_some] at hz ⊢
        obtain ⟨_, i1⟩ := firstRanks_keeps h1 (hr.cinv hs)
        have i2 := (updateCenterList_cinv h2 i1).1
        cases h3 : [fun _ : Fin 2 => (0 : ℝ)].foldlM assignPoint z2.centers with
        | none => rw [h3] at hz; cases hz
        | some cs =>
          simp only [List.foldlM_cons, List.foldlM_nil, Option.bind_eq_bind, Option.bind_eq_some_iff] at h3
          obtain ⟨cs1, h3, _⟩ := h3
          obtain ⟨l, ce, rr, e1, e2, e3, e4⟩ := assignPoint_spec h3
          have hfind : (z2.centers.find? fun ce => ce.newPoint.isNone) = some ce := by
            rw [e1, List.find?_append, List.find?_eq_none.mpr]
            · simp [e3]
            · intro c hc
              have := e4 c hc
              cases hcn : c.newPoint with
              | none => exact absurd hcn this
              | some y => simp
          obtain ⟨v', hv'⟩ := i2.at_ ce (by rw [e1]; simp)
          unfold archive at hv'
          rw [List.getElem?_map] at hv'
          obtain ⟨rec, hrec, _⟩ := Option.map_eq_some_iff.mp hv'
          obtain ⟨x, hx⟩ := sopPoint_isSome (L := planeSetup) hX hpred ce.xc rec.sigma (planeRnd.cands 0)
          have hass : ∃ cs', assignPoint z2.centers x = some cs' := by
            rw [e1]
            clear e1 e2 h3 hfind hv' hrec hz h2
            induction l with
            | nil => exact ⟨_, by simp [assignPoint, e3]; rfl⟩
            | cons a l ih =>
              obtain ⟨cs', h'⟩ := ih (fun c hc => e4 c (by simp [hc]))
              have := e4 a (by simp)
              cases han : a.newPoint with
              | none => exact absurd han this
              | some y => exact ⟨_, by simp only [List.cons_append, assignPoint, han, h']; rfl⟩
          obtain ⟨cs', hcs'⟩ := hass
          refine ⟨x, ?_⟩
          rw [show (List.range (wanted planeSetup.base)).map planeRnd.cands = [planeRnd.cands 0] from rfl]
          simp only [sopPoints, hfind, hrec, hx, hcs', Option.bind_some, Option.map_some]
  obtain ⟨z, hz⟩ := hgen x
  have hstep := step_propose_gen hs w hcv (sopOracle planeSetup planeRnd.design [x]) hg hq (.inr hpend) x [] rfl
  rw [List.nil_append, hz] at hstep
  have happ : ∀ (es fs : List (SEv 2)) (w0 : SopSys 2) (f : Pt 2 → Val), sopLoopSteps planeSetup meanSurr f w0 (es ++ fs) =
      (sopLoopSteps planeSetup meanSurr f w0 es).bind fun w' => sopLoopSteps planeSetup meanSurr f w' fs := by
    intro es fs
    induction es with
    | nil => intro w0 f; rfl
    | cons e es ih =>
      intro w0 f
      simp only [List.cons_append, sopLoopSteps]
      cases sopLoopStep planeSetup meanSurr f w0 e with
      | none => rfl
      | some w' => exact ih w' f
  unfold sopLoopRun at hw ⊢
  rw [happ, hw]
  simp only [Option.bind_some, sopLoopSteps, sopLoopStep, hx, hstep, Option.map_some]
  refine ⟨_, rfl, ?_⟩
  simp only [proposeLast, State.note, State.makeProposal, genState, generatedPts_append, hgp]
  rfl

/-- The same run with the two variables exchanged. -/
example : ∃ w, sopLoopRun (planeSetup.renum (Equiv.swap 0 1)) meanSurr (fun x => if x 1 = 0 then 0 else 1)
      ([![0, 1], ![1, 0]].map fun x i => x (Equiv.swap 0 1 i))
      (([SEv.propose planeRnd, .propose planeRnd, .accept 0, .accept 0, .complete 0, .complete 0] ++ [SEv.propose planeRnd]).map
        (SEv.map (fun x i => x (Equiv.swap 0 1 i)) (CandRnd.renum (Equiv.swap 0 1)))) = some w := by
  obtain ⟨w, h1, _⟩ := plane_demo
  obtain ⟨w', h', _⟩ := (C144_run_partial (Equiv.swap 0 1) planeSetup rfl meanSurr meanSurr _ (fun x => if x 1 = 0 then 0 else 1)
    (fun x => by simp) _ _ (fun _ _ _ _ => meanSurr_renum _ _)).2 w h1
  exact ⟨w', h'⟩

theorem meanSurr_mirror {d : ℕ} (ε : Fin d → Bool) (D : List (Pt d × ℝ)) : meanSurr.MirrorAt ε meanSurr D := by
  have h : (mirrorData ε D).map Prod.snd = D.map Prod.snd := by simp [mirrorData, List.map_map, Function.comp_def]
  by_cases hD : D = []
  · subst hD; exact ⟨by simp [meanSurr, mirrorData], by simp [meanSurr, mirrorData]⟩
  have hD' : mirrorData ε D ≠ [] := by simpa [mirrorData] using hD
  exact ⟨by simp only [meanSurr, if_neg hD, if_neg hD', h, Option.map_some],
    by simp only [meanSurr, if_neg hD, if_neg hD', h, Option.map_some]⟩

/-- The same run with the opposite sign of the first variable: on `[-1, 0] × [0, 1]`. -/
example : ∃ w, sopLoopRun (planeSetup.mirror ![true, false]) meanSurr (fun x => if -x 0 = 0 then 0 else 1)
      ([![0, 1], ![1, 0]].map fun x i => if ![true, false] i then -x i else x i)
      (([SEv.propose planeRnd, .propose planeRnd, .accept 0, .accept 0, .complete 0, .complete 0] ++ [SEv.propose planeRnd]).map
        (SEv.map (fun x i => if ![true, false] i then -x i else x i) (CandRnd.mirror ![true, false]))) = some w := by
  obtain ⟨w, h1, _⟩ := plane_demo
  obtain ⟨w', h', _⟩ := (C144_orientation_partial ![true, false] planeSetup rfl
    (fun i => by fin_cases i <;> simp [planeSetup, areaProb]) meanSurr meanSurr _
    (fun x => if -x 0 = 0 then 0 else 1) (fun x => by simp) _ _ (by simp [planeSetup])
    (fun r hr => by
      have : r = planeRnd := by simpa using hr
      subst this
      simp [planeSetup, planeRnd])
    (fun _ _ _ _ => meanSurr_mirror _ _)).2 w h1
  exact ⟨w', h'⟩

/-- Designs that meet the hypotheses of `C144_slhd_partial` and of `C144_two_factorial_partial`. -/
example : (∃ rnd X, slhdPoints 4 2 rnd (some (![0, 0], ![1, 1])) [] = some X) ∧ twoFactorialInit 2 = some 4 := by
  obtain ⟨rnd, X, h, _⟩ := C123_slhd_refuted (n := 4) (by norm_num)
  exact ⟨⟨rnd, X, h⟩, rfl⟩

/-- Draws that meet the hypotheses of `C144_lhd_partial`. -/
example : ∃ X, lhdPoints 1 1 [(fun _ _ => 1 / 2, fun _ => 1)] (some (![0], ![1])) [] = some X := by
  by_contra h
  have h1 : expdesDist ([(fun _ _ => 1 / 2, fun _ => 1)].map fun r : (Fin 1 → Fin 1 → ℝ) × (Fin 1 → Equiv.Perm (Fin 1)) =>
      lhs 1 1 r.1 r.2) (some (![0], ![1])) [] = none := by
    cases hX : expdesDist ([(fun _ _ => 1 / 2, fun _ => 1)].map fun r : (Fin 1 → Fin 1 → ℝ) × (Fin 1 → Equiv.Perm (Fin 1)) =>
        lhs 1 1 r.1 r.2) (some (![0], ![1])) [] with
    | none => rfl
    | some X => exact absurd ⟨X, hX⟩ h
  refine (C45_select _ _ _).2.mp h1 _ (List.mem_map.mpr ⟨_, List.mem_singleton.mpr rfl, rfl⟩) ⟨fun i j hij => absurd (Subsingleton.elim i j) hij, ?_⟩
  rw [rank_full_iff]
  intro w hw
  funext i
  have h2 := hw 0
  fin_cases i
  simpa [mapDesign, roundVars, fromUnitBox, lhs] using h2

end Verif.Props
