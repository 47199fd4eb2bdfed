import Verif.Props.Whole
import Verif.Props.GP

/-! # Property C118 for the Gaussian process: no condition on the designs -/

namespace Verif.Props

open Verif.Num Verif.Utils Verif.Cand Verif.Design Verif.Strategy Verif.Spec Verif.Loop

variable {d : ℕ} {L : Setup d} {f : Pt d → Val} {lb ub : Pt d} {trans : List ℝ → List ℝ}
  {hyp : List (List (Pt d) × List ℝ) → Surrogate.Hyper d}

instance : Hereditary (fun P : List (Pt d) => P = []) where
  mono h hB := by rw [hB] at h; exact List.subset_nil.mp h

/-- The Gaussian process answers as soon as it has data, also `predict_std`: for all four strategies. -/
theorem gp_answers (m : Method) : Answers (fun P => P = []) m (gpObj lb ub trans hyp) := by
  intro calls D hcol hne _ _
  have hX : (Surrogate.gpRun lb ub trans hyp calls).Xu ≠ [] := by
    have := C46_history lb ub id (Surrogate.extFit trans (Surrogate.gpFit hyp)) (extFit_keepsData _ _) ⟨none, []⟩ calls hcol
    show (Surrogate.run lb ub id _ _ calls).Xu ≠ []
    rw [show (Surrogate.run lb ub id (Surrogate.extFit trans (Surrogate.gpFit hyp)) (Surrogate.extInit d _) calls).Xu = _ from this.Xu]
    simpa using hne
  obtain ⟨h, h1, h2⟩ := gp_model lb ub trans hyp calls hcol
  refine ⟨?_, fun _ => ?_⟩
  · simp only [gpObj, dif_pos (show (Surrogate.gpRun lb ub trans hyp calls).Xu ≠ [] ∧
      ∀ x, (Surrogate.gpPredict lb ub trans hyp calls x).isSome = true from ⟨hX, fun x => by rw [h1]; rfl⟩)]
    simp
  · simp only [gpObj, dif_pos (show (Surrogate.gpRun lb ub trans hyp calls).Xu ≠ [] ∧
      ∀ x, (Surrogate.gpPredictStd lb ub trans hyp calls x).isSome = true from ⟨hX, fun x => by rw [h2]; rfl⟩)]
    simp

theorem design_ne (hs : Sane L.cfg) (ok : ProbOk L.prob) {D : List (Pt d)} (hD : DesignOf L.prob L.cfg.numPts D) : D ≠ [] := by
  have h1 := (hD.spec ok).1
  have h2 := hs.design
  rintro rfl
  simp at h1
  omega

/-- SRBF, DYCORS, EI and LCB with the Gaussian process, both modes, any number of workers and any schedule: as soon as one point
was evaluated in this run, `propose_action` does not raise. -/
theorem C118_gp (ok : ProbOk L.prob) (hs : Sane L.cfg) (hL : MethodOk L) {W : ObjSys d}
    (h : ObjReach (fun P => P = []) L (gpObj lb ub trans hyp) f W) (hne : W.sys.st.curX ≠ []) (r : Rnd d) :
    objStep L (gpObj lb ub trans hyp) f W (.propose r) ≠ none := by
  refine C118_any ok hs hL (gp_answers L.method) h hne hne ?_ r
  rintro ⟨o, x, o', _, _, h1, h2⟩
  simp only [List.map_eq_nil_iff] at h2
  rw [h2] at h1
  simp at h1

/-- SRBF, DYCORS, EI and LCB with the Gaussian process, restarts, run by the serial controller, in both modes, with any designs:
the run never raises and never stalls, evaluates exactly `max_evals` points, all of them feasible, and ends. -/
theorem C118_gp_serial (ok : ProbOk L.prob) (hs : Sane L.cfg) (hr : L.cfg.useRestarts = true) (hL : MethodOk L)
    (hx : ∀ e ∈ L.cfg.extras, Feasible L.prob e.1) {M : ℕ} (hM : L.cfg.maxEvals = M) (D : List (Pt d))
    (hD : DesignOf L.prob L.cfg.numPts D) (rs : List (State (Pt d) → Rnd d))
    (hrs : ∀ r ∈ rs, ∀ W, ObjReach (fun P => P = []) L (gpObj lb ub trans hyp) f W → RndOk L W.sys.st (r W.sys.st)) :
    ∃ W b, objSerial L (gpObj lb ub trans hyp) f rs (objCreate L D) = some (W, b) ∧
      (completions W.sys.st.log).length = min rs.length M ∧
      (∀ q ∈ completions W.sys.st.log, q.2 = f q.1 ∧ Feasible L.prob q.1) ∧ (b = true ↔ M < rs.length) :=
  C118_serial ok hs hr hL hx (gp_answers L.method) hM D hD (design_ne hs ok hD) rs
    fun r hr W hW => ⟨hrs r hr W hW, design_ne hs ok (hrs r hr W hW).1⟩

/-- Twelve rounds of EI with a budget of ten evaluations. -/
example (f : Pt 1 → Val) (hyp : List (List (Pt 1) × List ℝ) → Surrogate.Hyper 1) : ∃ W : ObjSys 1,
    objSerial ⟨unitProb, { loopCfg [] with useRestarts := true }, .ei none 0.1⟩ (gpObj unitProb.lb unitProb.ub id hyp) f
      (List.replicate 12 fun _ => midRnd) (objCreate ⟨unitProb, { loopCfg [] with useRestarts := true }, .ei none 0.1⟩
        [fun _ => 0, fun _ => 1]) = some (W, true) ∧ (completions W.sys.st.log).length = 10 := by
  obtain ⟨W, b, e, hc, _, hb⟩ := C118_gp_serial (L := ⟨unitProb, { loopCfg [] with useRestarts := true }, .ei none 0.1⟩) (f := f)
    (lb := unitProb.lb) (ub := unitProb.ub) (trans := id) (hyp := hyp) (M := 10) unitProb_ok
    ⟨by norm_num [loopCfg], .inl rfl, fun sc h => by cases h⟩ rfl rfl (by simp [loopCfg]) rfl _ (design_unit _ rfl rfl)
    (List.replicate 12 fun _ => midRnd) (fun r hr W hW => by
      rw [List.eq_of_mem_replicate hr]
      refine ⟨design_unit _ rfl rfl, rfl, ?_, fun _ _ => ⟨le_refl (0 : ℝ), one_pos⟩, fun k X fX z _ _ hz => ?_⟩
      · intro g hg q i
        rw [List.mem_singleton.mp hg]; norm_num [midRun]
      · have := (hW.loop (L := ⟨unitProb, { loopCfg [] with useRestarts := true }, .ei none 0.1⟩) rfl).reach.book.srbf
        rw [hz] at this; cases this)
  have : b = true := hb.mpr (by simp)
  subst this
  exact ⟨W, e, by rw [hc]; simp⟩

end Verif.Props
