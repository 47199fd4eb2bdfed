import Verif.Cand.Acq
import Mathlib.MeasureTheory.Integral.IntegralEqImproper
import Mathlib.Analysis.SpecialFunctions.Gaussian.GaussianIntegral

/-! # The EI formula is the expected improvement -/

namespace Verif.Cand

open MeasureTheory ProbabilityTheory Set Filter Topology

theorem normPdf_eq (x : ℝ) : normPdf x = (Real.sqrt (2 * Real.pi))⁻¹ * Real.exp (-x ^ 2 / 2) := by
  simp [normPdf, gaussianPDFReal]

theorem hasDerivAt_normPdf (x : ℝ) : HasDerivAt normPdf (-(x * normPdf x)) x := by
  have h : HasDerivAt (fun x : ℝ => (Real.sqrt (2 * Real.pi))⁻¹ * Real.exp (-x ^ 2 / 2))
      ((Real.sqrt (2 * Real.pi))⁻¹ * (Real.exp (-x ^ 2 / 2) * (-x))) x := by
    apply HasDerivAt.const_mul
    apply HasDerivAt.exp
    have := ((hasDerivAt_pow 2 x).neg.div_const 2)
    exact this.congr_deriv (by push_cast; ring)
  have e : normPdf = fun x : ℝ => (Real.sqrt (2 * Real.pi))⁻¹ * Real.exp (-x ^ 2 / 2) := funext normPdf_eq
  rw [e]
  exact h.congr_deriv (by ring)

theorem integrable_normPdf : Integrable normPdf := integrable_gaussianPDFReal 0 1

theorem integrable_mul_normPdf : Integrable (fun x => x * normPdf x) := by
  have h := (integrable_mul_exp_neg_mul_sq (b := 1 / 2) (by norm_num)).const_mul (Real.sqrt (2 * Real.pi))⁻¹
  refine h.congr (Eventually.of_forall fun x => ?_)
  simp only [normPdf_eq]
  have : -(1 / 2 : ℝ) * x ^ 2 = -x ^ 2 / 2 := by ring
  rw [this]; ring

theorem tendsto_normPdf_atBot : Tendsto normPdf atBot (𝓝 0) := by
  have e : normPdf = fun x : ℝ => (Real.sqrt (2 * Real.pi))⁻¹ * Real.exp (-x ^ 2 / 2) := funext normPdf_eq
  rw [e]
  rw [show (0 : ℝ) = (Real.sqrt (2 * Real.pi))⁻¹ * 0 by simp]
  apply Tendsto.const_mul
  apply Real.tendsto_exp_atBot.comp
  have h2 : Tendsto (fun x : ℝ => x ^ 2) atBot atTop := by
    have := (tendsto_neg_atBot_atTop (G := ℝ)).comp (tendsto_id (α := ℝ) (x := atBot))
    have h3 := (tendsto_pow_atTop (α := ℝ) (n := 2) (by norm_num)).comp this
    refine h3.congr fun x => ?_
    simp
  have h3 := (tendsto_neg_atTop_atBot.comp h2).atBot_div_const (show (0 : ℝ) < 2 by norm_num)
  exact h3

theorem integral_Iic_mul_normPdf (c : ℝ) : ∫ z in Iic c, z * normPdf z = -normPdf c := by
  have h := integral_Iic_of_hasDerivAt_of_tendsto' (a := c) (f := normPdf) (f' := fun z => -(z * normPdf z)) (m := 0)
    (fun x _ => hasDerivAt_normPdf x) integrable_mul_normPdf.neg.integrableOn tendsto_normPdf_atBot
  rw [integral_neg] at h
  linarith

theorem normCdf_eq (c : ℝ) : normCdf c = ∫ z in Iic c, normPdf z := by
  unfold normCdf
  rw [measureReal_def, gaussianReal_apply_eq_integral 0 (by norm_num) (Iic c),
    ENNReal.toReal_ofReal (setIntegral_nonneg measurableSet_Iic fun x _ => gaussianPDFReal_nonneg 0 1 x)]
  rfl

/-- `γ Φ(γ) + φ(γ) = E[max(γ - Z, 0)]` for a standard normal `Z`. -/
theorem beta_eq (c : ℝ) : c * normCdf c + normPdf c = ∫ z, max (c - z) 0 ∂(gaussianReal 0 1) := by
  rw [integral_gaussianReal_eq_integral_smul (by norm_num)]
  have h1 : ∀ z : ℝ, gaussianPDFReal 0 1 z • max (c - z) 0 = (Iic c).indicator (fun z => c * normPdf z - z * normPdf z) z := by
    intro z
    change normPdf z * max (c - z) 0 = _
    by_cases hz : z ≤ c
    · rw [indicator_of_mem (show z ∈ Iic c from hz), max_eq_left (by linarith)]; ring
    · rw [indicator_of_notMem (show z ∉ Iic c from hz), max_eq_right (by linarith)]; ring
  simp_rw [h1]
  rw [integral_indicator measurableSet_Iic, integral_sub (integrable_normPdf.const_mul c).integrableOn
    integrable_mul_normPdf.integrableOn, integral_Iic_mul_normPdf, integral_const_mul, normCdf_eq]
  ring

/-- The formula of `ei_merit` is the expected improvement over `fbest` of a normal variable with the predicted mean and
standard deviation. -/
theorem eiFormula_eq (fbest mu sig : ℝ) (hs : 0 < sig) :
    eiFormula fbest mu sig = ∫ y, max (fbest - y) 0 ∂(gaussianReal mu (sig ^ 2).toNNReal) := by
  have hmap : (gaussianReal 0 1).map (fun z => mu + sig * z) = gaussianReal mu (sig ^ 2).toNNReal := by
    have e : (fun z : ℝ => mu + sig * z) = (fun z => mu + z) ∘ (fun z => sig * z) := rfl
    rw [e, ← Measure.map_map (by fun_prop) (by fun_prop), gaussianReal_map_const_mul, gaussianReal_map_const_add]
    congr 1
    · simp
    · ext; simp [Real.coe_toNNReal _ (sq_nonneg sig)]
  rw [← hmap, integral_map (by fun_prop) (by fun_prop)]
  unfold eiFormula
  simp only
  rw [beta_eq, ← integral_const_mul]
  congr 1
  funext z
  rw [mul_max_of_nonneg _ _ hs.le, mul_zero]
  congr 1
  field_simp
  ring

theorem integrable_max (fbest mu : ℝ) (v : NNReal) : Integrable (fun y => max (fbest - y) 0) (gaussianReal mu v) := by
  have h : Integrable (fun y : ℝ => y) (gaussianReal mu v) :=
    (memLp_id_gaussianReal' (μ := mu) (v := v) 1 (by norm_num)).integrable le_rfl
  exact ((integrable_const fbest).sub h).pos_part

theorem eiFormula_nonneg (fbest mu sig : ℝ) (hs : 0 < sig) : 0 ≤ eiFormula fbest mu sig := by
  rw [eiFormula_eq fbest mu sig hs]
  exact integral_nonneg fun _ => le_max_right _ _

theorem improvement_le (fbest mu sig : ℝ) (hs : 0 < sig) : fbest - mu ≤ eiFormula fbest mu sig := by
  rw [eiFormula_eq fbest mu sig hs]
  have h : Integrable (fun y : ℝ => y) (gaussianReal mu (sig ^ 2).toNNReal) :=
    (memLp_id_gaussianReal' 1 (by norm_num)).integrable le_rfl
  have e : ∫ y, (fbest - y) ∂(gaussianReal mu (sig ^ 2).toNNReal) = fbest - mu := by
    rw [integral_sub (integrable_const _) h]
    simp [integral_id_gaussianReal]
  rw [← e]
  exact integral_mono ((integrable_const fbest).sub h) (integrable_max _ _ _) fun _ => le_max_left _ _

/-- EI as an expectation over a standard normal variable. -/
theorem eiFormula_std (fbest mu sig : ℝ) (hs : 0 < sig) :
    eiFormula fbest mu sig = ∫ z, max (fbest - mu - sig * z) 0 ∂(gaussianReal 0 1) := by
  unfold eiFormula
  simp only
  rw [beta_eq, ← integral_const_mul]
  congr 1
  funext z
  rw [mul_max_of_nonneg _ _ hs.le, mul_zero]
  congr 1
  field_simp

theorem integrable_std (a sig : ℝ) : Integrable (fun z => max (a - sig * z) 0) (gaussianReal 0 1) := by
  have h : Integrable (fun y : ℝ => y) (gaussianReal 0 1) :=
    (memLp_id_gaussianReal' 1 (by norm_num)).integrable le_rfl
  exact ((integrable_const a).sub (h.const_mul sig)).pos_part

theorem eiFormula_mono_mean (fbest mu mu' sig : ℝ) (hs : 0 < sig) (h : mu ≤ mu') :
    eiFormula fbest mu' sig ≤ eiFormula fbest mu sig := by
  rw [eiFormula_std _ _ _ hs, eiFormula_std _ _ _ hs]
  refine integral_mono (integrable_std _ _) (integrable_std _ _) fun z => ?_
  exact max_le_max (by linarith) le_rfl

end Verif.Cand
