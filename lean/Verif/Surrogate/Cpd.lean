import Verif.Surrogate.Gauss
import Mathlib.Analysis.SpecialFunctions.ImproperIntegrals
import Mathlib.MeasureTheory.Integral.Bochner.Set
import Mathlib.MeasureTheory.Integral.IntegralEqImproper

/-! # Powers of the distance are conditionally definite

`∑ c_i c_j |x_i - x_j|^(2β)` is negative for `0 < β < 1` if `∑ c_i = 0`, and positive for `1 < β < 2` if in addition
`∑ c_i x_i = 0`: the powers are mixtures of Gaussians. -/

namespace Verif.Surrogate

open Verif.Num MeasureTheory Set

variable {d : ℕ} {ι : Type} [Fintype ι]

/-- A positive integrable function has a positive integral. -/
theorem integral_pos_Ioi {h : ℝ → ℝ} (hi : IntegrableOn h (Ioi 0)) (hp : ∀ t, 0 < t → 0 < h t) :
    0 < ∫ t in Ioi 0, h t := by
  rw [setIntegral_pos_iff_support_of_nonneg_ae _ hi]
  · have : Function.support h ∩ Ioi 0 = Ioi 0 := by
      ext t
      simp only [mem_inter_iff, Function.mem_support, mem_Ioi, and_iff_right_iff_imp]
      exact fun ht => (hp t ht).ne'
    rw [this]
    simp
  · filter_upwards [ae_restrict_mem measurableSet_Ioi] with t ht
    exact (hp t ht).le

theorem integral_nonneg_Ioi {h : ℝ → ℝ} (hp : ∀ t, 0 < t → 0 ≤ h t) : 0 ≤ ∫ t in Ioi 0, h t :=
  setIntegral_nonneg measurableSet_Ioi fun t ht => hp t ht

/-- A function `g` with `0 ≤ g u ≤ u ^ p` near zero and `g u ≤ u ^ q` far away, `q < β < p`, can be integrated against
`u ^ (-1 - β)`. -/
theorem integrable_weight {g : ℝ → ℝ} (hg : Continuous g) {β p q : ℝ} (hp : β < p) (hq : q < β)
    (h0 : ∀ u, 0 < u → 0 ≤ g u) (h1 : ∀ u, 0 < u → g u ≤ u ^ p) (h2 : ∀ u, 0 < u → g u ≤ u ^ q) :
    IntegrableOn (fun u => g u * u ^ (-1 - β)) (Ioi 0) := by
  have hm : ∀ s : Set ℝ, s ⊆ Ioi 0 → MeasurableSet s →
      AEStronglyMeasurable (fun u => g u * u ^ (-1 - β)) (volume.restrict s) := by
    intro s hs hms
    refine ContinuousOn.aestronglyMeasurable ?_ hms
    exact hg.continuousOn.mul (continuousOn_id.rpow_const fun x hx => Or.inl (ne_of_gt (hs hx)))
  rw [← Ioc_union_Ioi_eq_Ioi (zero_le_one : (0 : ℝ) ≤ 1)]
  refine IntegrableOn.union ?_ ?_
  · have hint : IntegrableOn (fun u : ℝ => u ^ (p - 1 - β)) (Ioc 0 1) := by
      have := intervalIntegral.intervalIntegrable_rpow' (a := 0) (b := 1) (r := p - 1 - β) (by linarith)
      rwa [intervalIntegrable_iff, uIoc_of_le zero_le_one] at this
    refine Integrable.mono' hint (hm _ (fun u hu => hu.1) measurableSet_Ioc) ?_
    filter_upwards [ae_restrict_mem measurableSet_Ioc] with u hu
    have hu0 : 0 < u := hu.1
    rw [Real.norm_eq_abs, abs_of_nonneg (mul_nonneg (h0 u hu0) (Real.rpow_nonneg hu0.le _))]
    calc g u * u ^ (-1 - β) ≤ u ^ p * u ^ (-1 - β) :=
          mul_le_mul_of_nonneg_right (h1 u hu0) (Real.rpow_nonneg hu0.le _)
      _ = u ^ (p - 1 - β) := by rw [← Real.rpow_add hu0]; congr 1; ring
  · have hint : IntegrableOn (fun u : ℝ => u ^ (q - 1 - β)) (Ioi 1) :=
      integrableOn_Ioi_rpow_of_lt (by linarith) one_pos
    refine Integrable.mono' hint (hm _ (fun u hu => lt_trans one_pos (mem_Ioi.mp hu)) measurableSet_Ioi) ?_
    filter_upwards [ae_restrict_mem measurableSet_Ioi] with u hu
    have hu0 : 0 < u := lt_trans one_pos hu
    rw [Real.norm_eq_abs, abs_of_nonneg (mul_nonneg (h0 u hu0) (Real.rpow_nonneg hu0.le _))]
    calc g u * u ^ (-1 - β) ≤ u ^ q * u ^ (-1 - β) :=
          mul_le_mul_of_nonneg_right (h2 u hu0) (Real.rpow_nonneg hu0.le _)
      _ = u ^ (q - 1 - β) := by rw [← Real.rpow_add hu0]; congr 1; ring

/-- Scaling. -/
theorem integral_scale {g : ℝ → ℝ} {β : ℝ} (hβ : 0 < β) (hg0 : g 0 = 0)
    (hi : IntegrableOn (fun u => g u * u ^ (-1 - β)) (Ioi 0)) {s : ℝ} (hs : 0 ≤ s) :
    IntegrableOn (fun t => g (t * s) * t ^ (-1 - β)) (Ioi 0) ∧
      ∫ t in Ioi 0, g (t * s) * t ^ (-1 - β) = s ^ β * ∫ u in Ioi 0, g u * u ^ (-1 - β) := by
  rcases hs.lt_or_eq with hs | hs
  · have he : EqOn (fun t => g (t * s) * t ^ (-1 - β))
        (fun t => s ^ (1 + β) * (fun u => g u * u ^ (-1 - β)) (s * t)) (Ioi 0) := by
      intro t ht
      simp only
      have h1 : (s * t) ^ (-1 - β) = s ^ (-1 - β) * t ^ (-1 - β) := Real.mul_rpow hs.le (le_of_lt ht)
      have h2 : s ^ (1 + β) * s ^ (-1 - β) = 1 := by
        rw [← Real.rpow_add hs]; simp
      rw [h1, mul_comm s t]
      linear_combination -(g (t * s) * t ^ (-1 - β)) * h2
    constructor
    · refine IntegrableOn.congr_fun ?_ he.symm measurableSet_Ioi
      refine Integrable.const_mul ?_ _
      have := (integrableOn_Ioi_comp_mul_left_iff (fun u => g u * u ^ (-1 - β)) 0 hs).mpr (by simpa using hi)
      exact this
    · rw [setIntegral_congr_fun measurableSet_Ioi he, integral_const_mul,
        integral_comp_mul_left_Ioi (fun u => g u * u ^ (-1 - β)) 0 hs]
      simp only [mul_zero, smul_eq_mul]
      rw [← mul_assoc, Real.rpow_add hs, Real.rpow_one]
      field_simp
  · subst hs
    simp only [mul_zero, hg0, zero_mul]
    rw [Real.zero_rpow hβ.ne']
    simp

/-- The quadratic form of a power as an integral. -/
theorem power_form {g : ℝ → ℝ} {β : ℝ} (hβ : 0 < β) (hg0 : g 0 = 0)
    (hi : IntegrableOn (fun u => g u * u ^ (-1 - β)) (Ioi 0)) (x : ι → Pt d) (c : ι → ℝ) :
    IntegrableOn (fun t => (∑ i, ∑ j, c i * c j * g (t * sqd (x i) (x j))) * t ^ (-1 - β)) (Ioi 0) ∧
    ∫ t in Ioi 0, (∑ i, ∑ j, c i * c j * g (t * sqd (x i) (x j))) * t ^ (-1 - β) =
      (∑ i, ∑ j, c i * c j * sqd (x i) (x j) ^ β) * ∫ u in Ioi 0, g u * u ^ (-1 - β) := by
  have h := fun i j => integral_scale hβ hg0 hi (sqd_nonneg (x i) (x j))
  have he : (fun t => (∑ i, ∑ j, c i * c j * g (t * sqd (x i) (x j))) * t ^ (-1 - β)) =
      fun t => ∑ i, ∑ j, c i * c j * (g (t * sqd (x i) (x j)) * t ^ (-1 - β)) := by
    funext t
    simp only [Finset.sum_mul]
    exact Finset.sum_congr rfl fun i _ => Finset.sum_congr rfl fun j _ => by ring
  rw [he]
  constructor
  · exact integrable_finsetSum _ fun i _ => integrable_finsetSum _ fun j _ => (h i j).1.const_mul _
  · rw [integral_finsetSum _ fun i _ => integrable_finsetSum _ fun j _ => (h i j).1.const_mul _]
    simp only [Finset.sum_mul]
    refine Finset.sum_congr rfl fun i _ => ?_
    rw [integral_finsetSum _ fun j _ => (h i j).1.const_mul _]
    refine Finset.sum_congr rfl fun j _ => ?_
    rw [integral_const_mul, (h i j).2]
    ring

/-! ## Exponents between 0 and 1 -/

theorem g1_bounds (u : ℝ) (hu : 0 < u) : 0 < 1 - Real.exp (-u) ∧ 1 - Real.exp (-u) ≤ u ∧ 1 - Real.exp (-u) ≤ 1 := by
  have h1 := Real.add_one_le_exp (-u)
  have h2 := Real.exp_pos (-u)
  have h3 : Real.exp (-u) < 1 := Real.exp_lt_one_iff.mpr (by linarith)
  exact ⟨by linarith, by linarith, by linarith⟩

theorem g1_integrable {β : ℝ} (h0 : 0 < β) (h1 : β < 1) :
    IntegrableOn (fun u => (1 - Real.exp (-u)) * u ^ (-1 - β)) (Ioi 0) := by
  refine integrable_weight (p := 1) (q := 0) (by fun_prop) h1 h0 (fun u hu => (g1_bounds u hu).1.le) (fun u hu => ?_)
    fun u hu => ?_
  · rw [Real.rpow_one]; exact (g1_bounds u hu).2.1
  · rw [Real.rpow_zero]; exact (g1_bounds u hu).2.2

theorem g1_form (x : ι → Pt d) (c : ι → ℝ) (hc : ∑ i, c i = 0) (t : ℝ) :
    ∑ i, ∑ j, c i * c j * (1 - Real.exp (-(t * sqd (x i) (x j)))) = -gaussForm x c t := by
  unfold gaussForm
  simp only [mul_sub, mul_one, Finset.sum_sub_distrib, ← Finset.mul_sum, ← Finset.sum_mul, hc]
  ring

/-- `|x - y|^(2β)` with `0 < β < 1` is conditionally negative definite. -/
theorem power_neg {β : ℝ} (h0 : 0 < β) (h1 : β < 1) (x : ι → Pt d) (hx : Function.Injective x) (c : ι → ℝ)
    (hc : ∑ i, c i = 0) (hne : c ≠ 0) : ∑ i, ∑ j, c i * c j * sqd (x i) (x j) ^ β < 0 := by
  have hi := g1_integrable h0 h1
  obtain ⟨hint, he⟩ := power_form (g := fun u => 1 - Real.exp (-u)) h0 (by simp) hi x c
  simp only [g1_form x c hc] at hint he
  have hI : 0 < ∫ u in Ioi 0, (1 - Real.exp (-u)) * u ^ (-1 - β) :=
    integral_pos_Ioi hi fun t ht => mul_pos (g1_bounds t ht).1 (Real.rpow_pos_of_pos ht _)
  have hneg : ∫ t in Ioi 0, -gaussForm x c t * t ^ (-1 - β) < 0 := by
    have : 0 < ∫ t in Ioi 0, -(-gaussForm x c t * t ^ (-1 - β)) := by
      refine integral_pos_Ioi hint.neg fun t ht => ?_
      have := mul_pos (gaussForm_pos x hx c hne ht) (Real.rpow_pos_of_pos ht (-1 - β))
      linarith
    rw [integral_neg] at this
    linarith
  rw [he] at hneg
  by_contra hcon
  push Not at hcon
  exact absurd (mul_nonneg hcon hI.le) (not_le.mpr hneg)

/-! ## Exponents between 1 and 2 -/

theorem g2_bounds (u : ℝ) (hu : 0 < u) :
    0 < Real.exp (-u) - 1 + u ∧ Real.exp (-u) - 1 + u ≤ u ^ 2 ∧ Real.exp (-u) - 1 + u ≤ u := by
  have h1 := Real.add_one_lt_exp (x := -u) (by linarith)
  have h3 : Real.exp (-u) < 1 := Real.exp_lt_one_iff.mpr (by linarith)
  refine ⟨by linarith, ?_, by linarith⟩
  have h4 : Real.exp (-u) * (1 + u) ≤ 1 := by
    have h5 := Real.add_one_le_exp u
    calc Real.exp (-u) * (1 + u) ≤ Real.exp (-u) * Real.exp u :=
          mul_le_mul_of_nonneg_left (by linarith) (Real.exp_pos _).le
      _ = 1 := by rw [← Real.exp_add]; simp
  have h6 : Real.exp (-u) * (1 + u) ≤ (1 - u + u ^ 2) * (1 + u) := by nlinarith [pow_pos hu 3]
  have := le_of_mul_le_mul_right h6 (by linarith)
  linarith

theorem g2_integrable {β : ℝ} (h0 : 1 < β) (h1 : β < 2) :
    IntegrableOn (fun u => (Real.exp (-u) - 1 + u) * u ^ (-1 - β)) (Ioi 0) := by
  refine integrable_weight (p := 2) (q := 1) (by fun_prop) h1 h0 (fun u hu => (g2_bounds u hu).1.le) (fun u hu => ?_)
    fun u hu => ?_
  · rw [Real.rpow_two]; exact (g2_bounds u hu).2.1
  · rw [Real.rpow_one]; exact (g2_bounds u hu).2.2

/-- The constraints annihilate the squared distances. -/
theorem sqd_form (x : ι → Pt d) (c : ι → ℝ) (hc : ∑ i, c i = 0) (hx : ∀ k, ∑ i, c i * x i k = 0) :
    ∑ i, ∑ j, c i * c j * sqd (x i) (x j) = 0 := by
  unfold sqd
  simp only [Finset.mul_sum]
  rw [Finset.sum_congr rfl fun i _ => Finset.sum_comm, Finset.sum_comm]
  refine Finset.sum_eq_zero fun k _ => ?_
  have : ∀ i j, c i * c j * (x i k - x j k) ^ 2 =
      c i * x i k ^ 2 * c j + c i * (c j * x j k ^ 2) - 2 * ((c i * x i k) * (c j * x j k)) := fun i j => by ring
  simp only [this, Finset.sum_add_distrib, Finset.sum_sub_distrib, ← Finset.mul_sum, ← Finset.sum_mul, hc, hx]
  ring

theorem g2_form (x : ι → Pt d) (c : ι → ℝ) (hc : ∑ i, c i = 0) (hx : ∀ k, ∑ i, c i * x i k = 0) (t : ℝ) :
    ∑ i, ∑ j, c i * c j * (Real.exp (-(t * sqd (x i) (x j))) - 1 + t * sqd (x i) (x j)) = gaussForm x c t := by
  have h1 : ∑ i, ∑ j, c i * c j * (t * sqd (x i) (x j)) = 0 := by
    have : ∀ i j, c i * c j * (t * sqd (x i) (x j)) = t * (c i * c j * sqd (x i) (x j)) := fun i j => by ring
    simp only [this, ← Finset.mul_sum, sqd_form x c hc hx, mul_zero]
  unfold gaussForm
  simp only [mul_add, mul_sub, mul_one, Finset.sum_add_distrib, Finset.sum_sub_distrib, h1]
  simp only [← Finset.mul_sum, ← Finset.sum_mul, hc]
  ring

/-- `|x - y|^(2β)` with `1 < β < 2` is conditionally positive definite of order 2. -/
theorem power_pos {β : ℝ} (h0 : 1 < β) (h1 : β < 2) (x : ι → Pt d) (c : ι → ℝ)
    (hc : ∑ i, c i = 0) (hl : ∀ k, ∑ i, c i * x i k = 0) :
    0 ≤ ∑ i, ∑ j, c i * c j * sqd (x i) (x j) ^ β ∧
      (Function.Injective x → c ≠ 0 → 0 < ∑ i, ∑ j, c i * c j * sqd (x i) (x j) ^ β) := by
  have hi := g2_integrable h0 h1
  obtain ⟨hint, he⟩ := power_form (g := fun u => Real.exp (-u) - 1 + u) (by linarith) (by simp) hi x c
  simp only [g2_form x c hc hl] at hint he
  have hI : 0 < ∫ u in Ioi 0, (Real.exp (-u) - 1 + u) * u ^ (-1 - β) :=
    integral_pos_Ioi hi fun t ht => mul_pos (g2_bounds t ht).1 (Real.rpow_pos_of_pos ht _)
  constructor
  · have h := integral_nonneg_Ioi (h := fun t => gaussForm x c t * t ^ (-1 - β)) fun t ht =>
      mul_nonneg (gaussForm_nonneg x c ht.le) (Real.rpow_nonneg ht.le _)
    rw [he] at h
    exact nonneg_of_mul_nonneg_left h hI
  · intro hx hne
    have h := integral_pos_Ioi hint fun t ht =>
      mul_pos (gaussForm_pos x hx c hne ht) (Real.rpow_pos_of_pos ht _)
    rw [he] at h
    exact pos_of_mul_pos_left h hI.le

end Verif.Surrogate
