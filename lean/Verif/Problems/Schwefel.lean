import Verif.Problems.Minima
import Mathlib.Analysis.SpecialFunctions.Trigonometric.Bounds

/-! # The Schwefel function: `y sin √|y| ≤ 418.9829` on the box -/

namespace Verif.Problems

open Real

/-- `cos t ≤ 1 - t²/2 + t⁴/24` on `[0, 1]`. -/
theorem cos_le_quartic {t : ℝ} (h0 : 0 ≤ t) (h1 : t ≤ 1) : cos t ≤ 1 - t ^ 2 / 2 + t ^ 4 / 24 := by
  have e : cos t = 1 - 2 * sin (t / 2) ^ 2 := by
    rw [← cos_two_mul_eq_one_sub]; congr 1; ring
  have h := sin_ge_sub_cube (x := t / 2) (by linarith)
  have h2 : 0 ≤ t / 2 - (t / 2) ^ 3 / 6 := by nlinarith [mul_nonneg h0 h0]
  have h3 : (t / 2 - (t / 2) ^ 3 / 6) ^ 2 ≤ sin (t / 2) ^ 2 := by gcongr
  rw [e]
  nlinarith [pow_nonneg h0 6]

theorem schwefel_poly {t : ℝ} (h0 : 0 ≤ t) (h1 : t ≤ 1) :
    (20.42035225 + t) ^ 2 * (1 - t ^ 2 / 2 + t ^ 4 / 24) ≤ 418.9829 := by
  have hQ : 100 ≤ (270053926113318756689845511 / 1280000000000000000000000) * t ^ 0 + (109392538623970831601 / 6400000000000000000) * t ^ 1 + (-6607297512852961 / 384000000000000) * t ^ 2 + (-82070089 / 48000000) * t ^ 3 + (-1 / 24) * t ^ 4 := by
    have h2 : t ^ 2 ≤ 1 := by nlinarith
    have h3 : t ^ 3 ≤ 1 := by nlinarith [mul_nonneg h0 h0]
    have h4 : t ^ 4 ≤ 1 := by nlinarith [pow_nonneg h0 3]
    norm_num
    linarith
  have h := mul_nonneg (sq_nonneg (t - 0.09717)) (sub_nonneg.2 hQ)
  nlinarith [sq_nonneg (t - 0.09717)]

theorem pi_bounds : 20.4203522 ≤ 13 * π / 2 ∧ 13 * π / 2 ≤ 20.42035225 := by
  have h1 := pi_gt_d20
  have h2 := pi_lt_d20
  constructor <;> linarith

theorem sin_eq_cos (s : ℝ) : sin s = cos (s - 13 * π / 2) := by
  have : s = (s - 13 * π / 2) + π / 2 + (3 : ℕ) * (2 * π) := by push_cast; ring
  rw [this, sin_add_nat_mul_two_pi, sin_add_pi_div_two]
  congr 1; push_cast; ring

/-- Positive side: `s² sin s ≤ 418.9829` for `0 ≤ s ≤ √512`. -/
theorem sq_mul_sin_le {s : ℝ} (h0 : 0 ≤ s) (h : s ^ 2 ≤ 512) : s ^ 2 * sin s ≤ 418.9829 := by
  obtain ⟨hp1, hp2⟩ := pi_bounds
  have hs : s ≤ 22.63 := by nlinarith
  by_cases hsm : s ≤ 13 * π / 2
  · have : s ^ 2 ≤ 20.42035225 ^ 2 := by gcongr; linarith
    nlinarith [sin_le_one s]
  · rw [sin_eq_cos]
    set t := s - 13 * π / 2 with ht
    have ht0 : 0 ≤ t := by linarith
    by_cases ht1 : t ≤ 1
    · have hc := cos_le_quartic ht0 ht1
      have hq : 0 ≤ 1 - t ^ 2 / 2 + t ^ 4 / 24 := by nlinarith [sq_nonneg t, pow_nonneg ht0 4]
      have h2 : s ^ 2 ≤ (20.42035225 + t) ^ 2 := by gcongr; linarith
      calc s ^ 2 * cos t ≤ s ^ 2 * (1 - t ^ 2 / 2 + t ^ 4 / 24) := by gcongr
        _ ≤ (20.42035225 + t) ^ 2 * (1 - t ^ 2 / 2 + t ^ 4 / 24) := by gcongr
        _ ≤ _ := schwefel_poly ht0 ht1
    · have hc : cos t ≤ cos 1 := cos_le_cos_of_nonneg_of_le_pi (by norm_num) (by linarith [pi_gt_three]) (by linarith)
      have := cos_one_le
      nlinarith [sq_nonneg s]

/-- Negative side. -/
theorem neg_sq_mul_sin_le {s : ℝ} (h0 : 0 ≤ s) (h : s ^ 2 ≤ 512) : -(s ^ 2 * sin s) ≤ 418.9829 := by
  obtain ⟨hp1, hp2⟩ := pi_bounds
  have hs : s ≤ 22.63 := by nlinarith
  by_cases hsm : s ≤ 20.4
  · have : s ^ 2 ≤ 20.4 ^ 2 := by gcongr
    nlinarith [neg_one_le_sin s]
  · by_cases h7 : s ≤ 7 * π
    · have : 0 ≤ sin (s - (3 : ℕ) * (2 * π)) :=
        sin_nonneg_of_nonneg_of_le_pi (by push_cast; linarith) (by push_cast; linarith)
      rw [sin_sub_nat_mul_two_pi] at this
      nlinarith [mul_nonneg (sq_nonneg s) this]
    · have e : -sin s = sin (s - 7 * π) := by
        have : s - 7 * π = s - π - (3 : ℕ) * (2 * π) := by push_cast; ring
        rw [this, sin_sub_nat_mul_two_pi, sin_sub_pi]
      have h1 : sin (s - 7 * π) ≤ s - 7 * π := sin_le (by linarith)
      have h2 : -sin s ≤ 0.7 := by rw [e]; linarith
      nlinarith [mul_le_mul_of_nonneg_left h2 (sq_nonneg s)]

theorem schwefel_term_le {y : ℝ} (h : |y| ≤ 512) : y * sin (sqrt |y|) ≤ 418.9829 := by
  have hs : sqrt |y| ^ 2 = |y| := sq_sqrt (abs_nonneg y)
  rcases le_total 0 y with hy | hy
  · have := sq_mul_sin_le (sqrt_nonneg |y|) (by rw [hs]; exact h)
    rw [hs] at this
    rwa [abs_of_nonneg hy] at this ⊢
  · have := neg_sq_mul_sin_le (sqrt_nonneg |y|) (by rw [hs]; exact h)
    rw [hs] at this
    rw [abs_of_nonpos hy] at this ⊢
    linarith

/-- The value at the stated minimizer. -/
theorem schwefel_term_min : 418.98288 ≤ 420.968746 * sin (sqrt |420.968746|) := by
  obtain ⟨hp1, hp2⟩ := pi_bounds
  rw [abs_of_pos (by norm_num)]
  have hs : sqrt 420.968746 ≤ 20.517523 := by rw [sqrt_le_left (by norm_num)]; norm_num
  have hs' : 20.51752 ≤ sqrt 420.968746 := by exact le_sqrt_of_sq_le (by norm_num)
  rw [sin_eq_cos]
  have h1 : cos 0.0971708 ≤ cos (sqrt 420.968746 - 13 * π / 2) :=
    cos_le_cos_of_nonneg_of_le_pi (by linarith) (by linarith [pi_gt_three]) (by linarith)
  have h2 : cos 0.0971708 = 1 - 2 * sin 0.0485854 ^ 2 := by
    rw [← cos_two_mul_eq_one_sub]; norm_num
  have h3 := (abs_le.1 (sin_bound (x := 0.0485854) (by rw [abs_of_pos] <;> norm_num))).2
  rw [abs_of_pos (by norm_num)] at h3
  have h4 : 0 ≤ sin 0.0485854 := sin_nonneg_of_nonneg_of_le_pi (by norm_num) (by linarith [pi_gt_three])
  have h5 : sin 0.0485854 ≤ 0.0485663 := by norm_num at h3 ⊢; linarith
  have h6 : sin 0.0485854 ^ 2 ≤ 0.0485663 ^ 2 := by gcongr
  norm_num at h1 h2 h6 ⊢
  linarith

end Verif.Problems
