import Verif.Problems.Minima

/-! # The six-hump camel function is at least `-1.0317` -/

namespace Verif.Problems

/-- The polynomial that remains after completing squares in the second variable. -/
theorem camel_poly {t : ℝ} (h0 : 0 ≤ t) :
    0 ≤ t ^ 6 / 3 - 2.1 * t ^ 4 + (4 - 4 / 11.3 ^ 2) * t ^ 2 - (11.3 / 32 + 4 / 11.3) * t + 0.0317 := by
  have hQ : 0.25 ≤ (300163411349425384369 / 76614000000000000000) * t ^ 0 + (-282458427301 / 750000000000) * t ^ 1 + (-209191799 / 100000000) * t ^ 2 + (899 / 15000) * t ^ 3 + (1 / 3) * t ^ 4 := by
    nlinarith [sq_nonneg (t ^ 2 + 0.0899 * t - 3.22), sq_nonneg (t - 1.76)]
  have h := mul_nonneg (sq_nonneg (t - 0.0899)) (sub_nonneg.2 hQ)
  nlinarith [sq_nonneg (t - 0.0899)]

theorem camel_ge_aux {x y : ℝ} (hx : 0 ≤ x) :
    -1.0317 ≤ (4 - 2.1 * x ^ 2 + x ^ 4 / 3) * x ^ 2 + x * y + (-4 + 4 * y ^ 2) * y ^ 2 := by
  have h := camel_poly hx
  have h1 := mul_nonneg hx (sq_nonneg (y + 11.3 / 16))
  have h2 := sq_nonneg (y ^ 2 - 1 / 2 - x / 11.3)
  norm_num at h h1 h2 ⊢
  nlinarith

theorem camel_ge (x y : ℝ) :
    -1.0317 ≤ (4 - 2.1 * x ^ 2 + x ^ 4 / 3) * x ^ 2 + x * y + (-4 + 4 * y ^ 2) * y ^ 2 := by
  rcases le_total 0 x with h | h
  · exact camel_ge_aux h
  · have := camel_ge_aux (y := -y) (neg_nonneg.2 h)
    have e : (4 - 2.1 * (-x) ^ 2 + (-x) ^ 4 / 3) * (-x) ^ 2 + (-x) * (-y) + (-4 + 4 * (-y) ^ 2) * (-y) ^ 2 =
      (4 - 2.1 * x ^ 2 + x ^ 4 / 3) * x ^ 2 + x * y + (-4 + 4 * y ^ 2) * y ^ 2 := by ring
    rwa [e] at this

end Verif.Problems
