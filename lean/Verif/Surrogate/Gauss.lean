import Verif.Num.Basic
import Mathlib.Analysis.SpecialFunctions.Exponential
import Mathlib.Algebra.BigOperators.Ring.Finset
import Mathlib.Tactic.Linarith

/-! # The Gaussian kernel is positive definite

`∑ c_i c_j exp(-t |x_i - x_j|²) ≥ 0`, and `> 0` for distinct points and `c ≠ 0`.  Elementary: the exponential series of
`exp(2t ⟨x_i, x_j⟩)` and the expansion of the powers of the inner product into monomials. -/

namespace Verif.Surrogate

open Verif.Num Finset

variable {d : ℕ} {ι : Type} [Fintype ι]

/-- Squared distance. -/
def sqd (x y : Pt d) : ℝ := ∑ k, (x k - y k) ^ 2

theorem sqd_nonneg (x y : Pt d) : 0 ≤ sqd x y := Finset.sum_nonneg fun _ _ => sq_nonneg _

theorem eucl_eq_sqrt (x y : Pt d) : eucl x y = Real.sqrt (sqd x y) := rfl

theorem eucl_sq (x y : Pt d) : eucl x y ^ 2 = sqd x y := Real.sq_sqrt (sqd_nonneg x y)

/-- Value of a monomial, given by the list of its variables. -/
def mono (m : List (Fin d)) (x : Pt d) : ℝ := (m.map x).prod

theorem mono_ofFn {k : ℕ} (f : Fin k → Fin d) (x : Pt d) : mono (List.ofFn f) x = ∏ l, x (f l) := by
  unfold mono
  rw [List.map_ofFn, List.prod_ofFn]
  rfl

/-- A quadratic form of a power of the inner product is a sum of squares. -/
theorem inner_pow_form (x : ι → Pt d) (b : ι → ℝ) (k : ℕ) :
    ∑ i, ∑ j, b i * b j * (∑ l, x i l * x j l) ^ k = ∑ f : Fin k → Fin d, (∑ i, b i * mono (List.ofFn f) (x i)) ^ 2 := by
  simp only [Fintype.sum_pow, mono_ofFn, Finset.mul_sum, Finset.prod_mul_distrib, sq, Finset.sum_mul]
  rw [Finset.sum_congr rfl fun i _ => Finset.sum_comm]
  rw [Finset.sum_comm]
  refine Finset.sum_congr rfl fun f _ => ?_
  rw [Finset.sum_comm]
  refine Finset.sum_congr rfl fun i _ => Finset.sum_congr rfl fun j _ => ?_
  ring

/-- The quadratic form of the Gaussian kernel. -/
noncomputable def gaussForm (x : ι → Pt d) (c : ι → ℝ) (t : ℝ) : ℝ :=
  ∑ i, ∑ j, c i * c j * Real.exp (-(t * sqd (x i) (x j)))

/-- The weights in the expansion. -/
noncomputable def gaussWeight (x : ι → Pt d) (c : ι → ℝ) (t : ℝ) (i : ι) : ℝ := c i * Real.exp (-(t * ∑ k, x i k ^ 2))

theorem gauss_hasSum (x : ι → Pt d) (c : ι → ℝ) (t : ℝ) :
    HasSum (fun k : ℕ => (2 * t) ^ k / (Nat.factorial k : ℝ) *
      ∑ f : Fin k → Fin d, (∑ i, gaussWeight x c t i * mono (List.ofFn f) (x i)) ^ 2) (gaussForm x c t) := by
  have h1 : ∀ i j, HasSum (fun k : ℕ => gaussWeight x c t i * gaussWeight x c t j *
      ((2 * t * ∑ l, x i l * x j l) ^ k / (Nat.factorial k : ℝ))) (c i * c j * Real.exp (-(t * sqd (x i) (x j)))) := by
    intro i j
    have h := (NormedSpace.expSeries_div_hasSum_exp (2 * t * ∑ l, x i l * x j l)).mul_left
      (gaussWeight x c t i * gaussWeight x c t j)
    rw [← congrFun Real.exp_eq_exp_ℝ] at h
    suffices e : c i * c j * Real.exp (-(t * sqd (x i) (x j))) =
        gaussWeight x c t i * gaussWeight x c t j * Real.exp (2 * t * ∑ l, x i l * x j l) by rw [e]; exact h
    unfold gaussWeight
    have : -(t * sqd (x i) (x j)) = -(t * ∑ k, x i k ^ 2) + -(t * ∑ k, x j k ^ 2) + 2 * t * ∑ l, x i l * x j l := by
      unfold sqd
      have : ∑ k, (x i k - x j k) ^ 2 = ∑ k, x i k ^ 2 + ∑ k, x j k ^ 2 - 2 * ∑ l, x i l * x j l := by
        rw [Finset.mul_sum, ← Finset.sum_add_distrib, ← Finset.sum_sub_distrib]
        exact Finset.sum_congr rfl fun k _ => by ring
      rw [this]; ring
    rw [this, Real.exp_add, Real.exp_add]
    ring
  have h2 := hasSum_sum (s := Finset.univ) fun i (_ : i ∈ Finset.univ) =>
    hasSum_sum (s := Finset.univ) fun j (_ : j ∈ Finset.univ) => h1 i j
  unfold gaussForm
  convert h2 using 1
  funext k
  rw [← inner_pow_form, Finset.mul_sum]
  refine Finset.sum_congr rfl fun i _ => ?_
  rw [Finset.mul_sum]
  refine Finset.sum_congr rfl fun j _ => ?_
  rw [mul_pow]; ring

theorem gaussForm_nonneg (x : ι → Pt d) (c : ι → ℝ) {t : ℝ} (ht : 0 ≤ t) : 0 ≤ gaussForm x c t :=
  (gauss_hasSum x c t).nonneg fun k => mul_nonneg (by positivity) (Finset.sum_nonneg fun _ _ => sq_nonneg _)

/-- If all moments vanish, so do the sums against products of linear factors. -/
theorem sum_factors (x : ι → Pt d) (b : ι → ℝ) (h : ∀ m : List (Fin d), ∑ i, b i * mono m (x i) = 0)
    (fs : List (Fin d × ℝ)) (m : List (Fin d)) :
    ∑ i, b i * ((fs.map fun p => x i p.1 - p.2).prod * mono m (x i)) = 0 := by
  induction fs generalizing m with
  | nil => simpa using h m
  | cons p fs ih =>
    have h1 := ih (p.1 :: m)
    have h2 := ih m
    have : ∑ i, b i * (((p :: fs).map fun p => x i p.1 - p.2).prod * mono m (x i)) =
        ∑ i, b i * ((fs.map fun p => x i p.1 - p.2).prod * mono (p.1 :: m) (x i)) -
          p.2 * ∑ i, b i * ((fs.map fun p => x i p.1 - p.2).prod * mono m (x i)) := by
      rw [Finset.mul_sum, ← Finset.sum_sub_distrib]
      refine Finset.sum_congr rfl fun i _ => ?_
      simp only [mono, List.map_cons, List.prod_cons]
      ring
    rw [this, h1, h2]; ring

theorem gaussForm_pos (x : ι → Pt d) (hx : Function.Injective x) (c : ι → ℝ) (hc : c ≠ 0) {t : ℝ} (ht : 0 < t) :
    0 < gaussForm x c t := by
  classical
  rcases (gaussForm_nonneg x c ht.le).lt_or_eq with h | h
  · exact h
  exfalso
  apply hc
  have hs := gauss_hasSum x c t
  rw [← h] at hs
  have hterm : ∀ k : ℕ, 0 ≤ (2 * t) ^ k / (Nat.factorial k : ℝ) *
      ∑ f : Fin k → Fin d, (∑ i, gaussWeight x c t i * mono (List.ofFn f) (x i)) ^ 2 := fun k =>
    mul_nonneg (by positivity) (Finset.sum_nonneg fun _ _ => sq_nonneg _)
  have hz := (hasSum_zero_iff_of_nonneg hterm).mp hs
  have hm : ∀ m : List (Fin d), ∑ i, gaussWeight x c t i * mono m (x i) = 0 := by
    intro m
    have h1 := congrFun hz m.length
    simp only [Pi.zero_apply] at h1
    have h2 : ∑ f : Fin m.length → Fin d, (∑ i, gaussWeight x c t i * mono (List.ofFn f) (x i)) ^ 2 = 0 := by
      rcases mul_eq_zero.mp h1 with h | h
      · exact absurd h (by positivity)
      · exact h
    have h3 := (Finset.sum_eq_zero_iff_of_nonneg fun f _ => sq_nonneg _).mp h2 m.get (Finset.mem_univ _)
    rw [List.ofFn_get] at h3
    exact pow_eq_zero_iff (two_ne_zero) |>.mp h3
  funext i0
  -- a product of linear factors that vanishes at the other points only
  have hsep : ∀ j : ι, ∃ k : Fin d, j ≠ i0 → x i0 k ≠ x j k := by
    intro j
    by_cases hj : j = i0
    · by_cases hd : Nonempty (Fin d)
      · exact ⟨hd.some, fun h => absurd hj h⟩
      · subst hj
        have : ∀ m : List (Fin d), m = [] := fun m => by
          cases m with
          | nil => rfl
          | cons a _ => exact absurd ⟨a⟩ hd
        exfalso
        -- no coordinates: there is only one point
        have hsub : ∀ i, i = j := fun i => hx (by funext k; exact absurd ⟨k⟩ hd)
        have h0 := hm []
        have : ∑ i, gaussWeight x c t i * mono [] (x i) = gaussWeight x c t j := by
          rw [Finset.sum_eq_single j (fun b _ hb => absurd (hsub b) hb) (by simp)]
          simp [mono]
        rw [this] at h0
        apply hc
        funext i
        rw [hsub i]
        unfold gaussWeight at h0
        rcases mul_eq_zero.mp h0 with h | h
        · exact h
        · exact absurd h (Real.exp_ne_zero _)
    · obtain ⟨k, hk⟩ := Function.ne_iff.mp fun e => hj (hx e)
      exact ⟨k, fun _ => fun e => hk e.symm⟩
  choose k hk using hsep
  let fs : List (Fin d × ℝ) := ((Finset.univ.erase i0).toList).map fun j => (k j, x j (k j))
  have h0 := sum_factors x _ hm fs []
  rw [Finset.sum_eq_single i0] at h0
  · rcases mul_eq_zero.mp h0 with h | h
    · unfold gaussWeight at h
      rcases mul_eq_zero.mp h with h | h
      · exact h
      · exact absurd h (Real.exp_ne_zero _)
    · exfalso
      simp only [mono, List.map_nil, List.prod_nil, mul_one] at h
      rw [List.prod_eq_zero_iff] at h
      simp only [fs, List.map_map, List.mem_map, Finset.mem_toList, Finset.mem_erase, Finset.mem_univ, and_true,
        Function.comp_apply] at h
      obtain ⟨j, hj, e⟩ := h
      exact hk j hj (by linarith)
  · intro j _ hj
    have : (fs.map fun p => x j p.1 - p.2).prod = 0 := by
      rw [List.prod_eq_zero_iff]
      simp only [fs, List.map_map, List.mem_map, Finset.mem_toList, Finset.mem_erase, Finset.mem_univ, and_true,
        Function.comp_apply]
      exact ⟨j, hj, by ring⟩
    rw [this]; ring
  · simp

end Verif.Surrogate
