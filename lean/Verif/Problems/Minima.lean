import Verif.Problems.Formula
import Mathlib.Analysis.Real.Pi.Bounds
import Mathlib.Tactic.LinearCombination
import Mathlib.Tactic.NormNum

/-! # Lower bounds and values at the stated minimizers -/

namespace Verif.Problems

open Verif.Spec Finset

variable {n : ℕ}

theorem inBounds_const {p : Problem} {l u c : ℝ} (hl : p.lb = const p.dim l) (hu : p.ub = const p.dim u)
    (h1 : l ≤ c) (h2 : c ≤ u) : InBounds p (const p.dim c) := by
  refine ⟨by simp [const], fun i hi => ?_⟩
  rw [hl, hu]
  simp [const, hi, h1, h2]

theorem statedMinimum_of {p : Problem} {m : ℝ} {z : List ℝ} (hm : p.min = some m) (hz : p.minimum = some z)
    (hb : InBounds p z) (h0 : p.body z = m) (h : ∀ x, InBounds p x → m ≤ p.body x) : StatedMinimum p :=
  ⟨m, z, hm, hz, hb, eval_eq_some.2 ⟨hb.1, h0⟩, fun x hx => ⟨p.body x, eval_eq_some.2 ⟨hx.1, rfl⟩, h x hx⟩⟩

theorem minimumOfAll_of {p : Problem} {m : ℝ} (hm : p.min = some m)
    (h : ∀ x, x.length = p.dim → m ≤ p.body x) : MinimumOfAll p :=
  ⟨m, hm, fun x hx => ⟨p.body x, eval_eq_some.2 ⟨hx, rfl⟩, h x hx⟩⟩

/-! ## Ackley -/

theorem ackley_nonneg (hn : 0 < n) (x : Fin n → ℝ) : 0 ≤ ackleyUsual x := by
  have hn' : (0 : ℝ) < n := by exact_mod_cast hn
  have h1 : Real.exp (-0.2 * Real.sqrt (1 / n * ∑ j, x j ^ 2)) ≤ 1 :=
    Real.exp_le_one_iff.2 (by have := Real.sqrt_nonneg (1 / n * ∑ j, x j ^ 2); nlinarith)
  have h2 : 1 / (n : ℝ) * ∑ j, Real.cos (2 * Real.pi * x j) ≤ 1 := by
    have : ∑ j, Real.cos (2 * Real.pi * x j) ≤ n := by
      calc _ ≤ ∑ _j : Fin n, (1 : ℝ) := Finset.sum_le_sum fun j _ => Real.cos_le_one _
        _ = n := by simp
    rw [one_div, inv_mul_le_iff₀ hn']; simpa using this
  have h3 := Real.exp_le_exp.2 h2
  unfold ackleyUsual; linarith

theorem ackley_zero (hn : 0 < n) : ackleyUsual (fun _ : Fin n => 0) = 0 := by
  have hn' : (n : ℝ) ≠ 0 := by positivity
  simp [ackleyUsual, hn']
  ring

/-! ## Griewank -/

theorem abs_prod_cos_le (y : Fin n → ℝ) : ∏ j, Real.cos (y j) ≤ 1 := by
  refine (le_abs_self _).trans ?_
  rw [Finset.abs_prod]
  exact Finset.prod_le_one (fun _ _ => abs_nonneg _) fun _ _ => Real.abs_cos_le_one _

theorem griewank_nonneg (x : Fin n → ℝ) : 0 ≤ griewankDoc x := by
  have h1 := abs_prod_cos_le (fun j : Fin n => x j / Real.sqrt ((j : ℝ) + 1))
  have h2 : 0 ≤ ∑ j, x j ^ 2 := Finset.sum_nonneg fun _ _ => sq_nonneg _
  unfold griewankDoc; linarith

theorem griewank_zero : griewankDoc (fun _ : Fin n => 0) = 0 := by simp [griewankDoc]

/-! ## Rastrigin -/

theorem rastrigin_nonneg (x : Fin n → ℝ) : 0 ≤ rastriginUsual x := by
  have h : ∑ _j : Fin n, (-10 : ℝ) ≤ ∑ j, (x j ^ 2 - 10 * Real.cos (2 * Real.pi * x j)) :=
    Finset.sum_le_sum fun j _ => by
      have := Real.cos_le_one (2 * Real.pi * x j); have := sq_nonneg (x j); linarith
  simp only [Finset.sum_const, Finset.card_univ, Fintype.card_fin, nsmul_eq_mul] at h
  unfold rastriginUsual; linarith

theorem rastrigin_zero : rastriginUsual (fun _ : Fin n => 0) = 0 := by
  simp [rastriginUsual]; ring

/-! ## Sums of nonnegative terms -/

theorem sphere_nonneg (x : Fin n → ℝ) : 0 ≤ sphereDoc x := Finset.sum_nonneg fun _ _ => sq_nonneg _

theorem sphere_zero : sphereDoc (fun _ : Fin n => 0) = 0 := by simp [sphereDoc]

theorem sumOfSquares_nonneg (x : Fin n → ℝ) : 0 ≤ sumOfSquaresDoc x :=
  Finset.sum_nonneg fun _ _ => by positivity

theorem sumOfSquares_zero : sumOfSquaresDoc (fun _ : Fin n => 0) = 0 := by simp [sumOfSquaresDoc]

theorem zakharov_nonneg (x : Fin n → ℝ) : 0 ≤ zakharovDoc x := by
  have h := sphere_nonneg x
  unfold sphereDoc at h
  unfold zakharovDoc; positivity

theorem zakharov_zero : zakharovDoc (fun _ : Fin n => 0) = 0 := by simp [zakharovDoc]

theorem perm_nonneg (x : Fin n → ℝ) : 0 ≤ permDoc x := Finset.sum_nonneg fun _ _ => sq_nonneg _

theorem perm_zero : permDoc (fun i : Fin n => 1 / ((i : ℝ) + 1)) = 0 := by simp [permDoc]

theorem rosenbrock_nonneg (x : Fin (n + 1) → ℝ) : 0 ≤ rosenbrockDoc x :=
  Finset.sum_nonneg fun _ _ => by positivity

theorem rosenbrock_one : rosenbrockDoc (fun _ : Fin (n + 1) => 1) = 0 := by simp [rosenbrockDoc]

/-! ## Exponential -/

theorem exponential_nonneg (x : Fin n → ℝ) (h : ∀ j, -5.12 ≤ x j) : 0 ≤ exponentialDoc x := by
  unfold exponentialDoc
  rw [← Finset.sum_sub_distrib]
  refine Finset.sum_nonneg fun j _ => sub_nonneg.2 (Real.exp_le_exp.2 ?_)
  have : (0 : ℝ) ≤ (j : ℝ) + 1 := by positivity
  nlinarith [h j]

theorem exponential_min : exponentialDoc (fun _ : Fin n => -5.12) = 0 := by
  unfold exponentialDoc
  rw [← Finset.sum_sub_distrib]
  exact Finset.sum_eq_zero fun j _ => by rw [mul_comm, sub_self]

/-! ## Goldstein-Price -/

theorem goldsteinPrice_ge (a b : ℝ) :
    3 ≤ (1 + (a + b + 1) ^ 2 * (19 - 14 * a + 3 * a ^ 2 - 14 * b + 6 * a * b + 3 * b ^ 2)) *
      (30 + (2 * a - 3 * b) ^ 2 * (18 - 32 * a + 12 * a ^ 2 + 48 * b - 36 * a * b + 27 * b ^ 2)) := by
  have h1 : 1 ≤ 1 + (a + b + 1) ^ 2 * (19 - 14 * a + 3 * a ^ 2 - 14 * b + 6 * a * b + 3 * b ^ 2) := by
    have : 0 ≤ 19 - 14 * a + 3 * a ^ 2 - 14 * b + 6 * a * b + 3 * b ^ 2 := by
      nlinarith [sq_nonneg (a + b - 7 / 3)]
    nlinarith [mul_nonneg (sq_nonneg (a + b + 1)) this]
  have h2 : 3 ≤ 30 + (2 * a - 3 * b) ^ 2 * (18 - 32 * a + 12 * a ^ 2 + 48 * b - 36 * a * b + 27 * b ^ 2) := by
    have e : 30 + (2 * a - 3 * b) ^ 2 * (18 - 32 * a + 12 * a ^ 2 + 48 * b - 36 * a * b + 27 * b ^ 2) =
        3 + ((2 * a - 3 * b) - 3) ^ 2 * (3 * ((2 * a - 3 * b) + 1 / 3) ^ 2 + 8 / 3) := by ring
    rw [e]
    have := mul_nonneg (sq_nonneg ((2 * a - 3 * b) - 3)) (by positivity : 0 ≤ 3 * ((2 * a - 3 * b) + 1 / 3) ^ 2 + 8 / 3)
    linarith
  nlinarith

/-! ## Himmelblau -/

theorem himmelblau_ge (y : ℝ) : 2 * (-39.166165703771412 - 1e-10) ≤ y ^ 4 - 16 * y ^ 2 + 5 * y := by
  nlinarith [sq_nonneg ((y + 2.903534027771178) * (y - 2.903534027771178)),
    sq_nonneg (y + 2.903534027771178)]

/-! ## Weierstrass -/

theorem cos_pi_three_pow (k : ℕ) : Real.cos (Real.pi * 3 ^ k) = -1 := by
  have h := Real.cos_nat_mul_pi (3 ^ k)
  push_cast at h
  rw [mul_comm, h]
  exact Odd.neg_one_pow ((by decide : Odd 3).pow)

theorem weierstrass_nonneg (hn : 0 < n) (x : Fin n → ℝ) : 0 ≤ weierstrassDoc x := by
  have hn' : (0 : ℝ) < n := by exact_mod_cast hn
  have h : ∀ i, ∑ k ∈ range 12, (1 / 2 : ℝ) ^ k * Real.cos (Real.pi * 3 ^ k) ≤
      ∑ k ∈ range 12, (1 / 2) ^ k * Real.cos (2 * Real.pi * 3 ^ k * (x i + 1 / 2)) := fun i =>
    Finset.sum_le_sum fun k _ => by
      rw [cos_pi_three_pow]
      exact mul_le_mul_of_nonneg_left (Real.neg_one_le_cos _) (by positivity)
  have h2 : ∑ k ∈ range 12, (1 / 2 : ℝ) ^ k * Real.cos (Real.pi * 3 ^ k) ≤
      1 / n * ∑ i, ∑ k ∈ range 12, (1 / 2) ^ k * Real.cos (2 * Real.pi * 3 ^ k * (x i + 1 / 2)) := by
    rw [one_div (n : ℝ), le_inv_mul_iff₀ hn']
    calc _ = ∑ _i : Fin n, ∑ k ∈ range 12, (1 / 2 : ℝ) ^ k * Real.cos (Real.pi * 3 ^ k) := by simp
      _ ≤ _ := Finset.sum_le_sum fun i _ => h i
  unfold weierstrassDoc
  have := sub_nonneg.2 h2
  positivity

theorem weierstrass_zero (hn : 0 < n) : weierstrassDoc (fun _ : Fin n => 0) = 0 := by
  have hn' : (n : ℝ) ≠ 0 := by positivity
  unfold weierstrassDoc
  have e : ∀ k : ℕ, 2 * Real.pi * 3 ^ k * ((0 : ℝ) + 1 / 2) = Real.pi * 3 ^ k := fun k => by ring
  simp only [e, Finset.sum_const, Finset.card_univ, Fintype.card_fin, nsmul_eq_mul]
  field_simp
  simp

/-! ## Levy -/

theorem levy_nonneg (x : List ℝ) (d : ℕ) : 0 ≤ (levy d).body x := by
  unfold levy
  have h : 0 ≤ ((((x.map (fun y => 1 + (y - 1) / 4)).take (d - 1)).drop 1).map
      (fun v => (v - 1) ^ 2 * (1 + 10 * Real.sin (Real.pi * v + 1) ^ 2))).sum :=
    List.sum_nonneg fun v hv => by
      obtain ⟨w, _, rfl⟩ := List.mem_map.1 hv
      positivity
  dsimp only
  positivity

theorem levy_one (d : ℕ) (hd : 0 < d) : (levy d).body (const d 1) = 0 := by
  have h1 : (const d 1).map (fun y : ℝ => 1 + (y - 1) / 4) = const d 1 := by simp [const]
  have h2 : ∀ i : ℤ, 0 ≤ i → i < d → idx (const d 1) i = 1 := fun i h0 h => by
    have : i.toNat < d := by omega
    simp [idx, h0, const, this]
  unfold levy
  dsimp only
  rw [h1, h2 0 le_rfl (by omega), h2 _ (by omega) (by omega)]
  simp [const, List.take_replicate, List.drop_replicate]

/-! ## Branin -/

theorem branin_ge (a b : ℝ) : 10 / (8 * Real.pi) ≤ braninDoc a b := by
  have hp := Real.pi_gt_three
  have h1 := Real.neg_one_le_cos a
  have h2 : (0 : ℝ) ≤ 1 - 1 / (8 * Real.pi) := by
    rw [sub_nonneg, div_le_one (by positivity)]; linarith
  have h3 : 10 / (8 * Real.pi) = 10 * (1 / (8 * Real.pi)) := by ring
  unfold braninDoc
  rw [h3]
  nlinarith [mul_le_mul_of_nonneg_left h1 h2, sq_nonneg (b - 5.1 / (4 * Real.pi ^ 2) * a ^ 2 + 5 / Real.pi * a - 6)]

theorem branin_min : braninDoc (-Real.pi) 12.275 = 10 / (8 * Real.pi) := by
  have hp := Real.pi_pos.ne'
  unfold braninDoc
  rw [Real.cos_neg, Real.cos_pi]
  field_simp
  ring

theorem branin_const : |10 / (8 * Real.pi) - 0.397887| ≤ 1e-6 := by
  have h1 := Real.pi_gt_d6
  have h2 := Real.pi_lt_d6
  rw [abs_le]
  constructor
  · rw [neg_le_sub_iff_le_add, ← sub_le_iff_le_add, le_div_iff₀ (by positivity)]; norm_num; linarith
  · rw [sub_le_iff_le_add, div_le_iff₀ (by positivity)]; norm_num; linarith

end Verif.Problems
