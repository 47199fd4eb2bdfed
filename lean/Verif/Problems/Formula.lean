import Verif.Problems.Facts
import Verif.Problems.Spec
import Mathlib.Tactic.Ring
import Mathlib.Tactic.FieldSimp

/-! # The value computed by each problem, as a formula -/

namespace Verif.Problems

open Verif.Spec Finset

variable {n : ℕ}

theorem ackley_formula (x : Fin n → ℝ) : (ackley n).body (List.ofFn x) = ackleyUsual x := by
  simp only [ackley, ackleyUsual, sum_map_ofFn]
  rw [div_eq_inv_mul, div_eq_inv_mul, one_div]

theorem griewank_formula (x : Fin n → ℝ) : (griewank n).body (List.ofFn x) = griewankDoc x := by
  simp only [griewank, griewankDoc, sum_map_ofFn, withIndex_ofFn, foldl_mul_ofFn]
  ring

theorem himmelblau_formula (x : Fin n → ℝ) : (himmelblau n).body (List.ofFn x) = himmelblauUsual x := by
  simp only [himmelblau, himmelblauUsual, sum_map_ofFn]
  rcases Nat.eq_zero_or_pos n with h | h
  · subst h; simp
  · have : (n : ℝ) ≠ 0 := by positivity
    field_simp; ring

theorem michalewicz_formula (x : Fin n → ℝ) : (michalewicz n).body (List.ofFn x) = michalewiczDoc x := by
  simp only [michalewicz, michalewiczDoc, withIndex_ofFn, List.sum_ofFn, add_comm]

theorem rastrigin_formula (x : Fin n → ℝ) : (rastrigin n).body (List.ofFn x) = rastriginUsual x := by
  simp only [rastrigin, rastriginUsual, sum_map_ofFn]

theorem schwefel_formula (x : Fin n → ℝ) : (schwefel n).body (List.ofFn x) =
    418.9829 * n - ∑ j, x j * Real.sin (Real.sqrt |x j|) := by
  simp only [schwefel, sum_map_ofFn]

theorem sphere_formula (x : Fin n → ℝ) : (sphere n).body (List.ofFn x) = sphereDoc x := by
  simp only [sphere, sphereDoc, sum_map_ofFn]

theorem sumOfSquares_formula (x : Fin n → ℝ) : (sumOfSquares n).body (List.ofFn x) = sumOfSquaresDoc x := by
  simp only [sumOfSquares, sumOfSquaresDoc, withIndex_ofFn, List.sum_ofFn, add_comm]

theorem zakharov_formula (x : Fin n → ℝ) : (zakharov n).body (List.ofFn x) = zakharovDoc x := by
  simp only [zakharov, zakharovDoc, withIndex_ofFn, List.sum_ofFn, sum_map_ofFn, add_comm (1 : ℝ)]

theorem perm_formula (x : Fin n → ℝ) : (perm n).body (List.ofFn x) = permDoc x := by
  simp only [perm, List.length_ofFn]
  simp only [permDoc, loopSum_fin, idx_ofFn, zero_add, one_div, inv_pow]

theorem idx_pred {d : ℕ} (x : Fin (d + 1) → ℝ) (i : Fin (d + 1)) :
    idx (List.ofFn x) (((i : ℕ) : ℤ) - 1) = x (i - 1) := by
  refine Fin.cases ?_ (fun i => ?_) i
  · have : (0 : Fin (d + 1)) - 1 = Fin.last d := by ext; simp
    rw [this]
    have h := idx_ofFn x (Fin.last d)
    rw [← h]
    simp [idx]
  · have h : (((i.succ : Fin (d + 1)) : ℕ) : ℤ) - 1 = ((i.castSucc : Fin (d + 1)) : ℕ) := by simp
    rw [h, idx_ofFn]
    congr 1
    rw [eq_sub_iff_add_eq, Fin.coeSucc_eq_succ]

/-- What the code of `Exponential` computes: the variables are shifted cyclically. -/
theorem exponential_formula (x : Fin (n + 1) → ℝ) : (exponential (n + 1)).body (List.ofFn x) =
    exponentialDoc (fun i => x (i - 1)) := by
  simp only [exponential, List.length_ofFn]
  simp only [exponentialDoc, loopSum_fin, idx_pred, zero_add, Finset.sum_sub_distrib]

theorem rosenbrock_formula (x : Fin (n + 1) → ℝ) : (rosenbrock (n + 1)).body (List.ofFn x) = rosenbrockDoc x := by
  simp only [rosenbrock, List.length_ofFn, Nat.add_sub_cancel]
  simp only [rosenbrockDoc, loopSum_fin, zero_add]
  refine Finset.sum_congr rfl fun i _ => ?_
  have h1 : idx (List.ofFn x) ((i : ℕ) : ℤ) = x i.castSucc := idx_ofFn x i.castSucc
  have h2 : idx (List.ofFn x) (((i : ℕ) : ℤ) + 1) = x i.succ := by
    have := idx_ofFn x i.succ
    simpa using this
  rw [h1, h2]; ring

theorem weierstrass_formula (x : Fin n → ℝ) : (weierstrass n).body (List.ofFn x) = weierstrassDoc x := by
  simp only [weierstrass, List.length_ofFn]
  simp only [loopSum_fin, idx_ofFn, foldl_pair, zero_add, weierstrassDoc]
  have e : ∀ f : ℕ → ℝ, ((List.range 12).map f).sum = ∑ k ∈ range 12, f k := fun f => rfl
  rw [e, e, Finset.sum_comm]
  simp only [one_div, inv_pow]
  norm_num

/-- What the code of `Levy` computes in dimension `n + 2`: the middle sum leaves out the first variable. -/
theorem levy_formula (x : Fin (n + 2) → ℝ) : (levy (n + 2)).body (List.ofFn x) =
    (let w := fun j => 1 + (x j - 1) / 4
     Real.sin (Real.pi * w 0) ^ 2
      + ∑ j : Fin n, (w j.castSucc.succ - 1) ^ 2 * (1 + 10 * Real.sin (Real.pi * w j.castSucc.succ + 1) ^ 2)
      + (w (Fin.last (n + 1)) - 1) ^ 2 * (1 + Real.sin (2 * Real.pi * w (Fin.last (n + 1))) ^ 2)) := by
  simp only [levy, List.map_ofFn]
  have h0 : ∀ w : Fin (n + 2) → ℝ, idx (List.ofFn w) 0 = w 0 := fun w => idx_ofFn w 0
  have h1 : ∀ w : Fin (n + 2) → ℝ, idx (List.ofFn w) (((n + 2 : ℕ) : ℤ) - 1) = w (Fin.last (n + 1)) := fun w => by
    have := idx_ofFn w (Fin.last (n + 1))
    rw [← this]; congr 1; simp only [Fin.val_last]; push_cast; ring
  have h2 : ∀ w : Fin (n + 2) → ℝ, ((List.ofFn w).take (n + 2 - 1)).drop 1 =
      List.ofFn (fun j : Fin n => w j.castSucc.succ) := fun w => by
    apply List.ext_getElem
    · simp
    · intro i h1 h2
      rw [List.getElem_drop, List.getElem_take, List.getElem_ofFn, List.getElem_ofFn]
      congr 1; apply Fin.ext; simp; omega
  rw [h0, h1, h2, sum_map_ofFn]
  rfl

theorem levy_formula_one (x : Fin 1 → ℝ) : (levy 1).body (List.ofFn x) = levyDoc x - 0 := by
  simp [levy, levyDoc, idx]

theorem branin_formula (x1 x2 : ℝ) : branin.body [x1, x2] = braninDoc x1 x2 := by
  simp [branin, braninDoc, idx]

end Verif.Problems
