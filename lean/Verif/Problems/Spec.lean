import Verif.Problems.Model

/-!
# Specification: stated minima and documented formulas

The formulas are those of the class docstrings in /repo/pySOT/optimization_problems (or of the web page the docstring
refers to), with variables numbered from 0: the `j`-th variable of the docstring is `x (j - 1)`.
-/

namespace Verif.Spec

open Verif.Problems Finset

/-- `x` has the right number of variables and lies between the bounds of the problem. -/
def InBounds (p : Problem) (x : List ℝ) : Prop :=
  x.length = p.dim ∧ ∀ i < p.dim, p.lb.getD i 0 ≤ x.getD i 0 ∧ x.getD i 0 ≤ p.ub.getD i 0

/-- The attributes `min` and `minimum` tell the truth: `minimum` is feasible, has the value `min`, and no feasible point
has a smaller value. -/
def StatedMinimum (p : Problem) : Prop :=
  ∃ m z, p.min = some m ∧ p.minimum = some z ∧ InBounds p z ∧ p.eval z = some m ∧
    ∀ x, InBounds p x → ∃ v, p.eval x = some v ∧ m ≤ v

/-- The same up to an error of `ε` in the stated value (for constants rounded to a few digits). -/
def StatedMinimumUpTo (ε : ℝ) (p : Problem) : Prop :=
  ∃ m z, p.min = some m ∧ p.minimum = some z ∧ InBounds p z ∧ (∃ v, p.eval z = some v ∧ |v - m| ≤ ε) ∧
    ∀ x, InBounds p x → ∃ v, p.eval x = some v ∧ m - ε ≤ v

/-- The stated minimum is one over all points with the right number of variables, not only the feasible ones. -/
def MinimumOfAll (p : Problem) : Prop :=
  ∃ m, p.min = some m ∧ ∀ x, x.length = p.dim → ∃ v, p.eval x = some v ∧ m ≤ v

variable {n : ℕ}

/-- ackley.py:9-12. -/
noncomputable def ackleyDoc (x : Fin n → ℝ) : ℝ :=
  -20 * Real.exp (-0.2 * Real.sqrt (1 / n * ∑ j, x j ^ 2)) - Real.exp (1 / n * ∑ j, Real.cos (2 * Real.pi * x j))
    + 20 - Real.exp 1

/-- The Ackley function as usually defined, with `+ e`. -/
noncomputable def ackleyUsual (x : Fin n → ℝ) : ℝ :=
  -20 * Real.exp (-0.2 * Real.sqrt (1 / n * ∑ j, x j ^ 2)) - Real.exp (1 / n * ∑ j, Real.cos (2 * Real.pi * x j))
    + 20 + Real.exp 1

/-- exponential.py:9-10. -/
noncomputable def exponentialDoc (x : Fin n → ℝ) : ℝ :=
  ∑ j : Fin n, Real.exp (((j : ℝ) + 1) * x j) - ∑ j : Fin n, Real.exp (-5.12 * ((j : ℝ) + 1))

/-- griewank.py:9-11. -/
noncomputable def griewankDoc (x : Fin n → ℝ) : ℝ :=
  1 + 1 / 4000 * ∑ j, x j ^ 2 - ∏ j : Fin n, Real.cos (x j / Real.sqrt ((j : ℝ) + 1))

/-- himmelblau.py:9-11. -/
noncomputable def himmelblauDoc (x : Fin n → ℝ) : ℝ :=
  10 * n - 1 / (2 * n) * ∑ j, (x j ^ 4 - 16 * x j ^ 2 + 5 * x j)

/-- The function usually named after Himmelblau or Styblinski and Tang, divided by the dimension. -/
noncomputable def himmelblauUsual (x : Fin n → ℝ) : ℝ :=
  1 / (2 * n) * ∑ j, (x j ^ 4 - 16 * x j ^ 2 + 5 * x j)

/-- michaelewicz.py:9-11. -/
noncomputable def michalewiczDoc (x : Fin n → ℝ) : ℝ :=
  -∑ j : Fin n, Real.sin (x j) * Real.sin (((j : ℝ) + 1) * x j ^ 2 / Real.pi) ^ 20

/-- rastrigin.py:9-10. -/
noncomputable def rastriginDoc (x : Fin n → ℝ) : ℝ :=
  10 * n - ∑ j, (x j ^ 2 - 10 * Real.cos (2 * Real.pi * x j))

/-- The Rastrigin function as usually defined. -/
noncomputable def rastriginUsual (x : Fin n → ℝ) : ℝ :=
  10 * n + ∑ j, (x j ^ 2 - 10 * Real.cos (2 * Real.pi * x j))

/-- rosenbrock.py:9-11, in dimension `n + 1`. -/
noncomputable def rosenbrockDoc (x : Fin (n + 1) → ℝ) : ℝ :=
  ∑ j : Fin n, (100 * (x j.castSucc ^ 2 - x j.succ) ^ 2 + (1 - x j.castSucc) ^ 2)

/-- schwefel.py:9-11. -/
noncomputable def schwefelDoc (x : Fin n → ℝ) : ℝ :=
  ∑ j, (-x j * Real.sin (Real.sqrt |x j|)) + 418.982997 * n

/-- sphere.py:9-10. -/
noncomputable def sphereDoc (x : Fin n → ℝ) : ℝ := ∑ j, x j ^ 2

/-- sum_of_squares.py:9-10. -/
noncomputable def sumOfSquaresDoc (x : Fin n → ℝ) : ℝ := ∑ j : Fin n, ((j : ℝ) + 1) * x j ^ 2

/-- The Levy function of the page cited in levy.py:9, in dimension `n + 1`: the middle sum runs over the first `n`
variables. -/
noncomputable def levyDoc (x : Fin (n + 1) → ℝ) : ℝ :=
  let w := fun j => 1 + (x j - 1) / 4
  Real.sin (Real.pi * w 0) ^ 2
    + ∑ j : Fin n, (w j.castSucc - 1) ^ 2 * (1 + 10 * Real.sin (Real.pi * w j.castSucc + 1) ^ 2)
    + (w (Fin.last n) - 1) ^ 2 * (1 + Real.sin (2 * Real.pi * w (Fin.last n)) ^ 2)

/-- The Perm function with `β = 10` (the class has no formula; this is the usual one with the stated minimizer). -/
noncomputable def permDoc (x : Fin n → ℝ) : ℝ :=
  ∑ i : Fin n, (∑ j : Fin n, ((j : ℝ) + 1 + 10) * (x j ^ ((i : ℕ) + 1) - 1 / ((j : ℝ) + 1) ^ ((i : ℕ) + 1))) ^ 2

/-- The Zakharov function (usual formula; the class has none). -/
noncomputable def zakharovDoc (x : Fin n → ℝ) : ℝ :=
  ∑ j, x j ^ 2 + (∑ j : Fin n, 0.5 * ((j : ℝ) + 1) * x j) ^ 2 + (∑ j : Fin n, 0.5 * ((j : ℝ) + 1) * x j) ^ 4

/-- The Weierstrass function (usual formula with `a = 1/2`, `b = 3` and 12 terms, cubed and scaled). -/
noncomputable def weierstrassDoc (x : Fin n → ℝ) : ℝ :=
  10 * (1 / n * ∑ i, ∑ k ∈ range 12, (1 / 2) ^ k * Real.cos (2 * Real.pi * 3 ^ k * (x i + 1 / 2))
    - ∑ k ∈ range 12, (1 / 2) ^ k * Real.cos (Real.pi * 3 ^ k)) ^ 3

/-- The Branin function of the page cited in branin.py:9. -/
noncomputable def braninDoc (x1 x2 : ℝ) : ℝ :=
  (x2 - 5.1 / (4 * Real.pi ^ 2) * x1 ^ 2 + 5 / Real.pi * x1 - 6) ^ 2 + 10 * (1 - 1 / (8 * Real.pi)) * Real.cos x1 + 10

/-- The Hartmann functions of the pages cited in hartmann3.py:9 and hartmann6.py:9. -/
noncomputable def hartmannDoc (A P : Fin 4 → Fin n → ℝ) (x : Fin n → ℝ) : ℝ :=
  -∑ i, (![1, 1.2, 3, 3.2] : Fin 4 → ℝ) i * Real.exp (-∑ j, A i j * (x j - 1e-4 * P i j) ^ 2)

/-- Coefficients of the 3-dimensional Hartmann function. -/
noncomputable def hartmann3ADoc : Fin 4 → Fin 3 → ℝ := ![![3, 10, 30], ![0.1, 10, 35], ![3, 10, 30], ![0.1, 10, 35]]

/-- Centers of the 3-dimensional Hartmann function, times `10^4`. -/
noncomputable def hartmann3PDoc : Fin 4 → Fin 3 → ℝ :=
  ![![3689, 1170, 2673], ![4699, 4387, 7470], ![1091, 8732, 5547], ![381, 5743, 8828]]

/-- Coefficients of the 6-dimensional Hartmann function. -/
noncomputable def hartmann6ADoc : Fin 4 → Fin 6 → ℝ :=
  ![![10, 3, 17, 3.5, 1.7, 8], ![0.05, 10, 17, 0.1, 8, 14], ![3, 3.5, 1.7, 10, 17, 8], ![17, 8, 0.05, 10, 0.1, 14]]

/-- Centers of the 6-dimensional Hartmann function, times `10^4`. -/
noncomputable def hartmann6PDoc : Fin 4 → Fin 6 → ℝ :=
  ![![1312, 1696, 5569, 124, 8283, 5886], ![2329, 4135, 8307, 3736, 1004, 9991],
    ![2348, 1451, 3522, 2883, 3047, 6650], ![4047, 8828, 8732, 5743, 1091, 381]]

end Verif.Spec
