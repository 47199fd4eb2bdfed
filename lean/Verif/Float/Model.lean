import Verif.Float.Basic
import Verif.Design.Model

/-!
# The box utilities and the designs in double precision

Source: /repo/pySOT/utils.py:21-93 and /repo/pySOT/experimental_design/*.py.  The same code as in `Verif.Utils.Box` and
`Verif.Design.Model`, with one rounding `rnd` after each arithmetic operation that numpy performs.  Comparisons, `np.round`
(an integer in the range of the bounds) and assignments are exact.  The integers in the array of `_slhd` are below `2^53`,
so that they are exact, too; only the final division is rounded.
-/

namespace Verif.Fl

open Verif.Num Verif.Utils Verif.Design

variable {n d : ℕ}

/-- `lb + (ub - lb) * x` (utils.py:48), one coordinate. -/
noncomputable def fromUnit1 (rnd : ℝ → ℝ) (x lb ub : ℝ) : ℝ := rnd (lb + rnd (rnd (ub - lb) * x))

/-- `(x - lb) / (ub - lb)` (utils.py:33), one coordinate. -/
noncomputable def toUnit1 (rnd : ℝ → ℝ) (x lb ub : ℝ) : ℝ := rnd (rnd (x - lb) / rnd (ub - lb))

/-- `from_unit_box` (utils.py:36-48), one row. -/
noncomputable def fromUnitBox (rnd : ℝ → ℝ) (x lb ub : Pt d) : Pt d := fun j => fromUnit1 rnd (x j) (lb j) (ub j)

/-- `to_unit_box` (utils.py:21-33), one row. -/
noncomputable def toUnitBox (rnd : ℝ → ℝ) (x lb ub : Pt d) : Pt d := fun j => toUnit1 rnd (x j) (lb j) (ub j)

open Classical in
/-- `unit_rescale` (utils.py:51-65). -/
noncomputable def unitRescale {m : ℕ} (rnd : ℝ → ℝ) (x : Fin (m + 1) → ℝ) : Fin (m + 1) → ℝ :=
  if vmax x = vmin x then fun _ => 1 else fun i => rnd (rnd (x i - vmin x) / rnd (vmax x - vmin x))

/-- `_slhd` (slhd.py:52-83). -/
noncomputable def slhd (rnd : ℝ → ℝ) (n d : ℕ) (coin : ℕ → ℕ → Bool) (σ : ℕ → Equiv.Perm (Fin (n / 2))) : Des n d :=
  fun i j => rnd (Design.slhd n d coin σ i j)

/-- `round_vars(from_unit_box(cand, lb, ub), int_var, lb, ub)` (experimental_design.py:64-65, two_factorial.py:53). -/
noncomputable def mapPoint (rnd : ℝ → ℝ) (lb ub : Pt d) (intVar : List (Fin d)) (x : Pt d) : Pt d :=
  roundVars (fromUnitBox rnd x lb ub) intVar lb ub

/-- `TwoFactorial.generate_points` with bounds (two_factorial.py:50-54). -/
noncomputable def twoFactorial (rnd : ℝ → ℝ) (d : ℕ) (lb ub : Pt d) (intVar : List (Fin d)) : List (Pt d) :=
  (product01 d).map (mapPoint rnd lb ub intVar)

/-- The arrays that `SymmetricLatinHypercube.generate_points` (slhd.py:26-50) with bounds can return: `_expdes_dist`
(experimental_design.py:60-77) returns a copy of one of the mapped designs, which one depends on computed distances and
ranks that are not modelled here. -/
def SlhdReturns (rnd : ℝ → ℝ) (lb ub : Pt d) (intVar : List (Fin d)) (X : Des n d) : Prop :=
  ∃ coin σ, X = fun i => mapPoint rnd lb ub intVar (slhd rnd n d coin σ i)

/-- One coordinate drawn by `np.random.uniform(lb, ub)` (candidate_uniform.py:45, random_strategy.py:34), and by the
start `"Random"` of the genetic algorithm (utils.py:286-289, the factors in the other order): `lb + (ub - lb) * u`, where
`u` is a double in `[0, 1)`. -/
def UniformReturns (rnd : ℝ → ℝ) (lb ub y : ℝ) : Prop :=
  ∃ u, IsDouble u ∧ 0 ≤ u ∧ u < 1 ∧ y = fromUnit1 rnd u lb ub

/-- One coordinate of a candidate drawn by `stats.truncnorm.rvs(a=(lower - x) / sigma, b=(upper - x) / sigma, loc=x,
scale=sigma)` (candidate_srbf.py:109-113, candidate_dycors.py:80-91): scipy draws some double `z` between the computed
`a` and `b` and returns `z * scale + loc`. -/
def TruncReturns (rnd : ℝ → ℝ) (lb ub x sigma y : ℝ) : Prop :=
  ∃ z, rnd (rnd (lb - x) / sigma) ≤ z ∧ z ≤ rnd (rnd (ub - x) / sigma) ∧ y = rnd (rnd (z * sigma) + x)

end Verif.Fl
