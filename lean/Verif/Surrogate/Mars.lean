import Verif.Surrogate.Generic
import Mathlib.Data.List.FinRange

/-!
# Derivatives of the MARS interpolant

Source: /repo/pySOT/surrogate/mars.py:68-93.  `pyearth.Earth` by its documented contract: `predict` gives one number per row;
`predict_deriv(X, variables=None)` gives an array of shape (rows of `X`, variables, outputs) with the partial derivatives.
There is one output.
-/

namespace Verif.Surrogate

open Verif.Num Verif.Utils

variable {d : ℕ}

/-- A two-dimensional array. (mars.py:68-93.) -/
structure Arr2 where
  rows : ℕ
  cols : ℕ
  data : Fin rows → Fin cols → ℝ

/-- A fitted `Earth` model: the function and its partial derivatives. (mars.py:48-66 (py-earth).) -/
structure Earth (d : ℕ) where
  f : Pt d → ℝ
  grad : Pt d → Fin d → ℝ

/-- `predict_deriv` of `Earth`: one `d × 1` array per row of the argument. (mars.py:81-93 (py-earth).) -/
def Earth.predictDeriv (e : Earth d) (X : List (Pt d)) : List (Fin d → Fin 1 → ℝ) :=
  X.map fun x i _ => e.grad x i

/-- Division of an array with one column by a vector of length `n` (NumPy broadcasting: every row with every entry).
(mars.py:93.) -/
noncomputable def divRow {r n : ℕ} (A : Fin r → Fin 1 → ℝ) (v : Fin n → ℝ) : Arr2 := ⟨r, n, fun i j => A i 0 / v j⟩

/-- `predict` (mars.py:68-79): one row per point. -/
noncomputable def marsPredict (e : Earth d) (lb ub : Pt d) (X : List (Pt d)) : List ℝ :=
  (X.map fun x => toUnitBox x lb ub).map e.f

/-- `predict_deriv` (mars.py:81-93); `none`: exception for an empty array of points. -/
noncomputable def marsDeriv (e : Earth d) (lb ub : Pt d) (X : List (Pt d)) : Option Arr2 :=
  match e.predictDeriv (X.map fun x => toUnitBox x lb ub) with
  | [] => none
  | dfx0 :: _ => some (divRow dfx0 fun j => ub j - lb j)

end Verif.Surrogate
