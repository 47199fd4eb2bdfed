import Verif.Utils.Box

/-!
# Model of the surrogate base class

Source: /repo/pySOT/surrogate/surrogate.py.
-/

namespace Verif.Surrogate

open Verif.Num Verif.Utils

/-- The argument `xx` of `add_points`: a vector or a two-dimensional array. (surrogate.py:50-60.) -/
inductive XIn where
  | vec (x : List ℝ)
  | mat (n m : ℕ) (data : Fin n → Fin m → ℝ)

/-- The argument `fx`: a `float`, an `int`, or an array with 0, 1 or 2 dimensions. (surrogate.py:50-66.) -/
inductive FIn where
  | float (v : ℝ)
  | int (v : ℤ)
  | arr0 (v : ℝ)
  | arr1 (v : List ℝ)
  | arr2 (n m : ℕ) (data : Fin n → Fin m → ℝ)

/-- `np.atleast_2d(xx)` (surrogate.py:61): the list of rows and the number of columns. -/
def XIn.rows : XIn → List (List ℝ) × ℕ
  | .vec x => ([x], x.length)
  | .mat _ m data => (List.ofFn fun i => List.ofFn (data i), m)

/-- The conversion of `fx` to a two-dimensional array (surrogate.py:62-67): rows and number of columns; `none` is the
`AttributeError` for objects without `ndim`. -/
def FIn.rows : FIn → Option (List (List ℝ) × ℕ)
  | .float v => some ([[v]], 1)
  | .int _ => none
  | .arr0 v => some ([[v]], 1)
  | .arr1 v => some (v.map fun r => [r], 1)
  | .arr2 _ m data => some (List.ofFn fun i => List.ofFn (data i), m)

/-- State of a surrogate (surrogate.py:33-48); `M` is what the fit of the concrete class stores. -/
structure St (d : ℕ) (M : Type) where
  numPts : ℕ
  X : List (Pt d)
  Xu : List (Pt d)
  fX : List ℝ
  updated : Bool
  model : M

/-- A row as a point. (surrogate.py:67-75.) -/
def toPt (d : ℕ) (r : List ℝ) : Pt d := fun i => r.getD i 0

/-- Result of a call: the state afterwards and whether an exception was raised. (surrogate.py:50-75.) -/
structure Res (S : Type) where
  st : S
  raised : Bool

/-- `reset` (surrogate.py:42-48); `clear` is the effect of a subclass's `reset` on its model. -/
def reset {d : ℕ} {M : Type} (clear : M → M) (s : St d M) : St d M :=
  { numPts := 0, X := [], Xu := [], fX := [], updated := false, model := clear s.model }

/-- `add_points` (surrogate.py:50-74).  The points are stored before the values: if `fx` has the right number of rows but
not one column, `np.vstack` of line 72 raises after `X` and `_X` were changed. -/
noncomputable def addPoints {d : ℕ} {M : Type} (lb ub : Pt d) (s : St d M) (xx : XIn) (fx : FIn) : Res (St d M) :=
  match fx.rows with
  | none => ⟨s, true⟩
  | some (frows, fcols) =>
    let (xrows, xcols) := xx.rows
    if xrows.length = frows.length ∧ xcols = d then
      let X := s.X ++ xrows.map (toPt d)
      let s := { s with X := X, Xu := X.map fun x => toUnitBox x lb ub }
      if fcols = 1 then
        ⟨{ s with fX := s.fX ++ frows.map (fun r => r.getD 0 0), numPts := s.numPts + xrows.length, updated := false }, false⟩
      else ⟨s, true⟩
    else ⟨s, true⟩

end Verif.Surrogate
