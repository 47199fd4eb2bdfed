import Verif.Surrogate.Rbf
import Verif.Surrogate.Median
import Verif.Validate.Model
import Mathlib.Data.EReal.Basic

/-!
# Model of surrogates that are given values which are not finite

Source: /repo/pySOT/surrogate/surrogate.py, rbf.py, output_transformations/*.py.  An objective function may return `inf` or NaN.
-/

namespace Verif.Surrogate

open Verif.Num Verif.Utils Verif.Validate

/-- The position of a float in the order `-inf < ... < inf` (NaN has none; the value is not used).
(Order used at median_capping.py:14-15.) -/
noncomputable def toE : PyFloat → EReal
  | .fin r => (r : EReal)
  | .posInf => ⊤
  | .negInf => ⊥
  | .nan => 0

open Classical in
/-- A float from its position. (Used at median_capping.py:14.) -/
noncomputable def ofE (e : EReal) : PyFloat := if e = ⊤ then .posInf else if e = ⊥ then .negInf else .fin e.toReal

open Classical in
/-- `np.mean([a, b])` for numbers that are not NaN; `inf - inf` is NaN. (median_capping.py:14.) -/
noncomputable def mean2 (a b : EReal) : PyFloat :=
  if (a = ⊤ ∧ b = ⊥) ∨ (a = ⊥ ∧ b = ⊤) then .nan
  else if a = ⊤ ∨ b = ⊤ then .posInf
  else if a = ⊥ ∨ b = ⊥ then .negInf
  else .fin ((a.toReal + b.toReal) / 2)

open Classical in
/-- `np.median`: NaN for an empty array and if one of the values is NaN. (median_capping.py:14.) -/
noncomputable def medianPF (x : List PyFloat) : PyFloat :=
  if x = [] ∨ .nan ∈ x then .nan
  else
    let s := (x.map toE).insertionSort (· ≤ ·)
    if x.length % 2 = 1 then ofE (s.getD (x.length / 2) 0)
    else mean2 (s.getD (x.length / 2 - 1) 0) (s.getD (x.length / 2) 0)

/-- `a > b`; false if one of them is NaN. (median_capping.py:15.) -/
def gtPF (a b : PyFloat) : Prop := a ≠ .nan ∧ b ≠ .nan ∧ toE b < toE a

open Classical in
/-- `median_capping` (output_transformations/median_capping.py:4-15). -/
noncomputable def cappingPF (x : List PyFloat) : List PyFloat :=
  x.map fun v => if gtPF v (medianPF x) then medianPF x else v

/-- The real number, if it is one. (Finiteness check of scipy at rbf.py:164-168.) -/
def finiteVal : PyFloat → Option ℝ
  | .fin r => some r
  | _ => none

/-- The values as real numbers, `none` if one of them is not finite. (Finiteness check of scipy at rbf.py:164-168.) -/
def finiteVals (x : List PyFloat) : Option (List ℝ) := x.mapM finiteVal

variable {d : ℕ}

/-- State of an interpolant whose values may be not finite: `vals` is `fX`; the field `fX` of `st` is not used.
(surrogate.py:33-40.) -/
structure NSt (d : ℕ) where
  st : RSt d
  vals : List PyFloat

/-- Calls of an interpolant; `add` is a call of `add_points` with as many values as points. (surrogate.py:42-98.) -/
inductive NOp (d : ℕ) where
  | add (D : List (Pt d × PyFloat))
  | predict (x : Pt d)
  | reset

/-- `add_points` (surrogate.py:54-77), see `addPoints`. -/
noncomputable def NSt.add (p : Par d) (s : NSt d) (D : List (Pt d × PyFloat)) : NSt d where
  st := {
    numPts := s.st.numPts + D.length
    X := s.st.X ++ D.map Prod.fst
    Xu := (s.st.X ++ D.map Prod.fst).map fun x => toUnitBox x p.lb p.ub
    fX := s.st.fX ++ D.map fun _ => 0
    updated := false
    model := s.st.model }
  vals := s.vals ++ D.map Prod.snd

/-- `_fit` (rbf.py:97-168) with the output transformation `T`.  `solve_triangular` checks that its arguments are finite: if a
transformed value is not, `ValueError` is raised in line 166, and the state is that of an exception in line 164. -/
noncomputable def NSt.fit (p : Par d) (T : List PyFloat → List PyFloat) (s : NSt d) : Res (NSt d) :=
  if s.st.updated then ⟨s, false⟩
  else match finiteVals (T s.vals) with
    | some f =>
      let r := Surrogate.fit { p with trans := fun _ => f } s.st
      ⟨{ s with st := r.st }, r.raised⟩
    | none => ⟨{ s with st := fitTransRaises p s.st }, true⟩

/-- One call. (surrogate.py:42-75, rbf.py:89-168.) -/
noncomputable def NSt.step (p : Par d) (T : List PyFloat → List PyFloat) (s : NSt d) : NOp d → NSt d
  | .add D => s.add p D
  | .predict _ => (s.fit p T).st
  | .reset => { st := rinit d, vals := [] }

/-- A history of calls on a new interpolant. (surrogate.py:33-75, rbf.py:67-168.) -/
noncomputable def nrun (p : Par d) (T : List PyFloat → List PyFloat) (ops : List (NOp d)) : NSt d :=
  ops.foldl (NSt.step p T) { st := rinit d, vals := [] }

/-- `predict` at one point (rbf.py:170-185): the value, `none` for an exception. -/
noncomputable def NSt.predict (p : Par d) (T : List PyFloat → List PyFloat) (s : NSt d) (x : Pt d) : Option ℝ :=
  let r := s.fit p T
  if r.raised then none
  else match r.st.st.model with
    | none => none
    | some F => some (evalAt p r.st.st.Xu r.st.st.numPts F.c (toUnitBox x p.lb p.ub))

end Verif.Surrogate
