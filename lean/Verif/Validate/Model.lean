import Mathlib.Data.Real.Basic
import Mathlib.Data.List.Basic

/-!
# Input validation

Source: /repo/pySOT/strategy/surrogate_strategy.py:151-164 (`check_input`), random_strategy.py:25-36 (`__init__`),
sop_strategy.py:230-237 (`check_input`) and surrogate_strategy.py:238-247 (extra points of `sample_initial`).
`check_opt_prob` is modelled in `Verif/Utils/Box.lean`.
-/

namespace Verif.Validate

/-- A Python float (a real number, without rounding, or one of the special values).
(Arguments checked in surrogate_strategy.py:152-164, utils.py:96-149.) -/
inductive PyFloat where
  | fin (r : ℝ)
  | posInf
  | negInf
  | nan

/-- A Python number: `bool` is a subclass of `int`. (Arguments checked in surrogate_strategy.py:152-164.) -/
inductive PyNum where
  | int (z : ℤ)
  | float (x : PyFloat)

/-- `isinstance(v, int)`. (surrogate_strategy.py:152-164.) -/
def PyNum.isInt : PyNum → Prop
  | .int _ => True
  | .float _ => False

/-- `v > z` for an integer `z`; comparisons with NaN are false. (surrogate_strategy.py:152-164.) -/
def PyNum.gt : PyNum → ℤ → Prop
  | .int v, z => z < v
  | .float (.fin r), z => (z : ℝ) < r
  | .float .posInf, _ => True
  | .float .negInf, _ => False
  | .float .nan, _ => False

/-- `v >= z` for an integer `z`. (surrogate_strategy.py:152-164.) -/
def PyNum.ge : PyNum → ℤ → Prop
  | .int v, z => z ≤ v
  | .float (.fin r), z => (z : ℝ) ≤ r
  | .float .posInf, _ => True
  | .float .negInf, _ => False
  | .float .nan, _ => False

/-- The constructor of a surrogate strategy raises `ValueError` on account of `max_evals`
(surrogate_strategy.py:163-164). -/
def surrogateRefuses (v : PyNum) (numPts : ℕ) : Prop := ¬ v.isInt ∧ v.gt 0 ∧ v.ge numPts

/-- The constructor of `RandomStrategy` raises: `ValueError` by the test at random_strategy.py:27-28, or `TypeError` by
`range(max_evals)` (line 33) for a float. -/
def randomRefuses (v : PyNum) : Prop := (¬ v.isInt ∧ v.gt 0) ∨ ¬ v.isInt

/-- The constructor of `SOPStrategy` raises `ValueError` on account of `ncenters` (sop_strategy.py:233-237); the batch size
is only looked at in synchronous mode, where it is an integer here. -/
def sopRefuses (ncenters : PyNum) (asynchronous : Prop) (batchSize : ℤ) : Prop :=
  (¬ ncenters.isInt ∧ ncenters.gt 3) ∨ (¬ asynchronous ∧ ¬ ncenters.ge batchSize)

/-- What `sample_initial` does with an extra point (surrogate_strategy.py:240-247): `true`: it is queued for evaluation
(unknown value); `false`: it is stored with its value. -/
def extraQueued (vals : Option PyFloat) : Bool :=
  match vals with
  | none => true
  | some .nan => true
  | some _ => false

end Verif.Validate
