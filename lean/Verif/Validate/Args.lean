import Verif.Validate.Model
import Mathlib.Algebra.Order.Floor.Ring
import Mathlib.Algebra.Order.Floor.Semiring
import Mathlib.Data.Real.Archimedean

/-!
# The constructors of the strategies: batch size and weights

Source: /repo/pySOT/strategy/srbf_strategy.py:84-141 (`__init__`, `check_input`), surrogate_strategy.py:151-164
(`check_input`), ei_strategy.py:66-99, lcb_strategy.py.  The objects `opt_prob`, `exp_design`, `surrogate` are assumed to be
of the right classes (`check_opt_prob` is in `Verif/Utils/Box.lean`).
-/

namespace Verif.Validate

/-- An argument: `None`, a number (`np.float64` is a `float`), or something else that is not a number (e.g. a word).
(surrogate_strategy.py:82-93.) -/
inductive PyArg where
  | none
  | num (v : PyNum)
  | other

/-- The argument `weights`: `None`, a list, a `np.array` of floats, or something else (e.g. a tuple).
(srbf_strategy.py:96, 136-141.) -/
inductive PyWeights where
  | none
  | list (l : List PyArg)
  | array (l : List ℝ)
  | other

/-- The exceptions that are raised. (surrogate_strategy.py:152-164, srbf_strategy.py:136-141, sop_strategy.py:230-237.) -/
inductive Exc where
  | typeError
  | valueError
  | zeroDivisionError
  | overflowError
  | assertionError
  deriving DecidableEq

/-- `float(batch_size)` (srbf_strategy.py:117). A word gives `ValueError`, see `PyArg.other`. -/
noncomputable def toFloat : PyArg → Except Exc PyFloat
  | .none => .error .typeError
  | .num (.int z) => .ok (.fin z)
  | .num (.float x) => .ok x
  | .other => .error .valueError

open Classical in
/-- `a / p` of a Python float `p` (srbf_strategy.py:118). -/
noncomputable def quotient (a : ℝ) : PyFloat → Except Exc PyFloat
  | .fin r => if r = 0 then .error .zeroDivisionError else .ok (.fin (a / r))
  | .posInf => .ok (.fin 0)
  | .negInf => .ok (.fin 0)
  | .nan => .ok .nan

/-- `int(max(np.ceil(x), np.ceil(y)))` (srbf_strategy.py:115, 118); `int` refuses NaN and infinity.  (`max` of a number and NaN
does not occur: both are NaN.) -/
noncomputable def intMaxCeil : PyFloat → PyFloat → Except Exc ℤ
  | .fin r, .fin q => .ok (max ⌈r⌉ ⌈q⌉)
  | .nan, _ => .error .valueError
  | _, .nan => .error .valueError
  | _, _ => .error .overflowError

/-- `failtol` in the constructor of SRBF and DYCORS (srbf_strategy.py:112-117). -/
noncomputable def failtolOf (asynchronous : Bool) (dim : ℕ) (batch : PyArg) : Except Exc ℤ :=
  if asynchronous then intMaxCeil (.fin dim) (.fin 4)
  else do
    let p ← toFloat batch
    let x ← quotient dim p
    let y ← quotient 4 p
    intMaxCeil x y

/-- `assert isinstance(w, float) and w >= 0.0 and w <= 1.0` (srbf_strategy.py:139-140): the weight, if it passes. -/
noncomputable def checkWeight : PyArg → Except Exc ℝ
  | .num (.float (.fin r)) => by classical exact if 0 ≤ r ∧ r ≤ 1 then .ok r else .error .assertionError
  | _ => .error .assertionError

/-- The weights in use (srbf_strategy.py:101-103) after the test of srbf_strategy.py:137-140.  `np.array` is a function, so that
`isinstance(self.weights, np.array)` raises `TypeError` for everything that is not a list. -/
noncomputable def weightsOf : PyWeights → Except Exc (List ℝ)
  | .none => .ok [0.3, 0.5, 0.8, 0.95]
  | .list l => l.mapM checkWeight
  | .array _ => .error .typeError
  | .other => .error .typeError

open Classical in
/-- `check_input` of the base class (surrogate_strategy.py:151-164). -/
noncomputable def baseCheck (asynchronous : Bool) (batch : PyArg) (maxEvals : PyNum) (numPts : ℕ) : Except Exc Unit :=
  if asynchronous = false ∧ batch = .none then .error .valueError
  else if surrogateRefuses maxEvals numPts then .error .valueError
  else .ok ()

/-- The constructor of SRBF and DYCORS: `failtol` and the weights (srbf_strategy.py:84-141). -/
noncomputable def srbfCreate (asynchronous : Bool) (dim : ℕ) (batch : PyArg) (weights : PyWeights) (maxEvals : PyNum)
    (numPts : ℕ) : Except Exc (ℤ × List ℝ) := do
  let ft ← failtolOf asynchronous dim batch
  let ws ← weightsOf weights
  baseCheck asynchronous batch maxEvals numPts
  return (ft, ws)

/-- The constructor of EI and LCB (ei_strategy.py:66-99) looks at the batch size only in `check_input`. -/
noncomputable def eiCreate (asynchronous : Bool) (batch : PyArg) (maxEvals : PyNum) (numPts : ℕ) : Except Exc Unit :=
  baseCheck asynchronous batch maxEvals numPts

/-- `range(num_pts)` in `generate_evals` (ei_strategy.py:122, srbf_strategy.py:165), with `num_pts` the batch size: the number of
points, and `TypeError` for what is not an integer.  `np.zeros((num_pts, dim))` raises `ValueError` for negative numbers
(ei_ga.py:36, candidate_srbf.py:44). -/
def generationSize : PyArg → Except Exc ℕ
  | .num (.int z) => if z < 0 then .error .valueError else .ok z.toNat
  | _ => .error .typeError

/-- `v >= u` for two numbers; comparisons with NaN are false. (sop_strategy.py:236.) -/
def PyNum.atLeast : PyNum → PyNum → Prop
  | v, .int z => v.ge z
  | .int z, .float (.fin r) => r ≤ (z : ℝ)
  | .float (.fin q), .float (.fin r) => r ≤ q
  | .float .posInf, .float (.fin _) => True
  | .float .negInf, .float (.fin _) => False
  | .float .nan, .float _ => False
  | .float .posInf, .float .posInf => True
  | _, .float .posInf => False
  | _, .float .negInf => True
  | _, .float .nan => False

open Classical in
/-- The test of `ncenters` and the batch size in `SOPStrategy.check_input` (sop_strategy.py:233-237). -/
noncomputable def sopCheck (asynchronous : Bool) : PyArg → PyArg → Except Exc Unit
  | .num v, batch =>
    if ¬ v.isInt ∧ v.gt 3 then .error .valueError
    else if asynchronous then .ok ()
    else match batch with
      | .num u => if v.atLeast u then .ok () else .error .valueError
      | _ => .error .typeError
  | _, _ => .error .typeError

/-- The constructor of SOP on account of `ncenters`, the batch size and the budget (sop_strategy.py:188-237). -/
noncomputable def sopCreate (asynchronous : Bool) (ncenters batch : PyArg) (maxEvals : PyNum) (numPts : ℕ) : Except Exc Unit := do
  baseCheck asynchronous batch maxEvals numPts
  sopCheck asynchronous ncenters batch

open Classical in
/-- The number of centers that the first call of `update_center_list` appends (sop_strategy.py:454-480), or the exception:
`np.ones((center_count,))` refuses a float; if `center_count > 0` is false, no center is appended. -/
noncomputable def firstCenters : PyArg → Except Exc ℕ
  | .num v => if v.gt 0 then (match v with | .int z => .ok z.toNat | .float _ => .error .typeError) else .ok 0
  | _ => .error .typeError

end Verif.Validate
