import Verif.Strategy.Model
import Verif.Validate.Model

/-!
# Step control of SRBF and DYCORS with values that are not finite

Source: /repo/pySOT/strategy/srbf_strategy.py:143-148, 188-221.  `Srbf.adjust` (Strategy/Model.lean) is the same function for finite values.
-/

namespace Verif.Strategy

open Verif.Validate

/-- `a < b` of Python floats: false if one of them is NaN. (srbf_strategy.py:196.) -/
def ltPF : PyFloat → PyFloat → Prop
  | .fin a, .fin b => a < b
  | .fin _, .posInf => True
  | .negInf, .fin _ => True
  | .negInf, .posInf => True
  | _, _ => False

/-- `b - 1e-3 * math.fabs(b)` (srbf_strategy.py:196); `inf - inf` is NaN. -/
noncomputable def threshold : PyFloat → PyFloat
  | .fin b => .fin (b - (1 / 1000) * |b|)
  | .posInf => .nan
  | .negInf => .negInf
  | .nan => .nan

/-- `np.isinf`. (srbf_strategy.py:196.) -/
def infinite : PyFloat → Prop
  | .posInf => True
  | .negInf => True
  | _ => False

open Classical in
/-- Python's `min` of a non-empty list (srbf_strategy.py:195): the first element, replaced by later elements that are smaller. -/
noncomputable def pyMin (v : PyFloat) (q : List PyFloat) : PyFloat := q.foldl (fun m x => if ltPF x m then x else m) v

/-- Attributes of the step control (srbf_strategy.py:145-148) and `converged` (surrogate_strategy.py:105). -/
structure StepPF where
  status : ℤ
  failcount : ℤ
  radius : ℚ
  fbest : PyFloat
  converged : Bool

/-- `sample_initial` (srbf_strategy.py:145-148), after `converged` was reset (surrogate_strategy.py:207). -/
def StepPF.init : StepPF := { status := 0, failcount := 0, radius := 2 / 10, fbest := .posInf, converged := false }

open Classical in
/-- `adjust_step` (srbf_strategy.py:188-221) for the values `v :: q` in the queue. -/
noncomputable def StepPF.adjust (ftol mftol : ℤ) (z : StepPF) (v : PyFloat) (q : List PyFloat) : StepPF :=
  let fNew := pyMin v q
  let z := if ltPF fNew (threshold z.fbest) ∨ infinite z.fbest then
      { z with fbest := fNew, status := max 1 (z.status + 1), failcount := 0 }
    else
      { z with status := min (-1) (z.status - 1), failcount := z.failcount + 1 }
  let z := if z.status ≤ -ftol then { z with status := 0, radius := z.radius / 2 } else z
  let z := if succtol ≤ z.status then { z with status := 0, radius := min (2 * z.radius) radiusMax } else z
  if mftol ≤ z.failcount ∨ z.radius ≤ radiusMin then { z with converged := true } else z

/-- A sequence of calls of `adjust_step` in one run; a batch is its first value and the others.
(srbf_strategy.py:150-160, 188-221.) -/
noncomputable def StepPF.run (ftol mftol : ℤ) (z : StepPF) (bs : List (PyFloat × List PyFloat)) : StepPF :=
  bs.foldl (fun z b => z.adjust ftol mftol b.1 b.2) z

end Verif.Strategy
