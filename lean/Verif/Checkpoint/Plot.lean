import Verif.Checkpoint.Result

/-! # `progress_plot` (/repo/pySOT/utils.py:151-197) -/

namespace Verif.Checkpoint

open Verif.Strategy

variable {P : Type}

/-- What a call of `progress_plot` can do. (utils.py:151-197.) -/
inductive PlotOut
  /-- `ImportError` -/
  | importError
  /-- "Failed to import matplotlib.pyplot, aborting....", utils.py:176-177 -/
  | message
  /-- `ValueError: zero-size array to reduction operation minimum`, utils.py:190 -/
  | emptyError
  /-- points, curve, limits of the vertical axis -/
  | shown (points curve : List (ℕ × ℚ)) (lo hi : ℚ)
  deriving DecidableEq, Repr

/-- `np.minimum.accumulate` for finite values. (utils.py:187.) -/
def accumulateMin : List ℚ → List ℚ
  | [] => []
  | x :: l => l.scanl min x

/-- `[o.value for o in controller.fevals if o.value is not None]` (utils.py:181); the value of a record that is running,
killed or cancelled is `None` (POAP). -/
def plotValues (fevals : List (CRec P)) : List ℚ := (fevals.filterMap CRec.done).map Prod.snd

/-- The block utils.py:165-178: a `finally` clause does not stop the exception of the failing `import`, so the test
`if not plotting_on` is only reached when the import has succeeded, and then `"matplotlib.pyplot" in sys.modules`.
Returns whether the code after it is reached, or how the function ends. -/
def importPlt (available : Bool) : Except PlotOut Unit :=
  if available then
    let inModules := true
    let plottingOn := if inModules then true else false
    if !plottingOn then .error .message else .ok ()
  else .error .importError

/-- `progress_plot` (utils.py:151-197); labels, title and interactive mode are left out. -/
def progressPlot (available : Bool) (fevals : List (CRec P)) : PlotOut :=
  match importPlt available with
  | .error e => e
  | .ok _ =>
    let fvals := plotValues fevals
    let n := List.range fvals.length
    match fvals with
    | [] => .emptyError
    | v :: l =>
      let ymin := l.foldl min v
      let ymax := l.foldl max v
      .shown (n.zip fvals) (n.zip (accumulateMin fvals)) (ymin - 1 / 10 * (ymax - ymin)) (ymax + 1 / 10 * (ymax - ymin))

end Verif.Checkpoint
