import Verif.Strategy.Model

/-!
# Specification vocabulary: what a history says

Functions of the history (`State.log`) only.  The property theorems for the strategy compare the
attributes of the strategy object with these functions.  They use no function of the model.
-/

namespace Verif.Spec

open Verif.Strategy

variable {P : Type}

/-- The extra points whose value is known, with their values, in the given order. -/
def known (extras : List (P × Option Val)) : List (P × Val) :=
  extras.filterMap fun e => e.2.map fun v => (e.1, v)

/-- The extra points without value, in the given order. -/
def unknown (extras : List (P × Option Val)) : List P :=
  (extras.filter fun e => e.2.isNone).map Prod.fst

/-- The completed evaluations, in order of completion. -/
def completions (log : List (Event P)) : List (P × Val) :=
  log.filterMap fun e => match e with
    | .completed x _ v _ => some (x, v)
    | _ => none

/-- The evaluations that finished in any way, in order; `none` is an evaluation that was killed or cancelled. -/
def finished (log : List (Event P)) : List (P × Option Val) :=
  log.filterMap fun e => match e with
    | .completed x _ v _ => some (x, some v)
    | .aborted x _ => some (x, none)
    | _ => none

/-- The accepted proposals with the identifier they were given, in order. -/
def acceptedIds (log : List (Event P)) : List Nat :=
  log.filterMap fun e => match e with
    | .accepted _ _ i => some i
    | _ => none

def rejections (log : List (Event P)) : List P :=
  log.filterMap fun e => match e with
    | .rejected x _ => some x
    | _ => none

/-- Effect of one event on the multiset of points that are in flight (proposed or running). -/
def openStep [DecidableEq P] (l : List P) : Event P → List P
  | .proposed x _ => l ++ [x]
  | .rejected x _ => l.erase x
  | .completed x _ _ _ => l.erase x
  | .aborted x _ => l.erase x
  | .crashed _ => []
  | _ => l

/-- The points in flight after a history. -/
def openPoints [DecidableEq P] (log : List (Event P)) : List P := log.foldl openStep []

/-- Completed plus in-flight evaluations: what has been charged to the budget. -/
def charged [DecidableEq P] (log : List (Event P)) : Nat :=
  (completions log).length + (openPoints log).length

/-- Every point ever put in the queue from outside the ledger: designs, extra points, adaptive points,
and the points put back by `resume`. -/
def queuedBy (log : List (Event P)) : List P :=
  log.flatMap fun e => match e with
    | .start q => q
    | .restart q => q
    | .generated q _ => q
    | .resumed q => q
    | _ => []

/-- The points that are deliberately given up: adaptive proposals rejected in asynchronous
mode and adaptive evaluations that were aborted. -/
def droppedBy (asynchronous : Bool) (log : List (Event P)) : List P :=
  log.filterMap fun e => match e with
    | .rejected x .adapt => if asynchronous then some x else none
    | .aborted x .adapt => some x
    | _ => none

/-- The points that were in flight when a process died. -/
def crashedBy (log : List (Event P)) : List P :=
  log.flatMap fun e => match e with
    | .crashed q => q
    | _ => []

/-- Position just after the last restart (0 if there was none). -/
def lastRestart (log : List (Event P)) : Nat :=
  (log.foldl (fun (p : Nat × Nat) e => match e with
    | .restart _ => (p.1 + 1, p.1 + 1)
    | _ => (p.1 + 1, p.2)) (0, 0)).2

/-- The completed evaluations that were accepted after the last restart, in order of completion. -/
def currentRun (log : List (Event P)) : List (P × Val) :=
  log.filterMap fun e => match e with
    | .completed x _ v a => if lastRestart log ≤ a then some (x, v) else none
    | _ => none

/-- Has there been a restart? -/
def restarted (log : List (Event P)) : Bool :=
  log.any fun e => match e with
    | .restart _ => true
    | _ => false

/-- Is the newest source of queued points a batch of adaptive points? -/
def lastSourceAdaptive (log : List (Event P)) : Bool :=
  log.foldl (fun b e => match e with
    | .start _ => false
    | .restart _ => false
    | .generated _ _ => true
    | _ => b) false

/-- Does this event give up or postpone an evaluation that was charged to the budget? -/
def isLoss : Event P → Bool
  | .rejected _ _ => true
  | .aborted _ _ => true
  | .crashed _ => true
  | _ => false

/-- The evaluations that ended, in order: completed with a value, or aborted (`none`). -/
def endings (log : List (Event P)) : List (P × Option Val) :=
  log.filterMap fun e => match e with
    | .completed x _ v _ => some (x, some v)
    | .aborted x _ => some (x, none)
    | _ => none

/-- The points of proposals that were rejected, evaluations that were aborted, and points in flight when a process died. -/
def losses (log : List (Event P)) : List P :=
  log.flatMap fun e => match e with
    | .rejected x _ => [x]
    | .aborted x _ => [x]
    | .crashed q => q
    | _ => []

/-- Position just after the last restart or change of the sampling radius (0 if there was none). -/
def lastChange (log : List (Event P)) : Nat :=
  (log.foldl (fun (p : Nat × Nat) e => match e with
    | .restart _ => (p.1 + 1, p.1 + 1)
    | .stepChange => (p.1 + 1, p.1 + 1)
    | _ => (p.1 + 1, p.2)) (0, 0)).2

/-- The completed evaluations that were accepted after the last restart or radius change. -/
def sinceChange (log : List (Event P)) : List (P × Val) :=
  log.filterMap fun e => match e with
    | .completed x _ v a => if lastChange log ≤ a then some (x, v) else none
    | _ => none

/-- Did the sampling radius ever change? -/
def radiusChanged (log : List (Event P)) : Bool :=
  log.any fun e => match e with
    | .stepChange => true
    | _ => false

/-- All points supplied by the designs, the extra points and the auxiliary problem. -/
def sources (log : List (Event P)) : List P :=
  log.flatMap fun e => match e with
    | .start q => q
    | .restart q => q
    | .generated q _ => q
    | _ => []

/-- All points ever proposed for evaluation. -/
def proposals (log : List (Event P)) : List P :=
  log.filterMap fun e => match e with
    | .proposed x _ => some x
    | _ => none

/-- All adaptive points ever generated, in order. -/
def adaptivePoints (log : List (Event P)) : List P :=
  log.flatMap fun e => match e with
    | .generated q _ => q
    | _ => []

/-- The weights used for the adaptive points, in order (SRBF and DYCORS). -/
def usedWeights (log : List (Event P)) : List ℚ :=
  log.flatMap fun e => match e with
    | .generated _ ws => ws
    | _ => []

/-- Is `f` a significant improvement over the reference value (`none`: no value yet)? -/
def significant (best : Option Val) (f : Val) : Prop :=
  match best with
  | none => True
  | some b => f < b - (1 / 1000) * |b|

instance (best : Option Val) (f : Val) : Decidable (significant best f) :=
  match best with
  | none => isTrue trivial
  | some b => inferInstanceAs (Decidable (f < b - (1 / 1000) * |b|))

/-- SRBF/DYCORS: the reference value of the current run and the number of consecutive steps without
significant improvement. -/
def progress (log : List (Event P)) : Option Val × Nat :=
  log.foldl (fun p e => match e with
    | .start _ => (none, 0)
    | .restart _ => (none, 0)
    | .adjusted f => if significant p.1 f then (some f, 0) else (p.1, p.2 + 1)
    | _ => p) (none, 0)

/-- The number of failed steps after which SRBF/DYCORS halve the radius: `max(dim, 4)` evaluations, counted in batches of
`q` in synchronous mode (rounded up). -/
def failureTolerance (asynchronous : Bool) (q dim : Nat) : Nat :=
  if asynchronous then max dim 4 else max ((dim + (q - 1)) / q) ((4 + (q - 1)) / q)

/-- The documented step control of SRBF/DYCORS: reference value, consecutive successes and failures since the last
change of the radius, consecutive failures since the last success, sampling radius. -/
structure Ctl where
  best : Option Val
  wins : Nat
  losses : Nat
  fails : Nat
  radius : ℚ

/-- State of the step control at the start of a run. -/
def Ctl.init : Ctl := { best := none, wins := 0, losses := 0, fails := 0, radius := 2 / 10 }

/-- One step with best new value `f`: after 3 successes in a row the radius is doubled (at most 0.2), after
`ftol` failures in a row it is halved. -/
def Ctl.next (ftol : Int) (c : Ctl) (f : Val) : Ctl :=
  if significant c.best f then
    if c.wins + 1 = 3 then
      { best := some f, wins := 0, losses := 0, fails := 0, radius := min (2 * c.radius) (2 / 10) }
    else { best := some f, wins := c.wins + 1, losses := 0, fails := 0, radius := c.radius }
  else if (c.losses + 1 : Int) = ftol then
    { best := c.best, wins := 0, losses := 0, fails := c.fails + 1, radius := c.radius / 2 }
  else { best := c.best, wins := 0, losses := c.losses + 1, fails := c.fails + 1, radius := c.radius }

/-- The step control after a history. -/
def control (ftol : Int) (log : List (Event P)) : Ctl :=
  log.foldl (fun c e => match e with
    | .start _ => Ctl.init
    | .restart _ => Ctl.init
    | .adjusted f => c.next ftol f
    | _ => c) Ctl.init

/-- Does a step with best new value `f` change the radius: the third success in a row, or the `ftol`-th failure in a row? -/
def Ctl.turns (ftol : Int) (c : Ctl) (f : Val) : Bool :=
  if significant c.best f then decide (c.wins = 2) else decide ((c.losses : Int) + 1 = ftol)

/-- One event, for `runFinished`: the step control, and whether the current run has finished. -/
def runStep (ftol : Int) (p : Ctl × Bool) : Event P → Ctl × Bool
  | .start _ => (Ctl.init, false)
  | .restart _ => (Ctl.init, false)
  | .adjusted f => (p.1.next ftol f,
      p.2 || decide (4 * ftol ≤ (p.1.next ftol f).fails) || decide ((p.1.next ftol f).radius ≤ (2 / 10) / 2 ^ 6))
  | _ => p

/-- SRBF/DYCORS: has the current run finished, i.e. did some step since the last (re)start end with `4 * ftol`
consecutive failures or with the minimum radius? -/
def runFinished (ftol : Int) (log : List (Event P)) : Bool := (log.foldl (runStep ftol) (Ctl.init, false)).2

/-- The number of proposed points that are neither completed nor lost. -/
def outstanding (log : List (Event P)) : Int :=
  (proposals log).length - (completions log).length - (losses log).length

/-- Synchronous SRBF/DYCORS: the values of the adaptive evaluations completed since the step control last ran (or the
last restart). -/
def batchValues (log : List (Event P)) : List Val :=
  log.foldl (fun q e => match e with
    | .start _ => []
    | .restart _ => []
    | .adjusted _ => []
    | .completed _ .adapt v _ => q ++ [v]
    | _ => q) []

/-- One event, for `thisRun`. -/
def thisRunStep (l : List (Event P)) (e : Event P) : List (Event P) :=
  match e with
  | .start _ => [e]
  | .restart _ => [e]
  | _ => l ++ [e]

/-- The history of the current run: the events since the last start or restart (inclusive). -/
def thisRun (log : List (Event P)) : List (Event P) := log.foldl thisRunStep []

/-- The points queued by the start and the restarts of a history: designs, and the extra points without value. -/
def designs (log : List (Event P)) : List P :=
  log.flatMap fun e => match e with
    | .start q => q
    | .restart q => q
    | _ => []

/-- The points put back in the queue when snapshots were resumed. -/
def requeued (log : List (Event P)) : List P :=
  log.flatMap fun e => match e with
    | .resumed q => q
    | _ => []

end Verif.Spec
