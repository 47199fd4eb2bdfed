import Verif.Num.Basic

/-!
# RandomStrategy

Source: /repo/pySOT/strategy/random_strategy.py:12-43.

`RetryStrategy` is part of POAP, which is not in the repository.  What is assumed of it (its documented contract): `rput`
puts a proposal at the end of the queue, `get` takes the first one, a proposal that is rejected by the controller or whose
evaluation is killed is put into the queue again, and `num_eval_outstanding` counts the proposals that were put in and not
completed.  The world around the strategy (which proposals are accepted or rejected, when evaluations finish or die) is
arbitrary.
-/

namespace Verif.Random

open Verif.Num

/-- `np.random.uniform(low, high)` for the unit draw `u` (random_strategy.py:34): `low + (high - low) * u`, with `u` in
`[0, 1)`. -/
def uniform {d : ℕ} (low high u : Pt d) : Pt d := fun i => low i + (high i - low i) * u i

/-- What the strategy tells the controller. (random_strategy.py:38-43.) -/
inductive Action (n : ℕ) where
  /-- evaluate the `k`-th point -/
  | eval (k : Fin n)
  | terminate
  /-- `propose_action` returns `None` -/
  | none
  deriving DecidableEq

/-- What an observer of the controller sees. (Ghost; POAP calls of random_strategy.py:38-43.) -/
inductive Event (n : ℕ) where
  | proposed (k : Fin n)
  | accepted (k : Fin n)
  | rejected (k : Fin n)
  | completed (k : Fin n)
  | killed (k : Fin n)
  | terminated
  deriving DecidableEq

/-- The strategy with its controller; the points are numbered in the order in which they were drawn.
(random_strategy.py:32-36.) -/
structure Sys (n : ℕ) where
  /-- the queue of `self.retry` -/
  queue : List (Fin n)
  /-- proposed, not answered -/
  pending : List (Fin n)
  /-- accepted, being evaluated -/
  running : List (Fin n)
  /-- `self.retry.num_eval_outstanding` -/
  outstanding : ℕ
  log : List (Event n)

/-- `__init__` (random_strategy.py:32-36) for `max_evals = n`. -/
def init (n : ℕ) : Sys n := { queue := List.finRange n, pending := [], running := [], outstanding := n, log := [] }

/-- `propose_action` (random_strategy.py:38-43). -/
def Sys.proposeAction {n : ℕ} (w : Sys n) : Action n × Sys n :=
  match w.queue with
  | k :: q => (.eval k, { w with queue := q, pending := w.pending ++ [k], log := w.log ++ [.proposed k] })
  | [] => if w.outstanding = 0 then (.terminate, { w with log := w.log ++ [.terminated] }) else (.none, w)

/-- What the controller can do. (POAP calls of random_strategy.py:38-43.) -/
inductive Op (n : ℕ) where
  | propose
  | accept (k : Fin n)
  | reject (k : Fin n)
  | complete (k : Fin n)
  | kill (k : Fin n)

/-- One step of the controller; `none`: the controller cannot do this in this state.
(random_strategy.py:38-43; acceptances and completions have no callback there.) -/
def Sys.step {n : ℕ} (w : Sys n) : Op n → Option (Sys n)
  | .propose => some w.proposeAction.2
  | .accept k =>
    if k ∈ w.pending then
      some { w with pending := w.pending.erase k, running := w.running ++ [k], log := w.log ++ [.accepted k] }
    else none
  | .reject k =>
    if k ∈ w.pending then
      some { w with pending := w.pending.erase k, queue := w.queue ++ [k], log := w.log ++ [.rejected k] }
    else none
  | .complete k =>
    if k ∈ w.running then
      some { w with running := w.running.erase k, outstanding := w.outstanding - 1, log := w.log ++ [.completed k] }
    else none
  | .kill k =>
    if k ∈ w.running then
      some { w with running := w.running.erase k, queue := w.queue ++ [k], log := w.log ++ [.killed k] }
    else none

/-- The states of all schedules. (random_strategy.py:32-43.) -/
inductive Reach (n : ℕ) : Sys n → Prop
  | init : Reach n (init n)
  | step {w w' : Sys n} (o : Op n) : Reach n w → w.step o = some w' → Reach n w'

/-- From `w` the controller can get to `w'`. -/
inductive Later {n : ℕ} (w : Sys n) : Sys n → Prop
  | refl : Later w w
  | step {w' w'' : Sys n} (o : Op n) : Later w w' → w'.step o = some w'' → Later w w''

end Verif.Random
