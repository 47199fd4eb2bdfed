import Mathlib.Algebra.Order.Field.Rat
import Mathlib.Data.Rat.Floor
import Mathlib.Algebra.Order.Group.Unbundled.Abs

/-!
# Model of `SurrogateBaseStrategy` (and the SRBF/DYCORS step control built on it)

Source: /repo/pySOT/strategy/surrogate_strategy.py (cited as `ss.py`) and
/repo/pySOT/strategy/srbf_strategy.py (cited as `srbf.py`).

`P` is the type of points (rows of the numpy arrays); equality of rows is `(Xpend == x).all(axis=1)`
(NaN coordinates, for which Python equality is not reflexive, are excluded).
Values are exact rationals instead of floats.
-/

namespace Verif.Strategy

/-- Value of a completed evaluation (`record.value`, a finite float; exact here). (ss.py:213-220.) -/
abbrev Val := ℚ

/-- `self.phase` (ss.py:115): 1 = initial, 2 = adaptive. -/
inductive Phase
  | initial
  | adaptive
  deriving DecidableEq, Repr

/-- Which callback family is attached to a proposal/record: `on_initial_*` (ss.py:318)
or `on_adapt_*` (ss.py:383). -/
inductive Kind
  | init
  | adapt
  deriving DecidableEq, Repr

/-- **Ghost** history entries; no function of the strategy reads them.
What the environment can observe (`proposed`, `accepted`, `rejected`, `completed`, `aborted`,
`terminated`, `crashed`) is recorded by the environment (`Sys.step`, `Sys.resumed`), the internal events
(`start`, `restart`, `generated`, `adjusted`, `stepChange`, `resumed`) by the strategy functions.
(The places are those cited at the functions that append the entry (ss.py:193-439, srbf.py:143-221).) -/
inductive Event (P : Type) where
  /-- the constructor queued these points (initial design, then extra points without value) -/
  | start (queued : List P)
  /-- `sample_restart` queued these points -/
  | restart (queued : List P)
  /-- `generate_evals` queued these points, using these weights (SRBF/DYCORS only) -/
  | generated (pts : List P) (weights : List ℚ)
  | proposed (x : P) (k : Kind)
  /-- `accepted x k id`: the record of `x` got the event identifier `id` -/
  | accepted (x : P) (k : Kind) (evId : Nat)
  | rejected (x : P) (k : Kind)
  /-- `completed x k v t`: value `v`; the record had been accepted when the log had length `t` -/
  | completed (x : P) (k : Kind) (v : Val) (accAt : Nat)
  | aborted (x : P) (k : Kind)
  /-- SRBF ran `adjust_step` with this best new value -/
  | adjusted (fNew : Val)
  /-- SRBF changed its sampling radius (ss.py ids: `ev_last` was moved) -/
  | stepChange
  | terminated
  /-- the process died while these points were proposed or running -/
  | crashed (lost : List P)
  /-- `resume`: these points were put back in the queue -/
  | resumed (requeued : List P)
  deriving Repr, DecidableEq

/-- An entry of `self.fevals` (ss.py:126): point, value (`none` = killed or cancelled), `ev_id`. -/
structure Finished (P : Type) where
  x : P
  value : Option Val
  evId : Nat
  deriving Repr, DecidableEq

/-- Additional attributes of `SRBFStrategy` (srbf.py:104,122,145-148).
`fbest = none` is `np.inf`. `recordQueue` keeps only the values of the queued records. -/
structure Srbf where
  status : Int
  failcount : Int
  radius : ℚ
  fbest : Option Val
  recordQueue : List Val
  nextWeight : Nat
  deriving Repr, DecidableEq

/-- Constructor arguments of `SRBFStrategy` that the step control uses: the dimension of the
problem and the list of weights (srbf.py:100-120). -/
structure SrbfCfg where
  dim : Nat
  weights : List ℚ
  deriving Repr

/-- Constructor arguments (ss.py:82-93).  `numPts` is `exp_design.num_pts`; `extras` lists the rows
of `extra_points` with their value, `none` when `extra_vals is None` or the value is NaN
(ss.py:241); `srbf = none` stands for the subclasses that do not override the step control (EI, LCB, SOP). -/
structure Config (P : Type) where
  asynchronous : Bool
  batchSize : Nat
  maxEvals : Int
  useRestarts : Bool
  numPts : Nat
  extras : List (P × Option Val)
  srbf : Option SrbfCfg

/-- Attributes of the strategy object (ss.py:94-134), plus the ghost `log`.
Dead attributes (`proposal_counter`, `init_pending`, which only ever hold 0) are left out. `surr` is the data
held by `self.surrogate` (see `Verif.Surrogate` for the surrogate object itself). -/
structure State (P : Type) where
  terminate : Bool
  converged : Bool
  acceptedCount : Nat
  rejectedCount : Nat
  batchQueue : List P
  phase : Phase
  numEvals : Int
  pendingEvals : Int
  X : List P
  fX : List Val
  Xpend : List P
  fevals : List (Finished P)
  curX : List P
  curFX : List Val
  evLast : Nat
  evNext : Nat
  surr : List (P × Val)
  srbf : Option Srbf
  log : List (Event P)

variable {P : Type}

/-- Oracle for one call of `propose_action`: the rows of the experimental design
(`exp_design.generate_points`, ss.py:230), the rows of the adaptive points returned by the auxiliary problem
(ei_strategy.py:108, srbf.py:173), and whether `ei_ga`/`lcb_ga` returned `None` (ei_strategy.py:119). -/
structure Oracle (P : Type) where
  design : Nat → P
  pts : Nat → P
  giveUp : Bool

/-- What `propose_action` returns: `None`, `Proposal("terminate")`, or `Proposal("eval", x)` with
the callback family attached. (ss.py:249-306.) -/
inductive Action (P : Type) where
  | nothing
  | terminate
  | eval (x : P) (k : Kind)
  deriving DecidableEq, Repr

/-- `failtol` (srbf.py:113-118). -/
def failtol (cfg : Config P) (sc : SrbfCfg) : Int :=
  if cfg.asynchronous then max (sc.dim : Int) 4
  else max ⌈(sc.dim : ℚ) / (cfg.batchSize : ℚ)⌉ ⌈(4 : ℚ) / (cfg.batchSize : ℚ)⌉

/-- `succtol` (srbf.py:119). -/
def succtol : Int := 3

/-- `maxfailtol` (srbf.py:120). -/
def maxfailtol (cfg : Config P) (sc : SrbfCfg) : Int := 4 * failtol cfg sc

/-- `sampling_radius_min` (srbf.py:110). -/
def radiusMin : ℚ := (2 / 10) * (1 / 2) ^ 6

/-- `sampling_radius_max` (srbf.py:111). -/
def radiusMax : ℚ := 2 / 10

/-- `SRBFStrategy.sample_initial` after the call of `super()` (srbf.py:145-148). -/
def Srbf.sampleInitial (z : Srbf) : Srbf :=
  { z with status := 0, failcount := 0, radius := 2 / 10, fbest := none }

/-- The test for a significant improvement (srbf.py:196); `fbest = none` is `np.inf`. -/
def Srbf.isImprovement (z : Srbf) (fNew : Val) : Bool :=
  match z.fbest with
  | none => true
  | some b => decide (fNew < b - (1 / 1000) * |b|)

/-- `adjust_step` (srbf.py:188-221) on the SRBF attributes, given `fNew = fbest_new` (srbf.py:195).
Returns the attributes, whether `ev_last` is moved (srbf.py:206,211), and whether
`converged` is set (srbf.py:217).  The two tests at srbf.py:205 and 210 cannot both
succeed (`status` is 0 after the first), so at most one move happens. -/
def Srbf.adjust (ftol mftol : Int) (z : Srbf) (fNew : Val) : Srbf × Bool × Bool :=
  let z := if z.isImprovement fNew then
      { z with fbest := some fNew, status := max 1 (z.status + 1), failcount := 0 }
    else
      { z with status := min (-1) (z.status - 1), failcount := z.failcount + 1 }
  let r := if z.status ≤ -ftol then
      ({ z with status := 0, radius := z.radius / 2 }, true)
    else (z, false)
  let r := if succtol ≤ r.1.status then
      ({ r.1 with status := 0, radius := min (2 * r.1.radius) radiusMax }, true)
    else r
  let conv : Bool := decide (mftol ≤ r.1.failcount) || decide (r.1.radius ≤ radiusMin)
  ({ r.1 with recordQueue := [] }, r.2, conv)

/-- `get_weights` (srbf.py:162-168): the weights and the new `next_weight`.
`none` is the `IndexError`/`ZeroDivisionError` raised for an empty list of weights. -/
def getWeights (ws : List ℚ) : Nat → Nat → Option (List ℚ × Nat)
  | next, 0 => some ([], next)
  | next, n + 1 =>
    match ws[next]? with
    | none => none
    | some w =>
      match getWeights ws ((next + 1) % ws.length) n with
      | none => none
      | some (l, next') => some (w :: l, next')

/-- `get_ev` (ss.py:142-146) followed by the assignment `self.ev_last = self.get_ev()`
(ss.py:200, srbf.py:206,211). -/
def State.moveEvLast (s : State P) : State P :=
  { s with evLast := s.evNext, evNext := s.evNext + 1 }

/-- The extra points without value, in order (ss.py:241-242). -/
def unknownExtras (cfg : Config P) : List P :=
  cfg.extras.filterMap fun e => match e.2 with
    | none => some e.1
    | some _ => none

/-- The extra points with known value, in order (ss.py:243-247). -/
def knownExtras (cfg : Config P) : List (P × Val) :=
  cfg.extras.filterMap fun e => match e.2 with
    | none => none
    | some v => some (e.1, v)

/-- One iteration of the loop over the extra points (ss.py:240-247). -/
def State.addExtra (s : State P) (e : P × Option Val) : State P :=
  match e.2 with
  | none => { s with batchQueue := s.batchQueue ++ [e.1] }
  | some v => { s with X := s.X ++ [e.1], fX := s.fX ++ [v], surr := s.surr ++ [(e.1, v)] }

/-- `sample_initial` (ss.py:222-247, srbf.py:143-148).  The event is logged by the callers. -/
def State.sampleInitial (cfg : Config P) (o : Oracle P) (s : State P) : State P :=
  let s := { s with surr := [] }
  let s := { s with batchQueue := s.batchQueue ++ (List.range cfg.numPts).map o.design }
  let s := if s.X.length = 0 then cfg.extras.foldl State.addExtra s else s
  { s with srbf := s.srbf.map Srbf.sampleInitial }

/-- Attribute values set by the constructors before `sample_initial` (ss.py:94-134, srbf.py:104,122). -/
def State.blank (cfg : Config P) : State P where
  terminate := false
  converged := false
  acceptedCount := 0
  rejectedCount := 0
  batchQueue := []
  phase := .initial
  numEvals := 0
  pendingEvals := 0
  X := []
  fX := []
  Xpend := []
  fevals := []
  curX := []
  curFX := []
  evLast := 0
  evNext := 1
  surr := []
  srbf := cfg.srbf.map fun _ =>
    { status := 0, failcount := 0, radius := 2 / 10, fbest := none, recordQueue := [], nextWeight := 0 }
  log := []

/-- The constructor (ss.py:82-140), for arguments accepted by `check_input`. -/
def State.create (cfg : Config P) (o : Oracle P) : State P :=
  let s := (State.blank cfg).sampleInitial cfg o
  { s with log := [.start s.batchQueue] }

/-- `sample_restart` (ss.py:198-211). -/
def State.sampleRestart (cfg : Config P) (o : Oracle P) (s : State P) : State P :=
  let q := s.batchQueue.length
  let s := s.moveEvLast
  let s := { s with curX := [], curFX := [] }
  let s := { s with converged := false, phase := .initial }
  let s := s.sampleInitial cfg o
  { s with log := s.log ++ [.restart (s.batchQueue.drop q)] }

/-- `check_termination` (ss.py:193-196). -/
def State.checkTermination (cfg : Config P) (s : State P) : State P :=
  if s.numEvals + s.pendingEvals ≥ cfg.maxEvals then { s with terminate := true } else s

/-- Python `list.pop()`: last element and the remaining list; `none` is the `IndexError`. (ss.py:317, 382.) -/
def popLast {α : Type} (l : List α) : Option (α × List α) :=
  match l.getLast? with
  | none => none
  | some x => some (x, l.dropLast)

/-- `make_proposal` (ss.py:301-306). -/
def State.makeProposal (s : State P) (x : P) : State P :=
  { s with
    pendingEvals := s.pendingEvals + 1
    Xpend := s.Xpend ++ [x] }

/-- `init_proposal` (ss.py:315-319); `none`: `IndexError: pop from empty list`. -/
def State.initProposal (s : State P) : Option (Action P × State P) :=
  match popLast s.batchQueue with
  | none => none
  | some (x, q) => some (.eval x .init, State.makeProposal { s with batchQueue := q } x)

/-- `adapt_proposal` (ss.py:379-384). -/
def State.adaptProposal (s : State P) : Action P × State P :=
  match popLast s.batchQueue with
  | none => (.nothing, s)
  | some (x, q) => (.eval x .adapt, State.makeProposal { s with batchQueue := q } x)

/-- `generate_evals` of EI/LCB (ei_strategy.py:102-123, lcb_strategy.py:102-125) and of SRBF/DYCORS
(srbf.py:170-186, dycors_strategy.py:84-107).  EI/LCB set `converged` when the auxiliary problem
gives up; SRBF/DYCORS never give up and consume `n` weights first (`none`: exception for an empty weight list). -/
def State.generateEvals (cfg : Config P) (o : Oracle P) (n : Nat) (s : State P) : Option (State P) :=
  match cfg.srbf, s.srbf with
  | some sc, some z =>
    match getWeights sc.weights z.nextWeight n with
    | none => none
    | some (ws, next') =>
      let new := (List.range n).map o.pts
      some { s with
        srbf := some { z with nextWeight := next' }
        batchQueue := s.batchQueue ++ new
        log := s.log ++ [.generated new ws] }
  | _, _ =>
    if o.giveUp then some { s with converged := true }
    else
      let new := (List.range n).map o.pts
      some { s with batchQueue := s.batchQueue ++ new, log := s.log ++ [.generated new []] }

/-- The last part of `propose_action` (ss.py:289-299), after `generate_evals`. -/
def State.afterGenerate (cfg : Config P) (o : Oracle P) (s : State P) : Option (Action P × State P) :=
  if s.converged && cfg.useRestarts then
    if cfg.asynchronous || s.pendingEvals == 0 then (s.sampleRestart cfg o).initProposal
    else some (.nothing, s)
  else some s.adaptProposal

/-- The `else` branch of `propose_action` (ss.py:282-299). -/
def State.adaptBranch (cfg : Config P) (o : Oracle P) (s : State P) : Option (Action P × State P) :=
  let s := { s with phase := .adaptive }
  if cfg.asynchronous then
    match s.generateEvals cfg o 1 with
    | none => none
    | some s => s.afterGenerate cfg o
  else if s.pendingEvals == 0 then
    match s.generateEvals cfg o cfg.batchSize with
    | none => none
    | some s => s.afterGenerate cfg o
  else s.afterGenerate cfg o

/-- `propose_action` (ss.py:249-299).  Result `none`: an exception was raised
(`pop from empty list` for an empty design, or an empty list of weights). -/
def State.proposeAction (cfg : Config P) (o : Oracle P) (s : State P) : Option (Action P × State P) :=
  let s := s.checkTermination cfg
  if s.terminate then
    if s.pendingEvals == 0 then some (.terminate, s)
    else some (.nothing, s)
  else if s.converged then
    if cfg.useRestarts then
      if cfg.asynchronous || s.pendingEvals == 0 then (s.sampleRestart cfg o).initProposal
      else some (.nothing, s)
    else some (.nothing, s)
  else if s.batchQueue.isEmpty then s.adaptBranch cfg o
  else match s.phase with
    | .initial => s.initProposal
    | .adaptive => some s.adaptProposal

section
variable [DecidableEq P]

/-- `remove_pending` (ss.py:308-311): deletes *every* row equal to `x`. -/
def State.removePending (s : State P) (x : P) : State P :=
  { s with Xpend := s.Xpend.filter fun y => decide (y ≠ x) }

/-- `on_initial_accepted` / `on_adapt_accept` (ss.py:328-332, 393-397): the new `ev_id` is
`s.evNext`. -/
def State.onAccept (s : State P) : State P :=
  { s with
    acceptedCount := s.acceptedCount + 1
    evNext := s.evNext + 1 }

/-- `on_initial_rejected` (ss.py:334-341). -/
def State.onInitialRejected (s : State P) (x : P) : State P :=
  let s := { s with rejectedCount := s.rejectedCount + 1, pendingEvals := s.pendingEvals - 1 }
  let s := { s with batchQueue := s.batchQueue ++ [x], Xpend := s.Xpend ++ [x] }
  s.removePending x

/-- `on_adapt_reject` (ss.py:399-406). -/
def State.onAdaptReject (cfg : Config P) (s : State P) (x : P) : State P :=
  let s := { s with rejectedCount := s.rejectedCount + 1, pendingEvals := s.pendingEvals - 1 }
  let s := s.removePending x
  if cfg.asynchronous then s else { s with batchQueue := s.batchQueue ++ [x] }

/-- The common body of `on_initial_completed` (ss.py:350-367) and
`SurrogateBaseStrategy.on_adapt_completed` (ss.py:415-432). -/
def State.recordCompleted (s : State P) (x : P) (v : Val) (evId : Nat) : State P :=
  let s := { s with numEvals := s.numEvals + 1, pendingEvals := s.pendingEvals - 1 }
  let s := { s with X := s.X ++ [x], fX := s.fX ++ [v] }
  let s := s.removePending x
  let s := if evId > s.evLast then
      { s with curX := s.curX ++ [x], curFX := s.curFX ++ [v], surr := s.surr ++ [(x, v)] }
    else s
  { s with fevals := s.fevals ++ [{ x := x, value := some v, evId := evId }] }

/-- `fbest_new = min([record.value for record in self.record_queue])` (srbf.py:195), where the queue
is `q` followed by `v`. -/
def minValue (q : List Val) (v : Val) : Val := q.foldl min v

/-- `adjust_step` (srbf.py:188-221) on the strategy; `fNew` is `fbest_new` (srbf.py:195). -/
def State.adjustStep (cfg : Config P) (sc : SrbfCfg) (z : Srbf) (fNew : Val) (s : State P) : State P :=
  let r := z.adjust (failtol cfg sc) (maxfailtol cfg sc) fNew
  let s := { s with srbf := some r.1, log := s.log ++ [.adjusted fNew] }
  let s := if r.2.1 then { s.moveEvLast with log := s.log ++ [.stepChange] } else s
  if r.2.2 then { s with converged := true } else s

/-- The SRBF part of `on_adapt_completed` (srbf.py:154-160) after the call of `super()`. -/
def State.srbfCompleted (cfg : Config P) (sc : SrbfCfg) (z : Srbf) (s : State P) (v : Val)
    (evId : Nat) : State P :=
  if evId > s.evLast then
    if cfg.asynchronous || (s.batchQueue.isEmpty && s.pendingEvals == 0) then
      s.adjustStep cfg sc z (minValue z.recordQueue v)
    else { s with srbf := some { z with recordQueue := z.recordQueue ++ [v] } }
  else s

/-- `on_initial_completed` (ss.py:350) resp. `on_adapt_completed` (ss.py:415, srbf.py:150-160). -/
def State.onCompleted (cfg : Config P) (s : State P) (x : P) (k : Kind) (v : Val)
    (evId : Nat) : State P :=
  let s := s.recordCompleted x v evId
  match k with
  | .init => s
  | .adapt =>
    match cfg.srbf, s.srbf with
    | some sc, some z => s.srbfCompleted cfg sc z v evId
    | _, _ => s

/-- `on_initial_aborted` (ss.py:369-375) and `on_adapt_aborted` (ss.py:434-439). -/
def State.onAborted (s : State P) (x : P) (k : Kind) (evId : Nat) : State P :=
  let s := { s with pendingEvals := s.pendingEvals - 1 }
  let s := match k with
    | .init => { s with batchQueue := s.batchQueue ++ [x] }
    | .adapt => s
  let s := s.removePending x
  { s with fevals := s.fevals ++ [{ x := x, value := none, evId := evId }] }

/-- `resume` (ss.py:182-191). -/
def State.resume (s : State P) : State P :=
  let requeued := match s.phase with
    | .initial => s.Xpend
    | .adaptive => []
  { s with
    batchQueue := s.batchQueue ++ requeued
    pendingEvals := 0
    Xpend := []
    log := s.log ++ [.resumed requeued] }

end

/-! ## The strategy together with its environment

POAP (docs/poap.rst): the controller asks for proposals, accepts or rejects each of them, and each
accepted proposal owns a record that is later completed or killed/cancelled.  The callbacks are executed
one at a time.  The model allows every interleaving of these events. -/

/-- A proposal that was returned and is not yet accepted or rejected. (ss.py:301-306.) -/
structure Proposal (P : Type) where
  x : P
  kind : Kind
  deriving Repr, DecidableEq

/-- A running evaluation (`EvalRecord`).  `accAt` is ghost: length of the log at acceptance.
(ss.py:213-220, 328-332, 393-397.) -/
structure Rec (P : Type) where
  x : P
  kind : Kind
  evId : Nat
  accAt : Nat
  deriving Repr, DecidableEq

/-- Strategy, outstanding proposals and running records. (ss.py:249-439 with POAP as environment.) -/
structure Sys (P : Type) where
  st : State P
  props : List (Proposal P)
  recs : List (Rec P)

/-- The points that are proposed or being evaluated, as the environment sees them. (Environment of ss.py:301-311.) -/
def Sys.inflight (w : Sys P) : List P := w.props.map Proposal.x ++ w.recs.map Rec.x

/-- Appends an entry to the ghost log. (Models no code.) -/
def State.note (s : State P) (e : Event P) : State P := { s with log := s.log ++ [e] }

/-- Events of the environment. (POAP calls of ss.py:249-439.) -/
inductive Op (P : Type) where
  /-- the controller calls `propose_action` -/
  | propose (o : Oracle P)
  /-- the controller accepts the `i`-th outstanding proposal -/
  | accept (i : Nat)
  | reject (i : Nat)
  /-- the `i`-th running record completes with value `v` -/
  | complete (i : Nat) (v : Val)
  /-- the `i`-th running record is killed or cancelled -/
  | abort (i : Nat)
  /-- a status update of the `i`-th record that is not final (ss.py:343-348: no effect) -/
  | update (i : Nat)

variable [DecidableEq P]

/-- One event.  `none`: the event is not possible in this state, or the strategy raises an exception.
(ss.py:249-439 as called by POAP.) -/
def Sys.step (cfg : Config P) (w : Sys P) : Op P → Option (Sys P)
  | .propose o =>
    match w.st.proposeAction cfg o with
    | none => none
    | some (.eval x k, s) =>
      some { w with st := s.note (.proposed x k), props := w.props ++ [{ x := x, kind := k }] }
    | some (.terminate, s) => some { w with st := s.note .terminated }
    | some (.nothing, s) => some { w with st := s }
  | .accept i =>
    match w.props[i]? with
    | none => none
    | some p => some {
        st := (w.st.note (.accepted p.x p.kind w.st.evNext)).onAccept
        props := w.props.eraseIdx i
        recs := w.recs ++ [{ x := p.x, kind := p.kind, evId := w.st.evNext, accAt := w.st.log.length }] }
  | .reject i =>
    match w.props[i]? with
    | none => none
    | some p => some { w with
        st := match p.kind with
          | .init => (w.st.note (.rejected p.x p.kind)).onInitialRejected p.x
          | .adapt => (w.st.note (.rejected p.x p.kind)).onAdaptReject cfg p.x
        props := w.props.eraseIdx i }
  | .complete i v =>
    match w.recs[i]? with
    | none => none
    | some r => some { w with
        st := (w.st.note (.completed r.x r.kind v r.accAt)).onCompleted cfg r.x r.kind v r.evId
        recs := w.recs.eraseIdx i }
  | .abort i =>
    match w.recs[i]? with
    | none => none
    | some r => some { w with
        st := (w.st.note (.aborted r.x r.kind)).onAborted r.x r.kind r.evId
        recs := w.recs.eraseIdx i }
  | .update i =>
    match w.recs[i]? with
    | none => none
    | some _ => some w

/-- Start of a run: the strategy object has been constructed. (ss.py:82-140.) -/
def Sys.create (cfg : Config P) (o : Oracle P) : Sys P :=
  { st := State.create cfg o, props := [], recs := [] }

/-- `CheckpointController.resume` (controller.py:72-77): the saved strategy is loaded and `resume`d;
the outstanding proposals and records of the old process are gone. -/
def Sys.resumed (w : Sys P) : Sys P :=
  { st := (w.st.note (.crashed w.inflight)).resume, props := [], recs := [] }

/-- Reachable by any finite sequence of events, where in addition a snapshot may be taken and resumed in any
state, any number of times. (ss.py:82-439, controller.py:65-131.) -/
inductive Reach (cfg : Config P) : Sys P → Prop
  | create (o : Oracle P) : Reach cfg (Sys.create cfg o)
  | step {w w' : Sys P} (op : Op P) : Reach cfg w → w.step cfg op = some w' → Reach cfg w'
  | resume {w : Sys P} : Reach cfg w → Reach cfg w.resumed

end Verif.Strategy
