import Verif.Strategy.Inv8

/-!
# Model of checkpointing

Sources: /repo/pySOT/strategy/surrogate_strategy.py:166-191 (`save`, `resume`; cited `ss.py`) and
/repo/pySOT/controller/controller.py (cited `ctl.py`).
-/

namespace Verif.Checkpoint

/-! ## The file system during `save` -/

/-- Path names, as the strings given to `open` and `os.rename`. (ss.py:177-180.) -/
abbrev Path := List Char

/-- Files with their content, and existing directories.  Only process crashes are modelled: what was written stays
written (no power failure; the code does not call `fsync`). (Environment of ss.py:177-180 and controller.py:71-74, 129.) -/
structure FS where
  file : Path → Option (List UInt8)
  dir : Path → Bool

/-- The directory part of a path: everything up to the last separator. (Environment of ss.py:178-180.) -/
def dirname (p : Path) : Path := (p.reverse.dropWhile fun c => c ≠ '/').reverse

/-- Elementary operations of `save` on the file system. (ss.py:178-180.) -/
inductive FsOp where
  /-- `open(p, "wb")`: creates or truncates -/
  | openW (p : Path)
  /-- one write of `dill.dump` (or of the final flush at `close`) -/
  | write (p : Path) (bytes : List UInt8)
  /-- `os.rename(p, q)`: atomic, replaces `q` -/
  | rename (p q : Path)
  deriving DecidableEq

/-- Effect of an operation; `none` is an `OSError`. (ss.py:178-180.) -/
def FsOp.run : FsOp → FS → Option FS
  | .openW p, fs =>
    if fs.dir (dirname p) then some { fs with file := fun x => if x = p then some [] else fs.file x } else none
  | .write p b, fs =>
    match fs.file p with
    | none => none
    | some c => some { fs with file := fun x => if x = p then some (c ++ b) else fs.file x }
  | .rename p q, fs =>
    match fs.file p with
    | none => none
    | some c =>
      if fs.dir (dirname q) then
        some { fs with file := fun x => if x = q then some c else if x = p then none else fs.file x }
      else none

/-- Executes the operations until one fails (the exception leaves `save`); the Boolean tells whether all succeeded.
(ss.py:177-180.) -/
def runOps : List FsOp → FS → FS × Bool
  | [], fs => (fs, true)
  | op :: ops, fs => match op.run fs with
    | none => (fs, false)
    | some fs' => runOps ops fs'

/-- `temp_fname = "temp_" + fname` (ss.py:177). -/
def tempName (fname : Path) : Path := ['t', 'e', 'm', 'p', '_'] ++ fname

/-- `save` (ss.py:177-180), where `dill.dump` writes the snapshot in the given chunks. -/
def saveOps (fname : Path) (chunks : List (List UInt8)) : List FsOp :=
  .openW (tempName fname) :: chunks.map (.write (tempName fname)) ++ [.rename (tempName fname) fname]

/-- `save` interrupted after `n` operations (process crash, or an exception of `dill.dump`). (ss.py:177-180.) -/
def saveCrashed (fname : Path) (chunks : List (List UInt8)) (n : Nat) (fs : FS) : FS :=
  (runOps ((saveOps fname chunks).take n) fs).1

/-- Complete call of `save`. (ss.py:177-180.) -/
def save (fname : Path) (chunks : List (List UInt8)) (fs : FS) : FS × Bool := runOps (saveOps fname chunks) fs

/-! ## The checkpoint controller -/

open Verif.Strategy Verif.Spec

variable {P : Type} [DecidableEq P]

/-- A running process (if any) and the checkpoint file (if any).  The file holds the strategy; the proposals and
records in flight at the time of the snapshot, `total` and `resumes` are ghost. (controller.py:38-43, 61-63.) -/
structure World (P : Type) where
  proc : Option (Sys P)
  disk : Option (Sys P)
  /-- evaluations completed in all processes since the first start -/
  total : Nat
  /-- successful calls of `resume` -/
  resumes : Nat

/-- Events: start, resume, crash, and the events of the running process. -/
inductive WOp (P : Type) where
  /-- `CheckpointController.run` with a new strategy -/
  | run (o : Oracle P)
  /-- `CheckpointController.resume` -/
  | resume
  | crash
  | ev (op : Op P)

/-- Result of an event: refused with `IOError`, or the new world. (controller.py:71-72, 129-130.) -/
inductive Res (P : Type) where
  | ioError
  | ok (W : World P)

/-- Does the event finish an evaluation (completed, killed or cancelled)?  Exactly then `on_update` saves
(ctl.py:80-115). -/
def Op.finishes : Op P → Bool
  | .complete _ _ => true
  | .abort _ => true
  | _ => false

/-- Completed evaluations counted by the event. (controller.py:80-99.) -/
def Op.completes : Op P → Nat
  | .complete _ _ => 1
  | _ => 0

/-- Does this call of `propose_action` propose to terminate? (ss.py:267-269, controller.py:117-119). -/
def terminates (cfg : Config P) (w : Sys P) : Op P → Bool
  | .propose o => match w.st.proposeAction cfg o with
    | some (.terminate, _) => true
    | _ => false
  | _ => false

/-- One event.  `first` tells whether the callback of the checkpoint controller runs before the one of the strategy
(POAP calls the callbacks in the order in which they were added; `_add_on_update`, ctl.py:45-51, is called when the
record is created, the strategy adds its own when the proposal is accepted).  `save` is atomic here (see `C18_atomic`).
Outer `none`: the event is not possible. -/
def World.step (first : Bool) (cfg : Config P) (W : World P) : WOp P → Option (Res P)
  | .run o => match W.proc with
    | some _ => none
    | none => match W.disk with
      | some _ => some .ioError                                   -- ctl.py:129-130
      | none => some (.ok { W with proc := some (Sys.create cfg o) })
  | .resume => match W.proc with
    | some _ => none
    | none => match W.disk with
      | none => some .ioError                                     -- ctl.py:71-72
      | some d => some (.ok { W with proc := some d.resumed, resumes := W.resumes + 1 })  -- ctl.py:73-77
  | .crash => match W.proc with
    | none => none
    | some _ => some (.ok { W with proc := none })
  | .ev op => match W.proc with
    | none => none
    | some w => match w.step cfg op with
      | none => none
      | some w' =>
        if Op.finishes op then
          some (.ok { W with
            proc := some w'
            disk := some (if first then w else w')
            total := W.total + Op.completes op })
        else if terminates cfg w op then
          some (.ok { W with proc := none, disk := some w' })   -- on_terminate, ctl.py:117-119
        else some (.ok { W with proc := some w' })

/-- All worlds that can arise from an empty directory. -/
inductive WReach (first : Bool) (cfg : Config P) : World P → Prop
  | init : WReach first cfg { proc := none, disk := none, total := 0, resumes := 0 }
  | step {W W' : World P} (op : WOp P) : WReach first cfg W → W.step first cfg op = some (.ok W') →
    WReach first cfg W'

end Verif.Checkpoint
