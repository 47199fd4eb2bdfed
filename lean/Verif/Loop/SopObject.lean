import Verif.Loop.SopRun
import Verif.Loop.Object

/-!
# The closed loop of SOP with the surrogate object

As `Loop/Object.lean`, for `SOPStrategy`: the calls that the strategy makes on its surrogate are recorded, and the surrogate answers
according to them.  SOP never restarts (its `sample_adapt` never sets `converged`), so that `reset` is called only once.
-/

namespace Verif.Loop

open Verif.Num Verif.Utils Verif.Cand Verif.Design Verif.Strategy Verif.Sop

variable {d : ℕ}

/-- SOP with its environment, and the calls made on its surrogate object so far. (ss.py:82-140, sop.py:188-228.) -/
structure SopObjSys (d : ℕ) where
  sop : SopSys d
  calls : List (Surrogate.Op d)

/-- The strategy object has just been created. (sop.py:188-228, ss.py:82-140, 222-247.) -/
noncomputable def sopObjCreate (L : SopSetup d) (D : List (Pt d)) : SopObjSys d where
  sop := SopSys.create L.cfg (sopOracle L D [])
  calls := .reset :: (knownExtras L.base).map addKnown

open Classical in
/-- The calls on the surrogate made in one event: `propose_action` predicts if points are wanted (one prediction stands for all of
the candidate searches: each makes the same call of `_fit`, C48); a completed evaluation is added if it belongs to the current run.
(ss.py:282-288, 363-364, 428-429, sop.py:298-311.) -/
noncomputable def sopCallsOf (L : SopSetup d) (f : Pt d → Val) (w : SopSys d) : SEv d → List (Surrogate.Op d)
  | .propose _ => if wantsPoints L.base w.sys.st ∧ wanted L.base ≠ 0 then [.predict L.prob.lb] else []
  | .complete i => match w.sys.recs[i]? with
    | some r => if w.sys.st.evLast < r.evId then [addCall r.x (f r.x)] else []
    | none => []
  | _ => []

/-- One event; `none`: not possible, or an exception. (ss.py:249-439, sop.py:239-317.) -/
noncomputable def sopObjStep (L : SopSetup d) (K : Obj d) (f : Pt d → Val) (W : SopObjSys d) (e : SEv d) : Option (SopObjSys d) :=
  (sopLoopStep L (K W.calls) f W.sop e).map fun w' => ⟨w', W.calls ++ sopCallsOf L f W.sop e⟩

/-- Is the last event "terminate"? (Reads the ghost log.) -/
def saysTerminate (log : List (Event (Pt d))) : Bool :=
  match log.getLast? with
  | some .terminated => true
  | _ => false

/-- The serial loop of POAP (`SerialController.run`) with the object: ask, accept, evaluate, until "terminate" (flag `true`).
The list holds the random outcomes of the single rounds, which may depend on the state; `none`: an exception, or no proposal
although nothing is running. (ss.py:249-439, sop.py:239-317.) -/
noncomputable def sopObjSerial (L : SopSetup d) (K : Obj d) (f : Pt d → Val) :
    List (SopObjSys d → SopRnd d) → SopObjSys d → Option (SopObjSys d × Bool)
  | [], W => some (W, false)
  | r :: rs, W => (sopObjStep L K f W (.propose (r W))).bind fun W1 =>
      if saysTerminate W1.sop.sys.st.log then some (W1, true)
      else (sopObjStep L K f W1 (.accept 0)).bind fun W2 => (sopObjStep L K f W2 (.complete 0)).bind (sopObjSerial L K f rs)

end Verif.Loop
