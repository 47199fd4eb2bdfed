import Verif.Loop.SopModel
import Verif.Loop.Run

/-!
# The closed loop of SOP as a function

As `Loop/Run.lean`: the loop of `Loop/SopModel.lean` as a function of the objective function, the surrogate, the outcome of the
random draws and the schedule.  `Props/SopUnits.lean` proves that every such run is a run of `SopLoopReach`.
-/

namespace Verif.Loop

open Verif.Num Verif.Utils Verif.Cand Verif.Design Verif.Strategy Verif.Sop

variable {d : ℕ}

/-- The outcome of the random draws of one call of `candidate_dycors`. (candidate_dycors.py:72-86.) -/
structure CandRnd (d : ℕ) where
  m : ℕ
  draws : Fin (m + 1) → Pt d
  u : Fin (m + 1) → ℕ → ℝ
  forced : Fin (m + 1) → ℕ

/-- The outcome of all random draws of one call of `propose_action`: the design that would be generated, and the draws of each
candidate search. (ss.py:230, sop.py:286-304.) -/
structure SopRnd (d : ℕ) where
  design : List (Pt d)
  cands : ℕ → CandRnd d

/-- One candidate search around the center `xc` with radius `sigma` (sop.py:298-311), for one outcome of the random draws.
`none`: an exception (no evaluated points, or the surrogate raises). -/
noncomputable def sopPoint (L : SopSetup d) (S : Surr d) (s : State (Pt d)) (xc : Pt d) (sigma : ℚ) (r : CandRnd d) :
    Option (Pt d) :=
  match s.curX with
  | [] => none
  | x0 :: xs => (S.mean (surrData s)).bind fun pred =>
      (candidateDycors L.prob pred (fun i : Fin (xs.length + 1) => (x0 :: xs)[i]) [1] (probOf (State.perturbProb L.base d s))
        s.Xpend ((sigma : ℚ) : ℝ) (List.finRange d) 1e-3 xc r.u r.forced r.draws).bind List.head?

/-- The loop over the new points (sop.py:289-313). -/
noncomputable def sopPoints (L : SopSetup d) (S : Surr d) (s : State (Pt d)) (evals : List (SopRec d)) :
    List (Center d) → List (CandRnd d) → Option (List (Pt d))
  | _, [] => some []
  | cs, r :: rs =>
    (cs.find? fun ce => ce.newPoint.isNone).bind fun ce =>
    (evals[ce.index]?).bind fun rec =>
    (sopPoint L S s ce.xc rec.sigma r).bind fun x =>
    (assignPoint cs x).bind fun cs' =>
    (sopPoints L S s evals cs' rs).map fun xs => x :: xs

/-- `generate_evals(num_pts=n)` (sop.py:271-317); `none`: an exception. -/
noncomputable def sopGen (L : SopSetup d) (S : Surr d) (w : SopSys d) (n : ℕ) (r : SopRnd d) : Option (List (Pt d)) :=
  (w.sop.firstRanks L.cfg w.sys.st.numEvals.toNat).bind fun z1 =>
  (z1.updateCenterList L.cfg w.sys.st.numEvals.toNat).bind fun z2 =>
    sopPoints L S w.sys.st z2.evals z2.centers ((List.range n).map r.cands)

open Classical in
/-- The points found in a call of `propose_action` (they are sought only if points are wanted). (sop.py:271-317.) -/
noncomputable def sopAnswer (L : SopSetup d) (S : Surr d) (w : SopSys d) (r : SopRnd d) : Option (List (Pt d)) :=
  if wantsPoints L.base w.sys.st then sopGen L S w (wanted L.base) r else some []

/-- The schedule: the events of a run without the values. (Calls of ss.py:249-439 by POAP.) -/
inductive SEv (d : ℕ) where
  | propose (r : SopRnd d)
  | accept (i : ℕ)
  | reject (i : ℕ)
  /-- the `i`-th running evaluation is completed -/
  | complete (i : ℕ)
  | abort (i : ℕ)
  | update (i : ℕ)
  /-- the process is killed, and the run is continued from the snapshot -/
  | resume

/-- One event of a run with the objective function `f`; `none`: not possible, or an exception.
(ss.py:249-439, sop.py:239-317.) -/
noncomputable def sopLoopStep (L : SopSetup d) (S : Surr d) (f : Pt d → Val) (w : SopSys d) : SEv d → Option (SopSys d)
  | .propose r => (sopAnswer L S w r).bind fun pts => w.step L.cfg (.propose (sopOracle L r.design pts))
  | .accept i => w.step L.cfg (.accept i)
  | .reject i => w.step L.cfg (.reject i)
  | .complete i => w.sys.recs[i]?.bind fun r => w.step L.cfg (.complete i (f r.x))
  | .abort i => w.step L.cfg (.abort i)
  | .update i => w.step L.cfg (.update i)
  | .resume => some ⟨w.sys.resumed, w.sop⟩

/-- The events one after the other. (ss.py:249-439, sop.py:239-317.) -/
noncomputable def sopLoopSteps (L : SopSetup d) (S : Surr d) (f : Pt d → Val) : SopSys d → List (SEv d) → Option (SopSys d)
  | w, [] => some w
  | w, e :: es => (sopLoopStep L S f w e).bind fun w' => sopLoopSteps L S f w' es

/-- A run: the strategy is created with the design `D`, then the events happen. (sop.py:188-228, ss.py:249-439.) -/
noncomputable def sopLoopRun (L : SopSetup d) (S : Surr d) (f : Pt d → Val) (D : List (Pt d)) (es : List (SEv d)) :
    Option (SopSys d) :=
  sopLoopSteps L S f (SopSys.create L.cfg (sopOracle L D [])) es

end Verif.Loop
