import Verif.Loop.Run
import Verif.Surrogate.GP

/-!
# The closed loop with the surrogate object

In `Loop/Run.lean` the surrogate is a function of its data.  Here it is the object of the program: the calls that the strategy
makes on it (`reset`, `add_points`, predictions) are recorded, and what a prediction gives, or whether it raises, is what the
object answers after these calls.
-/

namespace Verif.Loop

open Verif.Num Verif.Utils Verif.Cand Verif.Design Verif.Strategy

variable {d : ℕ}

/-- The strategy with its environment, and the calls made on its surrogate object so far. (ss.py:82-140.) -/
structure ObjSys (d : ℕ) where
  sys : Sys (Pt d)
  calls : List (Surrogate.Op d)

/-- A surrogate object: what it answers after a sequence of calls. (surrogate.py:7-98.) -/
abbrev Obj (d : ℕ) := List (Surrogate.Op d) → Surr d

open Classical in
/-- The object `RBFInterpolant` with parameters `p` (rbf.py:67-94, 96-186): `predict` raises for all points or for none, since
only `_fit` can raise; it has no `predict_std`. -/
noncomputable def rbfObj (p : Surrogate.Par d) : Obj d := fun calls =>
  { mean := fun _ =>
      if h : ∀ x, (Surrogate.predict p (Surrogate.rrun p calls) x).2.isSome = true then
        some fun x => (Surrogate.predict p (Surrogate.rrun p calls) x).2.get (h x)
      else none
    std := fun _ => none }

open Classical in
/-- The object `GPRegressor` with the default kernel (gp.py:38-85): without data the fit raises, otherwise `predict` and
`predict_std` give numbers. -/
noncomputable def gpObj (lb ub : Pt d) (trans : List ℝ → List ℝ)
    (hyp : List (List (Pt d) × List ℝ) → Surrogate.Hyper d) : Obj d := fun calls =>
  { mean := fun _ =>
      if h : (Surrogate.gpRun lb ub trans hyp calls).Xu ≠ [] ∧ ∀ x, (Surrogate.gpPredict lb ub trans hyp calls x).isSome = true then
        some fun x => (Surrogate.gpPredict lb ub trans hyp calls x).get (h.2 x)
      else none
    std := fun _ =>
      if h : (Surrogate.gpRun lb ub trans hyp calls).Xu ≠ [] ∧ ∀ x, (Surrogate.gpPredictStd lb ub trans hyp calls x).isSome = true then
        some fun x => (Surrogate.gpPredictStd lb ub trans hyp calls x).get (h.2 x)
      else none }

/-- `surrogate.add_points(np.copy(record.params[0]), record.value)`; the value is a float. (ss.py:363-364, 428-429.) -/
noncomputable def addCall (x : Pt d) (v : Val) : Surrogate.Op d := .add (.vec (List.ofFn x)) (.float ((v : ℚ) : ℝ))

/-- `surrogate.add_points(x, self.extra_vals[i])`; the value is a row of an array with one column. (ss.py:244-247.) -/
noncomputable def addKnown (e : Pt d × Val) : Surrogate.Op d := .add (.vec (List.ofFn e.1)) (.arr1 [((e.2 : ℚ) : ℝ)])

/-- The calls in `sample_initial`; the extra points are used only if nothing was evaluated. (ss.py:222-247.) -/
noncomputable def sampleCalls (cfg : Config (Pt d)) (s : State (Pt d)) : List (Surrogate.Op d) :=
  .reset :: if s.X = [] then (knownExtras cfg).map addKnown else []

/-- Was there a restart between two states of the log? (Reads the ghost log; ss.py:198-211.) -/
def restartedSince (s s' : State (Pt d)) : Prop := ∃ q, Event.restart q ∈ s'.log.drop s.log.length

/-- The strategy object has just been created. (ss.py:82-140.) -/
noncomputable def objCreate (L : Setup d) (D : List (Pt d)) : ObjSys d where
  sys := Sys.create L.cfg (oracleOf L D none)
  calls := .reset :: (knownExtras L.cfg).map addKnown

open Classical in
/-- The calls on the surrogate made in one event, where `s` and `s'` are the states before and after it: `propose_action`
predicts if points are wanted (one prediction stands for all of the auxiliary problem: each prediction makes the same call of `_fit`,
C48) and resets at a restart; a completed evaluation is added if it belongs to the current run.
(ss.py:198-247, 282-288, 363-364, 428-429.) -/
noncomputable def callsOf (L : Setup d) (f : Pt d → Val) (w w' : Sys (Pt d)) : Ev d → List (Surrogate.Op d)
  | .propose _ => (if wantsPoints L.cfg w.st then [.predict L.prob.lb] else []) ++
      (if restartedSince w.st w'.st then sampleCalls L.cfg w.st else [])
  | .complete i => match w.recs[i]? with
    | some r => if w.st.evLast < r.evId then [addCall r.x (f r.x)] else []
    | none => []
  | _ => []

/-- One event; `none`: not possible, or an exception. (ss.py:249-439.) -/
noncomputable def objStep (L : Setup d) (K : Obj d) (f : Pt d → Val) (W : ObjSys d) (e : Ev d) : Option (ObjSys d) :=
  (loopStep L (K W.calls) f W.sys e).map fun w' => ⟨w', W.calls ++ callsOf L f W.sys w' e⟩

/-- The serial loop of POAP (`SerialController.run`) with the object: ask, accept, evaluate, until "terminate" (flag `true`).
The list holds the random outcomes of the single rounds, which may depend on the state; `none`: an exception, or no proposal
although nothing is running. (ss.py:249-439.) -/
noncomputable def objSerial (L : Setup d) (K : Obj d) (f : Pt d → Val) :
    List (State (Pt d) → Rnd d) → ObjSys d → Option (ObjSys d × Bool)
  | [], W => some (W, false)
  | r :: rs, W => (objStep L K f W (.propose (r W.sys.st))).bind fun W1 =>
      match W1.sys.st.log.getLast? with
      | some .terminated => some (W1, true)
      | _ => (objStep L K f W1 (.accept 0)).bind fun W2 => (objStep L K f W2 (.complete 0)).bind (objSerial L K f rs)

end Verif.Loop
