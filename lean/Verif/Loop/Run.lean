import Verif.Loop.Model

/-!
# The closed loop as a function

`LoopReach` (Loop/Model.lean) says which states are possible.  Here the same loop is a function of the objective function, the
surrogate, the outcome of the random draws and the schedule (who is asked, which evaluation ends when, where the process is
killed and resumed), so that two runs with the same draws and the same schedule can be compared.  `Props/Units.lean` proves
that every such run is a run of `LoopReach`.
-/

namespace Verif.Loop

open Verif.Num Verif.Utils Verif.Cand Verif.Design Verif.Strategy

variable {d : ℕ}

/-- The surrogate as a function of the data it was given since the last `reset`: `predict` and `predict_std`, `none` if they
raise an exception (a surrogate that has no `predict_std` raises).  That a surrogate is such a function is C48 and C50.
(surrogate.py:42-98, gp.py:73-85.) -/
structure Surr (d : ℕ) where
  mean : List (Pt d × ℝ) → Option (Pt d → ℝ)
  std : List (Pt d × ℝ) → Option (Pt d → ℝ)

/-- The outcome of all random draws of one call of `propose_action`: the design that would be generated, the candidates and
masks of `candidate_srbf`/`candidate_dycors`, the runs of the genetic algorithm.
(Draws of ss.py:230 and candidate_srbf.py, candidate_dycors.py, candidate_uniform.py, ei_ga.py, lcb_ga.py.) -/
structure Rnd (d : ℕ) where
  design : List (Pt d)
  m : ℕ
  draws : Fin (m + 1) → Pt d
  u : Fin (m + 1) → ℕ → ℝ
  forced : Fin (m + 1) → ℕ
  h : ℕ
  runs : List (GARun d h)

/-- The data of the surrogate as real numbers. (surrogate.py:50-75.) -/
noncomputable def surrData (s : State (Pt d)) : List (Pt d × ℝ) := s.surr.map fun e => (e.1, ((e.2 : ℚ) : ℝ))

/-- A number that compares with uniform draws as the given float (`u < prob_perturb`, candidate_dycors.py:76). -/
noncomputable def probOf : NF → ℝ
  | .fin r => r
  | .pinf => 1
  | .ninf => 0
  | .nan => 0

/-- `generate_evals(num_pts=n)` up to the call of the auxiliary problem, for one outcome of the random draws
(srbf_strategy.py:170-183, dycors_strategy.py:84-104, ei_strategy.py:102-117, lcb_strategy.py:102-119); `x0 :: xs` and
`f0 :: fs` are `self._X` and `self._fX`.  Outer `none`: an exception; inner `none`: the auxiliary problem returned `None`. -/
noncomputable def genWith (L : Setup d) (S : Surr d) (s : State (Pt d)) (n : ℕ) (r : Rnd d) (x0 : Pt d) (xs : List (Pt d))
    (fX : Fin (xs.length + 1) → ℝ) : Option (Option (List (Pt d))) :=
  let X : Fin (xs.length + 1) → Pt d := fun i => (x0 :: xs)[i]
  match L.method with
  | .srbf =>
    match L.cfg.srbf, s.srbf, S.mean (surrData s) with
    | some sc, some z, some pred =>
      (getWeights sc.weights z.nextWeight n).map fun w =>
        some (candidateSrbf L.prob pred X fX (w.1.map fun v => ((v : ℚ) : ℝ)) s.Xpend ((z.radius : ℚ) : ℝ)
          (List.finRange d) 1e-3 r.draws)
    | _, _, _ => none
  | .dycors =>
    match L.cfg.srbf, s.srbf, S.mean (surrData s) with
    | some sc, some z, some pred =>
      (getWeights sc.weights z.nextWeight n).bind fun w =>
        (candidateDycors L.prob pred X (w.1.map fun v => ((v : ℚ) : ℝ)) (probOf (State.perturbProb L.cfg d s)) s.Xpend
          ((z.radius : ℚ) : ℝ) (List.finRange d) 1e-3 (xbestOf X fX) r.u r.forced r.draws).map some
    | _, _, _ => none
  | .ei tol dtol =>
    match S.mean (surrData s), S.std (surrData s) with
    | some mean, some std =>
      some (eiGa L.prob mean std (fX (argmin fX)) x0 xs s.Xpend dtol (tolOf tol s.fX) r.runs)
    | _, _ => none
  | .lcb kappa tol dtol =>
    match S.mean (surrData s), S.std (surrData s) with
    | some mean, some std =>
      some (lcbGa L.prob mean std kappa x0 xs s.Xpend dtol (((lowest s.fX : ℚ) : ℝ) - tolOf tol s.fX) r.runs)
    | _, _ => none

/-- `generate_evals` in state `s`; an empty `self._X` or `self.fX` makes `np.argmin`/`min` raise.  (The lengths of `_X` and
`_fX` always agree, C13.)
(srbf_strategy.py:170-186, dycors_strategy.py:84-107, ei_strategy.py:102-123, lcb_strategy.py:102-125). -/
noncomputable def gen (L : Setup d) (S : Surr d) (s : State (Pt d)) (n : ℕ) (r : Rnd d) : Option (Option (List (Pt d))) :=
  match s.curX with
  | [] => none
  | x0 :: xs =>
    if h : s.curFX.length = xs.length + 1 ∧ s.fX ≠ [] then
      genWith L S s n r x0 xs fun i => ((s.curFX[i]'(by rw [h.1]; exact i.2) : ℚ) : ℝ)
    else none

open Classical in
/-- What the auxiliary problem answers in a call of `propose_action` (it is asked only if points are wanted).
(ss.py:282-288.) -/
noncomputable def answer (L : Setup d) (S : Surr d) (s : State (Pt d)) (r : Rnd d) : Option (Option (List (Pt d))) :=
  if wantsPoints L.cfg s then gen L S s (wanted L.cfg) r else some none

/-- The schedule: the events of a run without the values. (Calls of ss.py:249-439 by POAP.) -/
inductive Ev (d : ℕ) where
  | propose (r : Rnd d)
  | accept (i : ℕ)
  | reject (i : ℕ)
  /-- the `i`-th running evaluation is completed -/
  | complete (i : ℕ)
  | abort (i : ℕ)
  | update (i : ℕ)
  /-- the process is killed, and the run is continued from the snapshot -/
  | resume

/-- One event of a run with the objective function `f`; `none`: not possible, or an exception. (ss.py:249-439.) -/
noncomputable def loopStep (L : Setup d) (S : Surr d) (f : Pt d → Val) (w : Sys (Pt d)) : Ev d → Option (Sys (Pt d))
  | .propose r => (answer L S w.st r).bind fun g => w.step L.cfg (.propose (oracleOf L r.design g))
  | .accept i => w.step L.cfg (.accept i)
  | .reject i => w.step L.cfg (.reject i)
  | .complete i => w.recs[i]?.bind fun r => w.step L.cfg (.complete i (f r.x))
  | .abort i => w.step L.cfg (.abort i)
  | .update i => w.step L.cfg (.update i)
  | .resume => some w.resumed

/-- The events one after the other. (ss.py:249-439.) -/
noncomputable def loopSteps (L : Setup d) (S : Surr d) (f : Pt d → Val) : Sys (Pt d) → List (Ev d) → Option (Sys (Pt d))
  | w, [] => some w
  | w, e :: es => (loopStep L S f w e).bind fun w' => loopSteps L S f w' es

/-- A run: the strategy is created with the design `D`, then the events happen. (ss.py:82-140, 249-439.) -/
noncomputable def loopRun (L : Setup d) (S : Surr d) (f : Pt d → Val) (D : List (Pt d)) (es : List (Ev d)) :
    Option (Sys (Pt d)) :=
  loopSteps L S f (Sys.create L.cfg (oracleOf L D none)) es

end Verif.Loop
