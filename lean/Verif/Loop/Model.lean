import Verif.Strategy.Model
import Verif.Strategy.Perturb
import Verif.Cand.Acq
import Verif.Design.Model

/-!
# The closed loop: strategy, experimental design and auxiliary problem together

`Verif.Strategy.Model` leaves open where the points of the design and the adaptive points come from (`Oracle`).  Here they
are the results of the modelled experimental designs (`Verif.Design`) and of the modelled candidate methods and
acquisition functions (`Verif.Cand`), called with the arguments that `generate_evals` passes.

Sources: /repo/pySOT/strategy/surrogate_strategy.py (`ss.py`), srbf_strategy.py, dycors_strategy.py, ei_strategy.py,
lcb_strategy.py.  Left arbitrary: the predictions of the surrogate and all random draws (within their documented ranges).
Values of evaluations are rationals, coordinates are reals.
-/

namespace Verif.Loop

open Verif.Num Verif.Utils Verif.Cand Verif.Design Verif.Strategy

/-- The strategy class and its own constructor arguments: `EIStrategy(ei_tol, dtol)` (ei_strategy.py:67-84),
`LCBStrategy(kappa, dtol, lcb_tol)` (lcb_strategy.py:66-86); `none` is the default `None` of the tolerance. -/
inductive Method where
  | srbf
  | dycors
  | ei (tol : Option ℝ) (dtol : ℝ)
  | lcb (kappa : ℝ) (tol : Option ℝ) (dtol : ℝ)

/-- A strategy on a problem.
(The arguments of srbf_strategy.py:85-134, dycors_strategy.py:53-82, ei_strategy.py:66-96, lcb_strategy.py:64-96.) -/
structure Setup (d : ℕ) where
  prob : OptProb d
  cfg : Config (Pt d)
  method : Method

variable {d : ℕ}

/-- `exp_design.generate_points(lb, ub, int_var)` (ss.py:230) returned these `n` rows: symmetric Latin hypercube, Latin
hypercube or two-factorial design, for some outcome of the random draws. -/
def DesignOf (p : OptProb d) (n : ℕ) (D : List (Pt d)) : Prop :=
  (2 ≤ n ∧ ∃ rnd X, slhdPoints n d rnd (some (p.lb, p.ub)) p.intVar = some X ∧ D = List.ofFn X) ∨
  (∃ rnd X, (∀ r ∈ rnd, ∀ i j, 0 ≤ r.1 i j ∧ r.1 i j < 1) ∧
    lhdPoints n d rnd (some (p.lb, p.ub)) p.intVar = some X ∧ D = List.ofFn X) ∨
  (twoFactorialInit d = some n ∧ D = twoFactorialPoints d (some (p.lb, p.ub)) p.intVar)

/-- `self.fX.max() - self.fX.min()` (ei_strategy.py:106, lcb_strategy.py:106). -/
def spread (fX : List Val) : Val := fX.foldl max (fX.headD 0) - fX.foldl min (fX.headD 0)

/-- `self.fX.min()` (lcb_strategy.py:107). -/
def lowest (fX : List Val) : Val := fX.foldl min (fX.headD 0)

/-- `ei_tol` resp. `lcb_tol` (ei_strategy.py:104-106, lcb_strategy.py:104-106). -/
noncomputable def tolOf (tol : Option ℝ) (fX : List Val) : ℝ := tol.getD (1e-6 * ((spread fX : ℚ) : ℝ))

/-- `generate_evals(num_pts=n)` in state `s` gets `g` from the auxiliary problem (`none` is `None`), for some surrogate and
some outcome of the random draws: srbf_strategy.py:170-183, dycors_strategy.py:84-104, ei_strategy.py:102-117,
lcb_strategy.py:102-119.  `self._X` must not be empty, otherwise `np.argmin`/`np.min` raises.  `dtol` is not passed by
SRBF and DYCORS, so that the default `1e-3` of `candidate_srbf`/`candidate_dycors` is used.  `prob` is a real number that compares
with the uniform draws as `prob_perturb`, which may be NaN or infinite. -/
def GenOf (L : Setup d) (s : State (Pt d)) (n : ℕ) (g : Option (List (Pt d))) : Prop :=
  ∃ (k : ℕ) (X : Fin (k + 1) → Pt d) (fX : Fin (k + 1) → ℝ),
    s.curX = List.ofFn X ∧ s.curFX.map (fun v => ((v : ℚ) : ℝ)) = List.ofFn fX ∧
    match L.method with
    | .srbf => ∃ sc z ws next, L.cfg.srbf = some sc ∧ s.srbf = some z ∧
        getWeights sc.weights z.nextWeight n = some (ws, next) ∧
        ∃ (m : ℕ) (pred : Pt d → ℝ) (draws : Fin (m + 1) → Pt d),
          (∀ j, ∀ i ∈ List.finRange d,
            DrawOk L.prob (xbestOf X fX) (scalefactors L.prob ((z.radius : ℚ) : ℝ) (List.finRange d)) i (draws j i)) ∧
          g = some (candidateSrbf L.prob pred X fX (ws.map fun v => ((v : ℚ) : ℝ)) s.Xpend ((z.radius : ℚ) : ℝ)
            (List.finRange d) 1e-3 draws)
    | .dycors => ∃ sc z ws next, L.cfg.srbf = some sc ∧ s.srbf = some z ∧
        getWeights sc.weights z.nextWeight n = some (ws, next) ∧
        ∃ (m : ℕ) (pred : Pt d → ℝ) (u : Fin (m + 1) → ℕ → ℝ) (forced : Fin (m + 1) → ℕ) (draws : Fin (m + 1) → Pt d)
          (prob : ℝ) (res : List (Pt d)),
          (∀ v, 0 ≤ v → v < 1 → (v < prob ↔ (State.perturbProb L.cfg d s).gt v)) ∧ (∀ j c, 0 ≤ u j c ∧ u j c < 1) ∧
          (∀ j i, DrawOk L.prob (xbestOf X fX) (scalefactors L.prob ((z.radius : ℚ) : ℝ) (List.finRange d)) i (draws j i)) ∧
          candidateDycors L.prob pred X (ws.map fun v => ((v : ℚ) : ℝ)) prob s.Xpend ((z.radius : ℚ) : ℝ)
            (List.finRange d) 1e-3 (xbestOf X fX) u forced draws = some res ∧
          g = some res
    | .ei tol dtol => L.cfg.srbf = none ∧
        ∃ (h : ℕ) (mean std : Pt d → ℝ) (runs : List (GARun d h)),
          runs.length = n ∧ (∀ r ∈ runs, ∀ q i, 0 ≤ r.unit q i ∧ r.unit q i ≤ 1) ∧
          g = eiGa L.prob mean std (fX (argmin fX)) (X 0) (List.ofFn fun i : Fin k => X i.succ) s.Xpend dtol
            (tolOf tol s.fX) runs
    | .lcb kappa tol dtol => L.cfg.srbf = none ∧
        ∃ (h : ℕ) (mean std : Pt d → ℝ) (runs : List (GARun d h)),
          runs.length = n ∧ (∀ r ∈ runs, ∀ q i, 0 ≤ r.unit q i ∧ r.unit q i ≤ 1) ∧
          g = lcbGa L.prob mean std kappa (X 0) (List.ofFn fun i : Fin k => X i.succ) s.Xpend dtol
            (((lowest s.fX : ℚ) : ℝ) - tolOf tol s.fX) runs

/-- Will `propose_action` call `generate_evals` (ss.py:260-288)? -/
def wantsPoints (cfg : Config (Pt d)) (s : State (Pt d)) : Prop :=
  s.terminate = false ∧ s.numEvals + s.pendingEvals < cfg.maxEvals ∧ s.converged = false ∧ s.batchQueue = [] ∧
    (cfg.asynchronous = true ∨ s.pendingEvals = 0)

/-- Number of points asked for (ss.py:285-287). -/
def wanted (cfg : Config (Pt d)) : ℕ := if cfg.asynchronous then 1 else cfg.batchSize

/-- The answers of design and auxiliary problem as an oracle of the strategy model.
(ss.py:230, ei_strategy.py:108, lcb_strategy.py:109, srbf_strategy.py:173, dycors_strategy.py:93.) -/
def oracleOf (L : Setup d) (D : List (Pt d)) (g : Option (List (Pt d))) : Oracle (Pt d) where
  design i := D.getD i L.prob.lb
  pts i := (g.getD []).getD i L.prob.lb
  giveUp := g.isNone

/-- States of the closed loop: every interleaving of proposals, answers of the controller, completions with arbitrary
values, aborted evaluations and resumed snapshots, where all points are generated by the code. -/
inductive LoopReach (L : Setup d) : Sys (Pt d) → Prop
  | create (D : List (Pt d)) : DesignOf L.prob L.cfg.numPts D → LoopReach L (Sys.create L.cfg (oracleOf L D none))
  | propose {w w' : Sys (Pt d)} (D : List (Pt d)) (g : Option (List (Pt d))) : LoopReach L w →
      DesignOf L.prob L.cfg.numPts D → (wantsPoints L.cfg w.st → GenOf L w.st (wanted L.cfg) g) →
      (¬ wantsPoints L.cfg w.st → g = none) →
      w.step L.cfg (.propose (oracleOf L D g)) = some w' → LoopReach L w'
  | other {w w' : Sys (Pt d)} (op : Op (Pt d)) : LoopReach L w → (∀ o, op ≠ .propose o) →
      w.step L.cfg op = some w' → LoopReach L w'
  | resume {w : Sys (Pt d)} : LoopReach L w → LoopReach L w.resumed

end Verif.Loop
