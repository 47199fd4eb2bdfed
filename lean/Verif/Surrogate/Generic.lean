import Verif.Surrogate.RbfProofs

/-!
# Histories of a surrogate, and the surrogates that wrap an external model

Source: /repo/pySOT/surrogate/{gp,mars,poly}.py (`_fit`), rbf.py:89-95 (`reset`), output_transformations/*.py.
-/

namespace Verif.Surrogate

open Verif.Num Verif.Utils

variable {d : ℕ} {M : Type}

/-- Calls on a surrogate. (surrogate.py:42-75.) -/
inductive Op (d : ℕ) where
  | add (xx : XIn) (fx : FIn)
  | reset
  | predict (x : Pt d)

/-- One call; `clear` and `fit` are `reset` and `_fit` of the concrete class. -/
noncomputable def step (lb ub : Pt d) (clear : M → M) (fit : St d M → Res (St d M)) (s : St d M) : Op d → St d M
  | .add xx fx => (addPoints lb ub s xx fx).st
  | .reset => reset clear s
  | .predict _ => (fit s).st

/-- A sequence of calls. (surrogate.py:42-75.) -/
noncomputable def run (lb ub : Pt d) (clear : M → M) (fit : St d M → Res (St d M)) (s : St d M) (ops : List (Op d)) :
    St d M :=
  ops.foldl (step lb ub clear fit) s

/-- A sequence of calls on a new RBF interpolant (rbf.py:89-95: `reset` forgets the coefficients). -/
noncomputable def rrun (p : Par d) (ops : List (Op d)) : RSt d := run p.lb p.ub (fun _ => none) (fit p) (rinit d) ops

/-- `GPRegressor`, `PolyRegressor`, `MARSInterpolant`: what is stored is the fitted model and, as a ghost, the list of all
data that were ever passed to its `fit`, latest first. (gp.py:38-58, poly.py:35-44, mars.py:48-66.) -/
structure Ext (d : ℕ) (Mod : Type) where
  mod : Option Mod
  fits : List (List (Pt d) × List ℝ)

/-- `_fit` (gp.py:51-58, poly.py:39-44, mars.py:59-66).  `ext` is the fit of the wrapped model on the unit-box points and
the transformed values (for the GP: including the standardization); it may depend on the earlier fits (random restarts). -/
noncomputable def extFit {Mod : Type} (trans : List ℝ → List ℝ) (ext : List (List (Pt d) × List ℝ) → Mod)
    (s : St d (Ext d Mod)) : Res (St d (Ext d Mod)) :=
  if s.updated then ⟨s, false⟩
  else
    let h := (s.Xu, trans s.fX) :: s.model.fits
    ⟨{ s with model := { mod := some (ext h), fits := h }, updated := true }, false⟩

/-- A new wrapper. (gp.py:38-49, poly.py:35-37, mars.py:48-57.) -/
def extInit (d : ℕ) (Mod : Type) : St d (Ext d Mod) :=
  { numPts := 0, X := [], Xu := [], fX := [], updated := false, model := ⟨none, []⟩ }

/-- A sequence of calls on a new wrapper; `reset` is that of the base class. -/
noncomputable def extRun {Mod : Type} (lb ub : Pt d) (trans : List ℝ → List ℝ) (ext : List (List (Pt d) × List ℝ) → Mod)
    (ops : List (Op d)) : St d (Ext d Mod) :=
  run lb ub id (extFit trans ext) (extInit d Mod) ops

/-! ## Standardization of the GP (gp.py:55-56, 71, 85) -/

/-- `np.mean`. (gp.py:55.) -/
noncomputable def mean (f : List ℝ) : ℝ := f.sum / f.length

/-- `max([np.std(fX), 1e-6])`. (gp.py:55.) -/
noncomputable def gpSigma (f : List ℝ) : ℝ :=
  max (Real.sqrt ((f.map fun v => (v - mean f) ^ 2).sum / f.length)) (1 / 10 ^ 6)

/-- The values passed to the wrapped regressor (gp.py:56). -/
noncomputable def gpScale (f : List ℝ) : List ℝ := f.map fun v => (v - mean f) / gpSigma f

/-- `predict` from the mean of the wrapped regressor (gp.py:71). -/
noncomputable def gpUnscale (f : List ℝ) (m : ℝ) : ℝ := mean f + gpSigma f * m

/-! ## Output transformations -/

/-- `identity` (output_transformations/identity.py). -/
def identityT (x : List ℝ) : List ℝ := x

/-- `np.median`: the middle element of the sorted values, the mean of the two middle ones for even length.
(median_capping.py:14.) -/
noncomputable def median (x : List ℝ) : ℝ :=
  let s := x.insertionSort (· ≤ ·)
  if x.length % 2 = 1 then s.getD (x.length / 2) 0 else (s.getD (x.length / 2 - 1) 0 + s.getD (x.length / 2) 0) / 2

open Classical in
/-- `median_capping` (output_transformations/median_capping.py:4-15). -/
noncomputable def medianCapping (x : List ℝ) : List ℝ :=
  x.map fun v => if v > median x then median x else v

end Verif.Surrogate
