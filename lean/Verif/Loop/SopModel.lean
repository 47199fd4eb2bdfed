import Verif.Sop.Model
import Verif.Loop.Model

/-!
# The closed loop for SOP

As `Verif/Loop/Model.lean`: the points of the design and the adaptive points are the results of the modelled designs and of
the modelled `candidate_dycors`, called with the arguments that `SOPStrategy.generate_evals` passes.
Source: /repo/pySOT/strategy/sop_strategy.py (`sop.py`), surrogate_strategy.py (`ss.py`).
-/

namespace Verif.Loop

open Verif.Num Verif.Utils Verif.Cand Verif.Design Verif.Strategy Verif.Sop

variable {d : ℕ}

/-- SOP on a problem (sop.py:188-228). -/
structure SopSetup (d : ℕ) where
  prob : OptProb d
  base : Config (Pt d)
  ncenters : ℕ

/-- The arguments of the model of SOP; the unit box is that of the problem (sop.py:376-378). -/
def SopSetup.cfg (L : SopSetup d) : Cfg d := ⟨L.base, L.prob.lb, L.prob.ub, L.ncenters⟩

/-- One call of `candidate_dycors` around a center `xc` with radius `sigma` (sop.py:289-311), for some surrogate and some
outcome of the random draws: one point, weight 1, default `dtol`.  `prob` is a real number that compares with the uniform
draws as `prob_perturb` (sop.py:279-284, the formula of DYCORS), which may be NaN or infinite.  `self._X` must not be
empty. -/
def SopPointOf (L : SopSetup d) (s : State (Pt d)) (xc : Pt d) (sigma : ℚ) (x : Pt d) : Prop :=
  ∃ (k : ℕ) (X : Fin (k + 1) → Pt d) (m : ℕ) (pred : Pt d → ℝ) (u : Fin (m + 1) → ℕ → ℝ) (forced : Fin (m + 1) → ℕ)
    (draws : Fin (m + 1) → Pt d) (prob : ℝ),
    s.curX = List.ofFn X ∧
    (∀ v, 0 ≤ v → v < 1 → (v < prob ↔ (State.perturbProb L.base d s).gt v)) ∧ (∀ j c, 0 ≤ u j c ∧ u j c < 1) ∧
    (∀ j i, DrawOk L.prob xc (scalefactors L.prob ((sigma : ℚ) : ℝ) (List.finRange d)) i (draws j i)) ∧
    candidateDycors L.prob pred X [1] prob s.Xpend ((sigma : ℚ) : ℝ) (List.finRange d) 1e-3 xc u forced draws = some [x]

/-- The loop over the new points (sop.py:289-313): each is sought around the first center without a new point, with the
radius of its record. -/
def SopPointsOf (L : SopSetup d) (s : State (Pt d)) (evals : List (SopRec d)) : List (Center d) → List (Pt d) → Prop
  | _, [] => True
  | cs, x :: rest => ∃ ce r cs', (cs.find? fun ce => ce.newPoint.isNone) = some ce ∧ evals[ce.index]? = some r ∧
      SopPointOf L s ce.xc r.sigma x ∧ assignPoint cs x = some cs' ∧ SopPointsOf L s evals cs' rest

/-- `generate_evals(num_pts=n)` (sop.py:271-317) finds the points `pts`; nothing is said if the update of ranks or centers
raises. -/
def SopGenOf (L : SopSetup d) (w : SopSys d) (n : ℕ) (pts : List (Pt d)) : Prop :=
  pts.length = n ∧ ∀ z1 z2, w.sop.firstRanks L.cfg w.sys.st.numEvals.toNat = some z1 →
    z1.updateCenterList L.cfg w.sys.st.numEvals.toNat = some z2 → SopPointsOf L w.sys.st z2.evals z2.centers pts

/-- The answers of design and auxiliary problem as an oracle of the strategy model. (ss.py:230, sop.py:286-304.) -/
def sopOracle (L : SopSetup d) (D pts : List (Pt d)) : Oracle (Pt d) where
  design i := D.getD i L.prob.lb
  pts i := pts.getD i L.prob.lb
  giveUp := false

/-- States of the closed loop of SOP. -/
inductive SopLoopReach (L : SopSetup d) : SopSys d → Prop
  | create (D : List (Pt d)) : DesignOf L.prob L.base.numPts D → SopLoopReach L (SopSys.create L.cfg (sopOracle L D []))
  | propose {w w' : SopSys d} (D pts : List (Pt d)) : SopLoopReach L w → DesignOf L.prob L.base.numPts D →
      (wantsPoints L.base w.sys.st → SopGenOf L w (wanted L.base) pts) →
      (¬ wantsPoints L.base w.sys.st → pts = []) →
      w.step L.cfg (.propose (sopOracle L D pts)) = some w' → SopLoopReach L w'
  | other {w w' : SopSys d} (op : Op (Pt d)) : SopLoopReach L w → (∀ o, op ≠ .propose o) →
      w.step L.cfg op = some w' → SopLoopReach L w'
  | resume {w : SopSys d} : SopLoopReach L w → SopLoopReach L ⟨w.sys.resumed, w.sop⟩

end Verif.Loop
