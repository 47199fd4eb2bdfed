import Verif.Loop.Play
import Verif.Loop.SopRun

/-!
# SOP runs with random candidates

As `Loop/Play.lean`: the candidates are drawn at random; everything else (the objective values, the surrogate, the designs, the
order of all events, failures, crashes) is chosen by an adversary, who may use the outcomes of earlier draws.
-/

namespace Verif.Loop

open Verif.Num Verif.Utils Verif.Cand Verif.Design Verif.Strategy Verif.Spec Verif.Sop MeasureTheory
open scoped ENNReal

variable {d : ℕ}

/-- (ss.py:301-439, sop.py:239-269.) -/
noncomputable def sopEnvStep (L : SopSetup d) (w : SopSys d) : Env → Option (SopSys d)
  | .accept i => w.step L.cfg (.accept i)
  | .reject i => w.step L.cfg (.reject i)
  | .complete i v => w.step L.cfg (.complete i v)
  | .abort i => w.step L.cfg (.abort i)
  | .update i => w.step L.cfg (.update i)
  | .resume => some ⟨w.sys.resumed, w.sop⟩

/-- The outcome of the draws of all candidate searches of one call of `propose_action`. -/
abbrev SopOutcome (L : SopSetup d) (m : ℕ) : Type := Fin (wanted L.base) → Outcome m d

/-- The draws of one call of `propose_action` of SOP. (candidate_dycors.py:76-86, sop.py:289-311.) -/
noncomputable def sopDraws (L : SopSetup d) {m : ℕ} (D : List (Pt d)) (forced : Fin (wanted L.base) → Fin (m + 1) → ℕ)
    (z : SopOutcome L m) : SopRnd d where
  design := D
  cands := fun k => if hk : k < wanted L.base then
      { m := m
        draws := (z ⟨k, hk⟩).2
        u := fun j c => if h : c < d then (z ⟨k, hk⟩).1 j ⟨c, h⟩ else 0
        forced := forced ⟨k, hk⟩ }
    else ⟨0, fun _ _ => 0, fun _ _ => 0, fun _ => 0⟩

/-- `propose_action` with the draws `z`. (ss.py:249-299.) -/
noncomputable def sopAsk (L : SopSetup d) (S : Surr d) (D : List (Pt d)) (w : SopSys d) {m : ℕ}
    (forced : Fin (wanted L.base) → Fin (m + 1) → ℕ) (z : SopOutcome L m) : Option (SopSys d) :=
  (sopAnswer L S w (sopDraws L D forced z)).bind fun pts => w.step L.cfg (.propose (sopOracle L D pts))

/-- The centers around which points are sought, with their radii. (sop.py:275-302.) -/
noncomputable def sopSearches (L : SopSetup d) (w : SopSys d) : List (Pt d × ℚ) :=
  match (w.sop.firstRanks L.cfg w.sys.st.numEvals.toNat).bind fun z1 => z1.updateCenterList L.cfg w.sys.st.numEvals.toNat with
  | none => []
  | some z2 => (z2.centers.filter fun ce => ce.newPoint.isNone).map fun ce =>
      (ce.xc, ((z2.evals[ce.index]?).map SopRec.sigma).getD (2 / 10))

/-- The law of the draws of one search; the truncated normal distribution is centered at the center of the search. (The second case
does not occur: the search raises an exception.) (candidate_dycors.py:56-86.) -/
noncomputable def searchLaw (L : SopSetup d) (m : ℕ) : Option (Pt d × ℚ) → Measure (Outcome m d)
  | some (xc, sigma) => dycorsLaw m L.prob xc (scalefactors L.prob ((sigma : ℚ) : ℝ) (List.finRange d))
  | none => Measure.dirac 0

/-- The law of the draws in a given state: the searches are independent. (sop.py:289-311.) -/
noncomputable def sopLaw (L : SopSetup d) (m : ℕ) (w : SopSys d) : Measure (SopOutcome L m) :=
  Measure.pi fun k => searchLaw L m (sopSearches L w)[k.1]?

/-- A plan of the adversary: what happens next, for every outcome of the draws. -/
inductive SopPlan (L : SopSetup d) (m : ℕ) where
  | stop
  | env (e : Env) (next : SopPlan L m)
  /-- `propose_action` is called with the surrogate `S`, a restart would use the design `D` -/
  | ask (S : Surr d) (D : List (Pt d)) (hD : DesignOf L.prob L.base.numPts D)
    (forced : SopOutcome L m → Fin (wanted L.base) → Fin (m + 1) → ℕ) (next : SopOutcome L m → SopPlan L m)

open Classical in
/-- The (upper) probability that, when the plan is followed from state `w`, points are generated at least `n` times, in the
first `n` of these calls the state is `good`, and the point proposed in the first `n` of these calls is never `near`. -/
noncomputable def sopMiss {L : SopSetup d} {m : ℕ} (good : State (Pt d) → Prop) (near : Pt d → Prop) :
    SopPlan L m → ℕ → SopSys d → ℝ≥0∞
  | .stop, n, _ => if n = 0 then 1 else 0
  | .env e next, n, w => if n = 0 then 1 else
    match sopEnvStep L w e with
    | none => 0
    | some w' => sopMiss good near next n w'
  | .ask S D _ forced next, n, w => if n = 0 then 1 else
    if wantsPoints L.base w.sys.st then
      if good w.sys.st then
        upperInt (sopLaw L m w) fun z =>
          match sopAsk L S D w (forced z) z with
          | none => 0
          | some w' =>
            if ∃ x, (proposals w'.sys.st.log).getLast? = some x ∧ near x then 0 else sopMiss good near (next z) (n - 1) w'
      else 0
    else
      match sopAsk L S D w (forced 0) (0 : SopOutcome L m) with
      | none => 0
      | some w' => sopMiss good near (next 0) n w'

end Verif.Loop
