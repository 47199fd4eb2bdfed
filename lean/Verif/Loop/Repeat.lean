import Verif.Loop.Play

/-! # Runs with random candidates: the probability that a bad point is ever generated -/

namespace Verif.Loop

open Verif.Num Verif.Utils Verif.Cand Verif.Design Verif.Strategy Verif.Spec MeasureTheory
open scoped ENNReal

variable {d : ℕ}

/-- The variables that DYCORS changes if no uniform draw is below the perturbation probability are in the range of
`np.random.randint(0, len(subset) - 1)`; with one variable nothing is drawn. (candidate_dycors.py:73-78.) -/
def Plan.Valid {L : Setup d} {m : ℕ} : Plan L m → Prop
  | .stop => True
  | .env _ next => next.Valid
  | .ask _ _ _ forced next => (∀ z j, d = 1 ∨ forced z j < d - 1) ∧ ∀ z, (next z).Valid

open Classical in
/-- The (upper) probability that, when the plan is followed from state `w`, there is ever a call of `propose_action` that
generates points for which `bad` holds (of the state before and the state after the call). -/
noncomputable def everChance {L : Setup d} {m : ℕ} (bad : State (Pt d) → State (Pt d) → Prop) :
    Plan L m → Sys (Pt d) → ℝ≥0∞
  | .stop, _ => 0
  | .env e next, w =>
    match envStep L w e with
    | none => 0
    | some w' => everChance bad next w'
  | .ask S D _ forced next, w =>
    if wantsPoints L.cfg w.st then
      upperInt (candLaw L m w.st) fun z =>
        match askStep L S D w (forced z) z with
        | none => 0
        | some w' => if bad w.st w'.st then 1 else everChance bad (next z) w'
    else
      match askStep L S D w (forced 0) (0 : Outcome m d) with
      | none => 0
      | some w' => everChance bad (next 0) w'

/-- One of the points generated between the two states is in `T`. -/
def NewIn (T : Set (Pt d)) (s s' : State (Pt d)) : Prop :=
  ∃ new, adaptivePoints s'.log = adaptivePoints s.log ++ new ∧ ∃ x ∈ new, x ∈ T

end Verif.Loop
