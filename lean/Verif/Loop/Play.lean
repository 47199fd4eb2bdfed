import Verif.Loop.Chance
import Verif.Loop.Run
import Verif.Strategy.Spec

/-!
# SRBF and DYCORS runs with random candidates

The candidates are drawn at random; everything else (the objective values, the surrogate, the designs of the restarts, the order
of all events, failures, crashes) is chosen by an adversary, who may use the outcomes of earlier draws.
-/

namespace Verif.Loop

open Verif.Num Verif.Utils Verif.Cand Verif.Design Verif.Strategy Verif.Spec MeasureTheory
open scoped ENNReal

variable {d : ℕ}

/-- What can happen between two calls of `propose_action`. (ss.py:249-439.) -/
inductive Env where
  | accept (i : ℕ)
  | reject (i : ℕ)
  | complete (i : ℕ) (v : Val)
  | abort (i : ℕ)
  | update (i : ℕ)
  | resume

/-- (ss.py:301-439.) -/
noncomputable def envStep (L : Setup d) (w : Sys (Pt d)) : Env → Option (Sys (Pt d))
  | .accept i => w.step L.cfg (.accept i)
  | .reject i => w.step L.cfg (.reject i)
  | .complete i v => w.step L.cfg (.complete i v)
  | .abort i => w.step L.cfg (.abort i)
  | .update i => w.step L.cfg (.update i)
  | .resume => some w.resumed

/-- The outcome of the uniform and of the truncated normal draws, for every candidate and variable. -/
abbrev Outcome (m d : ℕ) : Type := (Fin (m + 1) → Pt d) × (Fin (m + 1) → Pt d)

/-- The draws of one call of `propose_action` of SRBF or DYCORS: only those of `candidate_srbf`, `candidate_dycors` matter.  The
variables that DYCORS changes if no uniform draw is below the perturbation probability are `forced`.
(candidate_srbf.py:108-113, candidate_dycors.py:76-86.) -/
noncomputable def drawsOf (L : Setup d) {m : ℕ} (D : List (Pt d)) (forced : Fin (m + 1) → ℕ) (z : Outcome m d) : Rnd d where
  design := D
  m := m
  draws := z.2
  u := fun j c => if h : c < d then z.1 j ⟨c, h⟩ else 0
  forced := forced
  h := 0
  runs := List.replicate (wanted L.cfg) ⟨fun _ _ => 0, []⟩

/-- `propose_action` with the draws `z`. (ss.py:249-299.) -/
noncomputable def askStep (L : Setup d) (S : Surr d) (D : List (Pt d)) (w : Sys (Pt d)) {m : ℕ} (forced : Fin (m + 1) → ℕ)
    (z : Outcome m d) : Option (Sys (Pt d)) :=
  (answer L S w.st (drawsOf L D forced z)).bind fun g => w.step L.cfg (.propose (oracleOf L D g))

/-- The best point of the current run, around which the candidates are drawn. (candidate_srbf.py:92.) -/
noncomputable def bestAt (s : State (Pt d)) : Pt d :=
  match s.curX with
  | [] => 0
  | x0 :: xs => xbestOf (fun i : Fin (xs.length + 1) => (x0 :: xs)[i]) fun i => ((s.curFX.getD i 0 : ℚ) : ℝ)

/-- The law of the draws in a given state.  (SRBF does not use the uniform ones.) (candidate_srbf.py:92-113,
candidate_dycors.py:56-86.) -/
noncomputable def candLaw (L : Setup d) (m : ℕ) (s : State (Pt d)) : Measure (Outcome m d) :=
  match s.srbf with
  | some z => dycorsLaw m L.prob (bestAt s) (scalefactors L.prob ((z.radius : ℚ) : ℝ) (List.finRange d))
  | none => Measure.dirac 0

/-- A plan of the adversary: what happens next, for every outcome of the draws. -/
inductive Plan (L : Setup d) (m : ℕ) where
  | stop
  | env (e : Env) (next : Plan L m)
  /-- `propose_action` is called with the surrogate `S`, a restart would use the design `D` -/
  | ask (S : Surr d) (D : List (Pt d)) (hD : DesignOf L.prob L.cfg.numPts D) (forced : Outcome m d → Fin (m + 1) → ℕ)
    (next : Outcome m d → Plan L m)

open Classical in
/-- The (upper) probability that, when the plan is followed from state `w`, points are generated at least `n` times, in the
first `n` of these calls the state is `good`, and the point proposed in the first `n` of these calls is never `near`. -/
noncomputable def missChance {L : Setup d} {m : ℕ} (good : State (Pt d) → Prop) (near : Pt d → Prop) :
    Plan L m → ℕ → Sys (Pt d) → ℝ≥0∞
  | .stop, n, _ => if n = 0 then 1 else 0
  | .env e next, n, w => if n = 0 then 1 else
    match envStep L w e with
    | none => 0
    | some w' => missChance good near next n w'
  | .ask S D _ forced next, n, w => if n = 0 then 1 else
    if wantsPoints L.cfg w.st then
      if good w.st then
        upperInt (candLaw L m w.st) fun z =>
          match askStep L S D w (forced z) z with
          | none => 0
          | some w' =>
            if ∃ x, (proposals w'.st.log).getLast? = some x ∧ near x then 0 else missChance good near (next z) (n - 1) w'
      else 0
    else
      match askStep L S D w (forced 0) (0 : Outcome m d) with
      | none => 0
      | some w' => missChance good near (next 0) n w'

end Verif.Loop
