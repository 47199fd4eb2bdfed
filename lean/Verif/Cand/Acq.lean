import Verif.Cand.Candidates
import Verif.Utils.GA
import Mathlib.Probability.Distributions.Gaussian.Real

/-!
# Model of the acquisition functions and their optimization

Sources: /repo/pySOT/auxiliary_problems/ei_merit.py, ei_ga.py, lcb_merit.py, lcb_ga.py.  The surrogate is a pair of
functions `mean` (`predict`) and `std` (`predict_std`).
-/

namespace Verif.Cand

open Verif.Num Verif.Utils ProbabilityTheory

variable {d h : ℕ}

/-- `scipy.stats.norm.cdf` (ei_merit.py:25). -/
noncomputable def normCdf (x : ℝ) : ℝ := (gaussianReal 0 1).real (Set.Iic x)

/-- `scipy.stats.norm.pdf` (ei_merit.py:25). -/
noncomputable def normPdf (x : ℝ) : ℝ := gaussianPDFReal 0 1 x

/-- The EI formula (ei_merit.py:24-26) for one prediction with `sig > 0`. -/
noncomputable def eiFormula (fbest mu sig : ℝ) : ℝ :=
  let gamma := (fbest - mu) / sig
  let beta := gamma * normCdf gamma + normPdf gamma
  sig * beta

open Classical in
/-- `ei_merit` (ei_merit.py:6-32) at one point; `XX = y0 :: ys`. -/
noncomputable def eiMerit (mean std : Pt d → ℝ) (fbest : ℝ) (y0 : Pt d) (ys : List (Pt d)) (dtol : ℝ) (x : Pt d) : ℝ :=
  if dtol > 0 ∧ minDist x y0 ys < dtol then 0 else eiFormula fbest (mean x) (std x)

open Classical in
/-- `lcb_merit` (lcb_merit.py:5-32) at one point; `⊤` is `inf`. -/
noncomputable def lcbMerit (mean std : Pt d → ℝ) (kappa : ℝ) (y0 : Pt d) (ys : List (Pt d)) (dtol : ℝ) (x : Pt d) :
    WithTop ℝ :=
  if dtol > 0 ∧ minDist x y0 ys < dtol then ⊤ else ((mean x - kappa * std x : ℝ) : WithTop ℝ)

/-- The problem as the genetic algorithm sees it (ei_ga.py:44-52). -/
def OptProb.ga (p : OptProb d) : GAConfig d := { lb := p.lb, ub := p.ub, intVar := p.intVar }

/-- Random draws of one run of the genetic algorithm: the initial design in the unit cube and one set per generation.
(The draws in utils.py:276-291, 320, 330-332, 343-346, of the run at ei_ga.py:53, lcb_ga.py:34-60.) -/
structure GARun (d h : ℕ) where
  unit : Pop d h
  gens : List (Draws d h)

open Classical in
/-- Loop of `ei_ga` (ei_ga.py:33-61), one run of the genetic algorithm per point; `merit XX x` is `ei_merit` at `x` with the
known points `XX`. -/
noncomputable def eiGaLoop (p : OptProb d) (merit : List (Pt d) → Pt d → ℝ) (eiTol : ℝ) :
    List (GARun d h) → List (Pt d) → Option (List (Pt d))
  | [], _ => some []
  | r :: rs, XX =>
    let s := optimize p.ga (fun Y => -merit XX (roundVars Y p.intVar p.lb p.ub)) r.unit r.gens
    if -s.bestValue < eiTol then none
    else match eiGaLoop p merit eiTol rs (XX ++ [s.best]) with
      | none => none
      | some l => some (s.best :: l)

/-- `ei_ga` (ei_ga.py:8-61): `x0 :: xs` are the evaluated points, `none` is the result `None`. -/
noncomputable def eiGa (p : OptProb d) (mean std : Pt d → ℝ) (fbest : ℝ) (x0 : Pt d) (xs Xpend : List (Pt d))
    (dtol eiTol : ℝ) (runs : List (GARun d h)) : Option (List (Pt d)) :=
  eiGaLoop p (fun XX x => eiMerit mean std fbest (XX.headD x0) XX.tail dtol x) eiTol runs (x0 :: xs ++ Xpend)

open Classical in
/-- Loop of `lcb_ga` (lcb_ga.py:34-60). -/
noncomputable def lcbGaLoop (p : OptProb d) (merit : List (Pt d) → Pt d → WithTop ℝ) (target : ℝ) :
    List (GARun d h) → List (Pt d) → Option (List (Pt d))
  | [], _ => some []
  | r :: rs, XX =>
    let s := optimize p.ga (fun Y => merit XX (roundVars Y p.intVar p.lb p.ub)) r.unit r.gens
    if s.bestValue > (target : WithTop ℝ) then none
    else match lcbGaLoop p merit target rs (XX ++ [s.best]) with
      | none => none
      | some l => some (s.best :: l)

/-- `lcb_ga` (lcb_ga.py:8-60). -/
noncomputable def lcbGa (p : OptProb d) (mean std : Pt d → ℝ) (kappa : ℝ) (x0 : Pt d) (xs Xpend : List (Pt d))
    (dtol target : ℝ) (runs : List (GARun d h)) : Option (List (Pt d)) :=
  lcbGaLoop p (fun XX x => lcbMerit mean std kappa (XX.headD x0) XX.tail dtol x) target runs (x0 :: xs ++ Xpend)

end Verif.Cand
