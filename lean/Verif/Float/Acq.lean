import Verif.Float.GA
import Verif.Float.Merit
import Verif.Cand.Acq

/-!
# The acquisition functions and their optimization in double precision

Sources: /repo/pySOT/auxiliary_problems/ei_merit.py, ei_ga.py, lcb_merit.py, lcb_ga.py.  The same code as in
`Verif.Cand.Acq`, with one rounding `rnd` after each arithmetic operation that numpy performs.  The predictions `mean`,
`std` and the functions `cdf`, `pdf` of scipy (ei_merit.py:25) are arbitrary: whatever the libraries compute.  As there,
deviations of zero and the infinite and undefined values of EI they cause are not covered here (C99).
-/

namespace Verif.Fl

open Verif.Num Verif.Utils Verif.Cand

variable {d h : ℕ}

/-- The EI formula (ei_merit.py:23-26) for one prediction with `sig > 0`. -/
noncomputable def eiFormula (rnd cdf pdf : ℝ → ℝ) (fbest mu sig : ℝ) : ℝ :=
  let gamma := rnd (rnd (fbest - mu) / sig)
  let beta := rnd (rnd (gamma * cdf gamma) + pdf gamma)
  rnd (sig * beta)

open Classical in
/-- `ei_merit` (ei_merit.py:6-32) at one point; `XX = y0 :: ys`. -/
noncomputable def eiMerit (rnd cdf pdf : ℝ → ℝ) (mean std : Pt d → ℝ) (fbest : ℝ) (y0 : Pt d) (ys : List (Pt d)) (dtol : ℝ)
    (x : Pt d) : ℝ :=
  if dtol > 0 ∧ minDist rnd x y0 ys < dtol then 0 else eiFormula rnd cdf pdf fbest (mean x) (std x)

open Classical in
/-- `lcb_merit` (lcb_merit.py:5-32) at one point; `⊤` is `inf`. -/
noncomputable def lcbMerit (rnd : ℝ → ℝ) (mean std : Pt d → ℝ) (kappa : ℝ) (y0 : Pt d) (ys : List (Pt d)) (dtol : ℝ)
    (x : Pt d) : WithTop ℝ :=
  if dtol > 0 ∧ minDist rnd x y0 ys < dtol then ⊤ else ((rnd (mean x - rnd (kappa * std x)) : ℝ) : WithTop ℝ)

open Classical in
/-- Loop of `ei_ga` (ei_ga.py:33-61); the negations at ei_ga.py:42 and 55 are exact. -/
noncomputable def eiGaLoop (rnd : ℝ → ℝ) (p : OptProb d) (merit : List (Pt d) → Pt d → ℝ) (eiTol : ℝ) :
    List (GARun d h) → List (Pt d) → Option (List (Pt d))
  | [], _ => some []
  | r :: rs, XX =>
    let s := optimize rnd p.ga (fun Y => -merit XX (roundVars Y p.intVar p.lb p.ub)) r.unit r.gens
    if -s.bestValue < eiTol then none
    else match eiGaLoop rnd p merit eiTol rs (XX ++ [s.best]) with
      | none => none
      | some l => some (s.best :: l)

/-- `ei_ga` (ei_ga.py:8-61): `x0 :: xs` are the evaluated points, `none` is the result `None`. -/
noncomputable def eiGa (rnd cdf pdf : ℝ → ℝ) (p : OptProb d) (mean std : Pt d → ℝ) (fbest : ℝ) (x0 : Pt d)
    (xs Xpend : List (Pt d)) (dtol eiTol : ℝ) (runs : List (GARun d h)) : Option (List (Pt d)) :=
  eiGaLoop rnd p (fun XX x => eiMerit rnd cdf pdf mean std fbest (XX.headD x0) XX.tail dtol x) eiTol runs (x0 :: xs ++ Xpend)

open Classical in
/-- Loop of `lcb_ga` (lcb_ga.py:34-60). -/
noncomputable def lcbGaLoop (rnd : ℝ → ℝ) (p : OptProb d) (merit : List (Pt d) → Pt d → WithTop ℝ) (target : ℝ) :
    List (GARun d h) → List (Pt d) → Option (List (Pt d))
  | [], _ => some []
  | r :: rs, XX =>
    let s := optimize rnd p.ga (fun Y => merit XX (roundVars Y p.intVar p.lb p.ub)) r.unit r.gens
    if s.bestValue > (target : WithTop ℝ) then none
    else match lcbGaLoop rnd p merit target rs (XX ++ [s.best]) with
      | none => none
      | some l => some (s.best :: l)

/-- `lcb_ga` (lcb_ga.py:8-60). -/
noncomputable def lcbGa (rnd : ℝ → ℝ) (p : OptProb d) (mean std : Pt d → ℝ) (kappa : ℝ) (x0 : Pt d) (xs Xpend : List (Pt d))
    (dtol target : ℝ) (runs : List (GARun d h)) : Option (List (Pt d)) :=
  lcbGaLoop rnd p (fun XX x => lcbMerit rnd mean std kappa (XX.headD x0) XX.tail dtol x) target runs (x0 :: xs ++ Xpend)

end Verif.Fl
