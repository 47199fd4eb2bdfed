import Verif.Cand.EI
import Verif.Strategy.Perturb
import Mathlib.Data.EReal.Basic

/-!
# Model of expected improvement where the predicted deviation may be zero

Sources: /repo/pySOT/auxiliary_problems/ei_merit.py, ei_ga.py.  `predict_std` (gp.py:71-85) may return `0.0`
(scikit-learn replaces negative variances by zero); then `ei_merit` divides by zero.  All values are NumPy floats without
rounding (`NF`).
-/

namespace Verif.Strategy

open Classical in
/-- Product of NumPy floats. (Used for ei_merit.py:23-31 and utils.py:310, 368.) -/
noncomputable def NF.mul : NF → NF → NF
  | .nan, _ => .nan
  | _, .nan => .nan
  | .fin a, .fin b => .fin (a * b)
  | .fin a, .pinf => if a = 0 then .nan else if 0 < a then .pinf else .ninf
  | .fin a, .ninf => if a = 0 then .nan else if 0 < a then .ninf else .pinf
  | .pinf, .fin b => if b = 0 then .nan else if 0 < b then .pinf else .ninf
  | .ninf, .fin b => if b = 0 then .nan else if 0 < b then .ninf else .pinf
  | .pinf, .pinf => .pinf
  | .pinf, .ninf => .ninf
  | .ninf, .pinf => .ninf
  | .ninf, .ninf => .pinf

/-- Sum of NumPy floats. (Used for ei_merit.py:23-31 and utils.py:310, 368.) -/
noncomputable def NF.add : NF → NF → NF
  | .nan, _ => .nan
  | _, .nan => .nan
  | .fin a, .fin b => .fin (a + b)
  | .fin _, .pinf => .pinf
  | .fin _, .ninf => .ninf
  | .pinf, .ninf => .nan
  | .ninf, .pinf => .nan
  | .pinf, _ => .pinf
  | .ninf, _ => .ninf

/-- `-x` (Used for ei_merit.py:23-31 and utils.py:310, 368). -/
noncomputable def NF.neg : NF → NF
  | .nan => .nan
  | .ninf => .pinf
  | .pinf => .ninf
  | .fin a => .fin (-a)

/-- `x < t` for a number `t`; false for NaN. (Used for ei_merit.py:23-31 and utils.py:310, 368.) -/
def NF.lt (t : ℝ) : NF → Prop
  | .nan => False
  | .ninf => True
  | .pinf => False
  | .fin a => a < t

/-- Sort key of `np.argmin`, for which NaN is smaller than everything. (Used for ei_merit.py:23-31 and utils.py:310, 368.) -/
noncomputable def NF.key : NF → WithBot EReal
  | .nan => ⊥
  | .ninf => ((⊥ : EReal) : WithBot EReal)
  | .pinf => ((⊤ : EReal) : WithBot EReal)
  | .fin a => (((a : EReal)) : WithBot EReal)

theorem NF.key_injective : Function.Injective NF.key := by
  intro a b h
  cases a <;> cases b <;> simp_all [NF.key]

/-- The order in which `np.argmin` compares. -/
noncomputable instance : LinearOrder NF := LinearOrder.lift' NF.key NF.key_injective

theorem NF.le_iff (a b : NF) : a ≤ b ↔ a.key ≤ b.key := Iff.rfl

end Verif.Strategy

namespace Verif.Cand

open Verif.Num Verif.Utils Verif.Strategy ProbabilityTheory

variable {d h : ℕ}

/-- `scipy.stats.norm.cdf` (Used for ei_merit.py:23-31 and utils.py:310, 368). -/
noncomputable def cdfNF : NF → NF
  | .nan => .nan
  | .ninf => .fin 0
  | .pinf => .fin 1
  | .fin a => .fin (normCdf a)

/-- `scipy.stats.norm.pdf` (Used for ei_merit.py:23-31 and utils.py:310, 368). -/
noncomputable def pdfNF : NF → NF
  | .nan => .nan
  | .ninf => .fin 0
  | .pinf => .fin 0
  | .fin a => .fin (normPdf a)

/-- The EI formula (ei_merit.py:24-26) for one prediction. -/
noncomputable def eiNF (fbest mu sig : ℝ) : NF :=
  let gamma := NF.div (.fin (fbest - mu)) (.fin sig)
  let beta := NF.add (NF.mul gamma (cdfNF gamma)) (pdfNF gamma)
  NF.mul (.fin sig) beta

open Classical in
/-- `ei_merit` (ei_merit.py:6-32) at one point; `XX = y0 :: ys`. -/
noncomputable def eiMeritNF (mean std : Pt d → ℝ) (fbest : ℝ) (y0 : Pt d) (ys : List (Pt d)) (dtol : ℝ) (x : Pt d) : NF :=
  if dtol > 0 ∧ minDist x y0 ys < dtol then .fin 0 else eiNF fbest (mean x) (std x)

open Classical in
/-- Loop of `ei_ga` (ei_ga.py:33-61); `merit XX x` is `ei_merit` at `x` with the known points `XX`. -/
noncomputable def eiGaLoopNF (p : OptProb d) (merit : List (Pt d) → Pt d → NF) (eiTol : ℝ) :
    List (GARun d h) → List (Pt d) → Option (List (Pt d))
  | [], _ => some []
  | r :: rs, XX =>
    let s := optimize p.ga (fun Y => NF.neg (merit XX (roundVars Y p.intVar p.lb p.ub))) r.unit r.gens
    if NF.lt eiTol (NF.neg s.bestValue) then none
    else match eiGaLoopNF p merit eiTol rs (XX ++ [s.best]) with
      | none => none
      | some l => some (s.best :: l)

/-- `ei_ga` (ei_ga.py:8-61): `x0 :: xs` are the evaluated points, `none` is the result `None`. -/
noncomputable def eiGaNF (p : OptProb d) (mean std : Pt d → ℝ) (fbest : ℝ) (x0 : Pt d) (xs Xpend : List (Pt d))
    (dtol eiTol : ℝ) (runs : List (GARun d h)) : Option (List (Pt d)) :=
  eiGaLoopNF p (fun XX x => eiMeritNF mean std fbest (XX.headD x0) XX.tail dtol x) eiTol runs (x0 :: xs ++ Xpend)

end Verif.Cand
