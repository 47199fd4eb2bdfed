import Mathlib.Analysis.SpecialFunctions.Log.Basic
import Verif.Strategy.Model

/-!
# The perturbation probability of DYCORS and SOP

Source: /repo/pySOT/strategy/dycors_strategy.py:86-90 and, with the same text, sop_strategy.py:280-284.
The formula can produce infinities and NaN, so it is computed with a type of extended floats (without rounding).
-/

namespace Verif.Strategy

/-- A NumPy float: NaN, the two infinities, or a (real) number. (Used at dycors_strategy.py:86-90.) -/
inductive NF where
  | nan
  | ninf
  | pinf
  | fin (r : ℝ)

open Classical in
/-- `np.log`: `-inf` at 0, NaN for negative arguments. (Used at dycors_strategy.py:86-90.) -/
noncomputable def npLog (x : ℝ) : NF := if 0 < x then .fin (Real.log x) else if x = 0 then .ninf else .nan

open Classical in
/-- Division of NumPy floats.  A zero divisor is `+0.0` (it is the logarithm of 1). (Used at dycors_strategy.py:86-90.) -/
noncomputable def NF.div : NF → NF → NF
  | .fin a, .fin b => if b = 0 then (if a = 0 then .nan else if 0 < a then .pinf else .ninf) else .fin (a / b)
  | .fin _, .pinf => .fin 0
  | .fin _, .ninf => .fin 0
  | .pinf, .fin b => if 0 ≤ b then .pinf else .ninf
  | .ninf, .fin b => if 0 ≤ b then .ninf else .pinf
  | _, _ => .nan

/-- `1.0 - x`. (Used at dycors_strategy.py:86-90.) -/
noncomputable def NF.oneSub : NF → NF
  | .fin a => .fin (1 - a)
  | .pinf => .ninf
  | .ninf => .pinf
  | .nan => .nan

/-- `c * x` for a positive number `c`. (Used at dycors_strategy.py:86-90.) -/
noncomputable def NF.scale (c : ℝ) : NF → NF
  | .fin a => .fin (c * a)
  | .pinf => .pinf
  | .ninf => .ninf
  | .nan => .nan

/-- `max(x, m)` for a number `m`; Python's `max` keeps its first argument unless the second one is greater, so that NaN is kept.
(Used at dycors_strategy.py:86-90.) -/
noncomputable def NF.max (m : ℝ) : NF → NF
  | .fin a => .fin (Max.max a m)
  | .pinf => .pinf
  | .ninf => .fin m
  | .nan => .nan

/-- `u < x` for a number `u`. (candidate_dycors.py:76.) -/
def NF.gt (u : ℝ) : NF → Prop
  | .fin a => u < a
  | .pinf => True
  | .ninf => False
  | .nan => False

/-- `prob_perturb` (dycors_strategy.py:86-90); `dim ≥ 1`. -/
noncomputable def perturbProb (dim : ℕ) (maxEvals : ℤ) (numExp lenX lenXpend : ℕ) : NF :=
  let numEvals : ℝ := lenX + lenXpend - numExp + 1
  let minProb : ℝ := min 1 (1 / (dim : ℝ))
  let budget : ℝ := maxEvals - numExp
  let p := NF.scale (min ((20 : ℝ) / (dim : ℝ)) 1) (NF.oneSub (NF.div (npLog numEvals) (npLog budget)))
  NF.max minProb p

/-- The value `generate_evals` of DYCORS computes in a state of the strategy. (dycors_strategy.py:84-107.) -/
noncomputable def State.perturbProb {P : Type} (cfg : Config P) (dim : ℕ) (s : State P) : NF :=
  Verif.Strategy.perturbProb dim cfg.maxEvals cfg.numPts s.X.length s.Xpend.length

end Verif.Strategy
