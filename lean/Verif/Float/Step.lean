import Verif.Float.Basic
import Verif.Strategy.Model

/-!
# The step control of SRBF in double precision

Source: /repo/pySOT/strategy/srbf_strategy.py:110-148, 188-221.  The same code as `Srbf.adjust` in `Verif.Strategy.Model`, with
one rounding `rnd` after each arithmetic operation; the constants `0.2` and `1e-3` are rounded, `0.5 ** 6` is exact.
-/

namespace Verif.Fl

/-- The attributes of the step control: `status`, `failcount`, `sampling_radius`, `_fbest` (`none` is `np.inf`).
(srbf_strategy.py:145-148.) -/
structure StepState where
  status : Int
  failcount : Int
  radius : ℝ
  fbest : Option ℝ

/-- `sampling_radius_max` (srbf_strategy.py:111). -/
noncomputable def radMax (rnd : ℝ → ℝ) : ℝ := rnd (2 / 10)

/-- `sampling_radius_min = 0.2 * (0.5 ** 6)` (srbf_strategy.py:110). -/
noncomputable def radMin (rnd : ℝ → ℝ) : ℝ := rnd (rnd (2 / 10) * (1 / 2) ^ 6)

/-- `sample_initial` (srbf_strategy.py:143-148). -/
noncomputable def stepStart (rnd : ℝ → ℝ) : StepState := ⟨0, 0, rnd (2 / 10), none⟩

/-- `self._fbest - 1e-3 * math.fabs(self._fbest)` (srbf_strategy.py:196). -/
noncomputable def threshold (rnd : ℝ → ℝ) (b : ℝ) : ℝ := rnd (b - rnd (rnd (1 / 1000) * |b|))

open Classical in
/-- The test for a significant improvement (srbf_strategy.py:196). -/
noncomputable def StepState.improves (rnd : ℝ → ℝ) (z : StepState) (fNew : ℝ) : Bool :=
  match z.fbest with
  | none => true
  | some b => decide (fNew < threshold rnd b)

open Classical in
/-- `adjust_step` (srbf_strategy.py:188-221): the new attributes, and whether `converged` is set. -/
noncomputable def StepState.adjust (rnd : ℝ → ℝ) (ftol mftol : Int) (z : StepState) (fNew : ℝ) : StepState × Bool :=
  let z := if z.improves rnd fNew then
      { z with fbest := some fNew, status := max 1 (z.status + 1), failcount := 0 }
    else
      { z with status := min (-1) (z.status - 1), failcount := z.failcount + 1 }
  let z := if z.status ≤ -ftol then { z with status := 0, radius := rnd (z.radius / 2) } else z
  let z := if Strategy.succtol ≤ z.status then
      { z with status := 0, radius := min (rnd (2 * z.radius)) (radMax rnd) }
    else z
  (z, decide (mftol ≤ z.failcount) || decide (z.radius ≤ radMin rnd))

end Verif.Fl
