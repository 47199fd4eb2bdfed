import Verif.Surrogate.Mars
import Mathlib.Analysis.Calculus.Deriv.Comp
import Mathlib.Analysis.Calculus.Deriv.Add
import Mathlib.Analysis.Calculus.Deriv.Mul

/-! # Property C108: derivatives of the MARS interpolant -/

namespace Verif.Props

open Verif.Num Verif.Utils Verif.Surrogate

variable {d : ℕ}

/-- `v` is the partial derivative of `f` at `x` in direction `i`. -/
def IsPartial (f : Pt d → ℝ) (x : Pt d) (i : Fin d) (v : ℝ) : Prop :=
  HasDerivAt (fun t => f (Function.update x i t)) v (x i)

/-- The wrapped model gives its own derivatives at these points (knots of the hinge functions are excluded). -/
def EarthOk (e : Earth d) (u : Pt d) : Prop := ∀ i, IsPartial e.f u i (e.grad u i)

/-- The documented result of `predict_deriv`: `num_pts x dim`, row `k` is the gradient of `predict` at the `k`-th point. -/
def IsDerivs (f : Pt d → ℝ) (X : List (Pt d)) (A : Arr2) : Prop :=
  ∃ (hr : A.rows = X.length) (hc : A.cols = d), ∀ (k : Fin X.length) (i : Fin d),
    IsPartial f X[k] i (A.data (Fin.cast hr.symm k) (Fin.cast hc.symm i))

/-- `predict` as a function of one point. -/
noncomputable def marsFun (e : Earth d) (lb ub : Pt d) (x : Pt d) : ℝ := e.f (toUnitBox x lb ub)

theorem marsPredict_eq (e : Earth d) (lb ub : Pt d) (X : List (Pt d)) : marsPredict e lb ub X = X.map (marsFun e lb ub) := by
  simp [marsPredict, marsFun, Function.comp_def]

/-- Chain rule. -/
theorem mars_chain (e : Earth d) {lb ub : Pt d} (hb : ∀ i, lb i < ub i) (x : Pt d) (he : EarthOk e (toUnitBox x lb ub))
    (i : Fin d) : IsPartial (marsFun e lb ub) x i (e.grad (toUnitBox x lb ub) i / (ub i - lb i)) := by
  have h := he i
  unfold IsPartial marsFun at *
  have hf : (fun t => e.f (toUnitBox (Function.update x i t) lb ub)) =
      (fun t => e.f (Function.update (toUnitBox x lb ub) i t)) ∘ fun t => (t - lb i) / (ub i - lb i) := by
    funext t
    simp only [Function.comp_apply]
    congr 1
    funext j
    by_cases hj : j = i
    · subst hj; simp [toUnitBox]
    · simp [toUnitBox, hj]
  rw [hf]
  have h1 : HasDerivAt (fun t => (t - lb i) / (ub i - lb i)) (1 / (ub i - lb i)) (x i) :=
    ((hasDerivAt_id _).sub_const _).div_const _
  have h2 := HasDerivAt.comp (x i) (h₂ := fun t => e.f (Function.update (toUnitBox x lb ub) i t))
    (h := fun t => (t - lb i) / (ub i - lb i)) h h1
  rw [div_eq_mul_one_div]
  exact h2

/-- Full statement: `IsDerivs`.  False (`C108_shape_refuted`, `C108_value_refuted`).  Proved: the diagonal of the
returned array is the gradient of `predict` at the first point. -/
theorem C108_diagonal_partial (e : Earth d) {lb ub : Pt d} (hb : ∀ i, lb i < ub i) (x : Pt d) (X : List (Pt d))
    (he : EarthOk e (toUnitBox x lb ub)) :
    ∃ A, marsDeriv e lb ub (x :: X) = some A ∧ ∃ (hr : A.rows = d) (hc : A.cols = d),
      ∀ i, IsPartial (marsFun e lb ub) x i (A.data (Fin.cast hr.symm i) (Fin.cast hc.symm i)) :=
  ⟨_, rfl, rfl, rfl, fun i => mars_chain e hb x he i⟩

/-- The result is right for one point of a problem with one variable. -/
theorem C108_one_partial (e : Earth 1) {lb ub : Pt 1} (hb : ∀ i, lb i < ub i) (x : Pt 1)
    (he : EarthOk e (toUnitBox x lb ub)) :
    ∃ A, marsDeriv e lb ub [x] = some A ∧ IsDerivs (marsFun e lb ub) [x] A := by
  refine ⟨_, rfl, rfl, rfl, fun k i => ?_⟩
  have hk : k = ⟨0, by simp⟩ := Fin.ext (Nat.lt_one_iff.1 k.2)
  have hi : i = 0 := Subsingleton.elim _ _
  subst hk hi
  exact mars_chain e hb x he 0

/-- The returned array is `dim x dim`, whatever the number of points: it has the documented size only if the number of points
is the dimension. -/
theorem C108_shape_refuted (e : Earth d) (lb ub : Pt d) (X : List (Pt d)) (A : Arr2) (h : marsDeriv e lb ub X = some A) :
    A.rows = d ∧ A.cols = d ∧ (X.length ≠ d → ∀ f, ¬ IsDerivs f X A) := by
  cases X with
  | nil => cases h
  | cons x X =>
    simp only [marsDeriv, Earth.predictDeriv, List.map_cons, Option.some.injEq] at h
    subst h
    refine ⟨rfl, rfl, fun hl f ⟨hr, _, _⟩ => hl hr.symm⟩

/-- Also with the right number of points the values are wrong: a linear function of two variables. -/
theorem C108_value_refuted : ∃ (e : Earth 2) (lb ub x y : Pt 2) (A : Arr2), (∀ i, lb i < ub i) ∧ (∀ u, EarthOk e u) ∧
    marsDeriv e lb ub [x, y] = some A ∧ ¬ IsDerivs (marsFun e lb ub) [x, y] A := by
  refine ⟨⟨fun u => u 0, fun _ i => if i = 0 then 1 else 0⟩, fun _ => 0, fun _ => 1, fun _ => 0, fun _ => 1, _,
    fun _ => by norm_num, ?_, rfl, ?_⟩
  · intro u i
    unfold IsPartial
    by_cases hi : i = 0
    · subst hi; simpa using hasDerivAt_id' (u 0)
    · simpa [Function.update_of_ne (Ne.symm hi), hi] using hasDerivAt_const (u i) (u 0)
  · rintro ⟨hr, hc, h⟩
    have h1 := h ⟨0, by simp⟩ 1
    have h2 : IsPartial (marsFun (⟨fun u => u 0, fun _ i => if i = 0 then 1 else 0⟩ : Earth 2) (fun _ => 0) fun _ => 1)
        (fun _ => 0) 1 0 := by
      unfold IsPartial marsFun
      simpa [toUnitBox] using hasDerivAt_const (0 : ℝ) (0 : ℝ)
    have := HasDerivAt.unique h1 h2
    simp [divRow] at this

end Verif.Props
