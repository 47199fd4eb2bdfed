import Verif.Surrogate.Generic
import Verif.Surrogate.Gauss
import Mathlib.LinearAlgebra.Matrix.NonsingularInverse
import Mathlib.LinearAlgebra.Matrix.DotProduct
import Mathlib.LinearAlgebra.Matrix.ToLinearEquiv
import Mathlib.Algebra.BigOperators.Option
import Mathlib.Data.Fintype.Option
import Mathlib.Tactic.Linarith
import Mathlib.Tactic.Ring
import Mathlib.Tactic.FieldSimp

/-!
# The default Gaussian process

Source: /repo/pySOT/surrogate/gp.py.  scikit-learn is modelled by its documented contract: `fit` chooses hyperparameters
within the bounds of the kernel (how is left open, it may depend on everything that was fitted before), and `predict` is the
posterior of the Gaussian process: with `K` the kernel matrix of the data, `k` the vector of the kernel values between the
point and the data (the white noise is not included in either), `A = K + (noise + alpha) I` and `alpha = 1e-10`, the mean is
`k A⁻¹ y` and the variance `c + noise - k A⁻¹ k`, set to 0 if negative.
-/

namespace Verif.Surrogate

open Verif.Num Verif.Utils Matrix

variable {d : ℕ} {ι κ : Type} [Fintype ι] [DecidableEq ι] [Fintype κ] [DecidableEq κ]

/-- Hyperparameters of `ConstantKernel * RBF + WhiteKernel` (gp.py:43-45). -/
structure Hyper (d : ℕ) where
  c : ℝ
  len : Fin d → ℝ
  noise : ℝ

/-- The bounds of the hyperparameters (gp.py:43-45). -/
structure Hyper.InBounds (θ : Hyper d) : Prop where
  c_lo : 1 / 100 ≤ θ.c
  c_hi : θ.c ≤ 100
  len_lo : ∀ k, 1 / 20 ≤ θ.len k
  len_hi : ∀ k, θ.len k ≤ 2
  noise_lo : 1 / 10 ^ 6 ≤ θ.noise
  noise_hi : θ.noise ≤ 1 / 10 ^ 2

/-- `ConstantKernel * RBF` (gp.py:43-45). -/
noncomputable def Hyper.kern (θ : Hyper d) (x y : Pt d) : ℝ :=
  θ.c * Real.exp (-(1 / 2 * ∑ k, ((x k - y k) / θ.len k) ^ 2))

/-- `noise + alpha`, with scikit-learn's default `alpha`. (gp.py:42-45.) -/
noncomputable def Hyper.nugget (θ : Hyper d) : ℝ := θ.noise + 1 / 10 ^ 10

/-- The matrix factorized by `fit`. (gp.py:51-58 (scikit-learn `GaussianProcessRegressor.fit`).) -/
noncomputable def gpCov (θ : Hyper d) (X : ι → Pt d) : Matrix ι ι ℝ :=
  Matrix.of (fun i j => θ.kern (X i) (X j)) + θ.nugget • (1 : Matrix ι ι ℝ)

/-- Kernel between a point and the data. (gp.py:60-71 (scikit-learn `predict`).) -/
noncomputable def gpVec (θ : Hyper d) (X : ι → Pt d) (x : Pt d) : ι → ℝ := fun i => θ.kern x (X i)

/-- Posterior mean of the wrapped regressor. (gp.py:70-71 (scikit-learn `predict`).) -/
noncomputable def gpMean (θ : Hyper d) (X : ι → Pt d) (y : ι → ℝ) (x : Pt d) : ℝ :=
  gpVec θ X x ⬝ᵥ ((gpCov θ X)⁻¹ *ᵥ y)

/-- Posterior variance of the wrapped regressor. (gp.py:84-85 (scikit-learn `predict`).) -/
noncomputable def gpVar (θ : Hyper d) (X : ι → Pt d) (x : Pt d) : ℝ :=
  max (θ.c + θ.noise - gpVec θ X x ⬝ᵥ ((gpCov θ X)⁻¹ *ᵥ gpVec θ X x)) 0

/-- What a `GPRegressor` stores after `_fit` (gp.py:51-58): the fitted regressor (points, standardized values,
hyperparameters) and `_mu`, `_sigma`. -/
structure GpModel (d : ℕ) where
  X : List (Pt d)
  y : List ℝ
  θ : Hyper d
  mu : ℝ
  sigma : ℝ

/-- The history of the fits as scikit-learn sees it: with standardized values. (gp.py:54-57.) -/
noncomputable def scaled (h : List (List (Pt d) × List ℝ)) : List (List (Pt d) × List ℝ) :=
  h.map fun q => (q.1, gpScale q.2)

/-- `_fit` (gp.py:51-58); `hyp` chooses the hyperparameters. -/
noncomputable def gpFit (hyp : List (List (Pt d) × List ℝ) → Hyper d) (h : List (List (Pt d) × List ℝ)) : GpModel d :=
  match h with
  | [] => ⟨[], [], hyp [], 0, 1⟩
  | q :: h => ⟨q.1, gpScale q.2, hyp (scaled (q :: h)), mean q.2, gpSigma q.2⟩

/-- The points of the model as a family. (gp.py:51-58.) -/
def GpModel.pts (m : GpModel d) : Fin m.X.length → Pt d := fun i => m.X[i]

/-- The values of the model as a family. (gp.py:51-58.) -/
noncomputable def GpModel.vals (m : GpModel d) : Fin m.X.length → ℝ := fun i => m.y.getD i 0

/-- `predict` (gp.py:60-71) at a point of the unit box. -/
noncomputable def GpModel.pred (m : GpModel d) (u : Pt d) : ℝ := m.mu + m.sigma * gpMean m.θ m.pts m.vals u

/-- `predict_std` (gp.py:73-85) at a point of the unit box. -/
noncomputable def GpModel.std (m : GpModel d) (u : Pt d) : ℝ := m.sigma * Real.sqrt (gpVar m.θ m.pts u)

/-- A `GPRegressor` with the default kernel after a sequence of calls.  With an empty data set the fit of scikit-learn raises
an exception and nothing is stored; the model fits something instead, which the next `add_points` makes obsolete.
(gp.py:38-58.) -/
noncomputable def gpRun (lb ub : Pt d) (trans : List ℝ → List ℝ) (hyp : List (List (Pt d) × List ℝ) → Hyper d)
    (ops : List (Op d)) : St d (Ext d (GpModel d)) :=
  extRun lb ub trans (gpFit hyp) ops

/-- `predict` after a sequence of calls, at one point. (gp.py:60-71.) -/
noncomputable def gpPredict (lb ub : Pt d) (trans : List ℝ → List ℝ) (hyp : List (List (Pt d) × List ℝ) → Hyper d)
    (ops : List (Op d)) (x : Pt d) : Option ℝ :=
  (gpRun lb ub trans hyp (ops ++ [.predict x])).model.mod.map fun m => m.pred (toUnitBox x lb ub)

/-- `predict_std` after a sequence of calls, at one point. (gp.py:73-85.) -/
noncomputable def gpPredictStd (lb ub : Pt d) (trans : List ℝ → List ℝ) (hyp : List (List (Pt d) × List ℝ) → Hyper d)
    (ops : List (Op d)) (x : Pt d) : Option ℝ :=
  (gpRun lb ub trans hyp (ops ++ [.predict x])).model.mod.map fun m => m.std (toUnitBox x lb ub)

/-! ## The posterior variance -/

theorem Hyper.InBounds.c_pos {θ : Hyper d} (h : θ.InBounds) : 0 < θ.c := lt_of_lt_of_le (by norm_num) h.c_lo

theorem Hyper.InBounds.noise_pos {θ : Hyper d} (h : θ.InBounds) : 0 < θ.noise := lt_of_lt_of_le (by norm_num) h.noise_lo

theorem Hyper.InBounds.nugget_pos {θ : Hyper d} (h : θ.InBounds) : 0 < θ.nugget :=
  add_pos h.noise_pos (by norm_num)

/-- Squared error of the linear estimator with weights `w`, in the prior. -/
noncomputable def gpQ (θ : Hyper d) (X : ι → Pt d) (x : Pt d) (w : ι → ℝ) : ℝ :=
  θ.c - 2 * ∑ i, w i * θ.kern x (X i) + ∑ i, ∑ j, w i * w j * θ.kern (X i) (X j) + θ.nugget * ∑ i, w i ^ 2

/-- Points measured in length scales. -/
noncomputable def Hyper.shrink (θ : Hyper d) (x : Pt d) : Pt d := fun k => x k / θ.len k

theorem kern_eq (θ : Hyper d) (x y : Pt d) :
    θ.kern x y = θ.c * Real.exp (-(1 / 2 * sqd (θ.shrink x) (θ.shrink y))) := by
  unfold Hyper.kern sqd Hyper.shrink
  simp only [sub_div]

theorem kern_symm (θ : Hyper d) (x y : Pt d) : θ.kern x y = θ.kern y x := by
  unfold Hyper.kern
  congr 4
  refine Finset.sum_congr rfl fun k _ => ?_
  rw [← neg_sub, neg_div, neg_sq]

theorem kern_self (θ : Hyper d) (x : Pt d) : θ.kern x x = θ.c := by simp [Hyper.kern]

theorem kern_form {ι : Type} [Fintype ι] (θ : Hyper d) (X : ι → Pt d) (w : ι → ℝ) :
    ∑ i, ∑ j, w i * w j * θ.kern (X i) (X j) = θ.c * gaussForm (fun i => θ.shrink (X i)) w (1 / 2) := by
  unfold gaussForm
  rw [Finset.mul_sum]
  refine Finset.sum_congr rfl fun i _ => ?_
  rw [Finset.mul_sum]
  refine Finset.sum_congr rfl fun j _ => ?_
  rw [kern_eq]; ring

theorem kern_form_nonneg {ι : Type} [Fintype ι] {θ : Hyper d} (hθ : θ.InBounds) (X : ι → Pt d) (w : ι → ℝ) :
    0 ≤ ∑ i, ∑ j, w i * w j * θ.kern (X i) (X j) := by
  rw [kern_form]
  exact mul_nonneg hθ.c_pos.le (gaussForm_nonneg _ _ (by norm_num))

theorem gpQ_nonneg {θ : Hyper d} (hθ : θ.InBounds) (X : ι → Pt d) (x : Pt d) (w : ι → ℝ) : 0 ≤ gpQ θ X x w := by
  have h := kern_form_nonneg hθ (fun o : Option ι => o.elim x X) (fun o => o.elim 1 fun i => -w i)
  simp only [Fintype.sum_option, Option.elim, kern_self] at h
  have h2 : 0 ≤ θ.nugget * ∑ i, w i ^ 2 := mul_nonneg hθ.nugget_pos.le (Finset.sum_nonneg fun _ _ => sq_nonneg _)
  have e1 : ∑ i, 1 * -w i * θ.kern x (X i) = -∑ i, w i * θ.kern x (X i) := by
    rw [← Finset.sum_neg_distrib]; exact Finset.sum_congr rfl fun i _ => by ring
  have e2 : ∑ i, (-w i * 1 * θ.kern (X i) x + ∑ j, -w i * -w j * θ.kern (X i) (X j)) =
      -∑ i, w i * θ.kern x (X i) + ∑ i, ∑ j, w i * w j * θ.kern (X i) (X j) := by
    rw [← Finset.sum_neg_distrib, ← Finset.sum_add_distrib]
    refine Finset.sum_congr rfl fun i _ => ?_
    rw [kern_symm θ (X i) x]
    congr 1
    · ring
    · exact Finset.sum_congr rfl fun j _ => by ring
  rw [e1, e2] at h
  unfold gpQ
  linarith

theorem gpCov_form (θ : Hyper d) (X : ι → Pt d) (v w : ι → ℝ) :
    v ⬝ᵥ (gpCov θ X *ᵥ w) = ∑ i, ∑ j, v i * w j * θ.kern (X i) (X j) + θ.nugget * ∑ i, v i * w i := by
  unfold gpCov
  rw [Matrix.add_mulVec, dotProduct_add, Matrix.smul_mulVec, Matrix.one_mulVec, dotProduct_smul, smul_eq_mul]
  congr 1
  simp only [dotProduct, mulVec, Matrix.of_apply, Finset.mul_sum]
  exact Finset.sum_congr rfl fun i _ => Finset.sum_congr rfl fun j _ => by ring

theorem gpCov_symm (θ : Hyper d) (X : ι → Pt d) (v w : ι → ℝ) :
    v ⬝ᵥ (gpCov θ X *ᵥ w) = w ⬝ᵥ (gpCov θ X *ᵥ v) := by
  rw [gpCov_form, gpCov_form, Finset.sum_comm]
  congr 1
  · refine Finset.sum_congr rfl fun i _ => Finset.sum_congr rfl fun j _ => ?_
    rw [kern_symm]; ring
  · congr 1
    exact Finset.sum_congr rfl fun j _ => by ring

theorem gpCov_pos {θ : Hyper d} (hθ : θ.InBounds) (X : ι → Pt d) {w : ι → ℝ} (hw : w ≠ 0) :
    0 < w ⬝ᵥ (gpCov θ X *ᵥ w) := by
  rw [gpCov_form]
  refine add_pos_of_nonneg_of_pos (kern_form_nonneg hθ X w) (mul_pos hθ.nugget_pos ?_)
  obtain ⟨i, hi⟩ := Function.ne_iff.1 hw
  exact Finset.sum_pos' (fun j _ => mul_self_nonneg _) ⟨i, Finset.mem_univ i, mul_self_pos.2 hi⟩

theorem gpCov_det {θ : Hyper d} (hθ : θ.InBounds) (X : ι → Pt d) : IsUnit (gpCov θ X).det := by
  rw [isUnit_iff_ne_zero]
  intro h
  obtain ⟨v, hv, h0⟩ := Matrix.exists_mulVec_eq_zero_iff.2 h
  have := gpCov_pos hθ X hv
  rw [h0, dotProduct_zero] at this
  exact lt_irrefl _ this

/-- The linear system solved by the regressor. -/
theorem gpCov_solve {θ : Hyper d} (hθ : θ.InBounds) (X : ι → Pt d) (b : ι → ℝ) :
    gpCov θ X *ᵥ ((gpCov θ X)⁻¹ *ᵥ b) = b := by
  rw [Matrix.mulVec_mulVec, Matrix.mul_nonsing_inv _ (gpCov_det hθ X), Matrix.one_mulVec]

theorem gpQ_eq (θ : Hyper d) (X : ι → Pt d) (x : Pt d) (w : ι → ℝ) :
    gpQ θ X x w = θ.c - 2 * (w ⬝ᵥ gpVec θ X x) + w ⬝ᵥ (gpCov θ X *ᵥ w) := by
  rw [gpCov_form]
  unfold gpQ
  simp only [dotProduct, gpVec, sq]
  ring

/-- The optimal weights. -/
noncomputable def gpWeights (θ : Hyper d) (X : ι → Pt d) (x : Pt d) : ι → ℝ := (gpCov θ X)⁻¹ *ᵥ gpVec θ X x

theorem gpQ_weights {θ : Hyper d} (hθ : θ.InBounds) (X : ι → Pt d) (x : Pt d) :
    gpQ θ X x (gpWeights θ X x) = θ.c - gpVec θ X x ⬝ᵥ gpWeights θ X x := by
  rw [gpQ_eq]
  unfold gpWeights
  rw [gpCov_solve hθ, dotProduct_comm]
  ring

theorem gpQ_le {θ : Hyper d} (hθ : θ.InBounds) (X : ι → Pt d) (x : Pt d) (w : ι → ℝ) :
    gpQ θ X x (gpWeights θ X x) ≤ gpQ θ X x w := by
  have h1 : gpCov θ X *ᵥ gpWeights θ X x = gpVec θ X x := gpCov_solve hθ X _
  have h2 : 0 ≤ (w - gpWeights θ X x) ⬝ᵥ (gpCov θ X *ᵥ (w - gpWeights θ X x)) := by
    by_cases h : w - gpWeights θ X x = 0
    · rw [h]; simp
    · exact (gpCov_pos hθ X h).le
  rw [Matrix.mulVec_sub, h1, dotProduct_sub, sub_dotProduct, sub_dotProduct, gpCov_symm θ X (gpWeights θ X x) w, h1] at h2
  rw [gpQ_eq, gpQ_eq, h1]
  linarith

/-- The posterior variance is the noise plus the smallest squared error of a linear estimator. -/
theorem gpVar_eq {θ : Hyper d} (hθ : θ.InBounds) (X : ι → Pt d) (x : Pt d) :
    gpVar θ X x = θ.noise + gpQ θ X x (gpWeights θ X x) := by
  have h := gpQ_nonneg hθ X x (gpWeights θ X x)
  unfold gpVar
  have e : θ.c + θ.noise - gpVec θ X x ⬝ᵥ ((gpCov θ X)⁻¹ *ᵥ gpVec θ X x) = θ.noise + gpQ θ X x (gpWeights θ X x) := by
    rw [gpQ_weights hθ]; unfold gpWeights; ring
  rw [e, max_eq_left]
  exact add_nonneg hθ.noise_pos.le h

theorem gpVar_ge {θ : Hyper d} (hθ : θ.InBounds) (X : ι → Pt d) (x : Pt d) : θ.noise ≤ gpVar θ X x := by
  rw [gpVar_eq hθ]; linarith [gpQ_nonneg hθ X x (gpWeights θ X x)]

theorem gpVar_le {θ : Hyper d} (hθ : θ.InBounds) (X : ι → Pt d) (x : Pt d) : gpVar θ X x ≤ θ.c + θ.noise := by
  have := gpQ_le hθ X x 0
  rw [gpVar_eq hθ]
  simp only [gpQ, Pi.zero_apply] at this ⊢
  simp only [zero_mul, Finset.sum_const_zero, mul_zero, zero_pow two_ne_zero, sub_zero, add_zero] at this
  linarith

/-- At a point of the data. -/
theorem gpVar_data {θ : Hyper d} (hθ : θ.InBounds) (X : ι → Pt d) (i : ι) :
    gpVar θ X (X i) ≤ 2 * θ.noise + 1 / 10 ^ 10 := by
  have := gpQ_le hθ X (X i) (Pi.single i 1)
  have e : gpQ θ X (X i) (Pi.single i 1) = θ.nugget := by
    simp [gpQ, Pi.single_apply, kern_self]
    ring
  rw [gpVar_eq hθ]
  rw [e, Hyper.nugget] at this
  linarith

theorem sum_extend (e : ι ↪ κ) (w : ι → ℝ) (f : κ → ℝ) :
    ∑ j, Function.extend e w 0 j * f j = ∑ i, w i * f (e i) := by
  have h1 : ∑ i, w i * f (e i) = ∑ i, Function.extend e w 0 (e i) * f (e i) :=
    Finset.sum_congr rfl fun i _ => by rw [e.injective.extend_apply]
  rw [h1, ← Finset.sum_map Finset.univ e fun j => Function.extend e w 0 j * f j]
  refine (Finset.sum_subset (Finset.subset_univ _) fun j _ hj => ?_).symm
  rw [Function.extend_apply' _ _ _ (by rintro ⟨i, rfl⟩; exact hj (by simp)), Pi.zero_apply, zero_mul]

theorem gpQ_extend (θ : Hyper d) (X : κ → Pt d) (e : ι ↪ κ) (x : Pt d) (w : ι → ℝ) :
    gpQ θ X x (Function.extend e w 0) = gpQ θ (X ∘ e) x w := by
  have h3 : ∑ j, Function.extend e w 0 j ^ 2 = ∑ i, w i ^ 2 := by
    simp only [sq]
    rw [sum_extend e w]
    exact Finset.sum_congr rfl fun i _ => by rw [e.injective.extend_apply]
  unfold gpQ
  rw [h3, sum_extend e w fun j => θ.kern x (X j)]
  congr 2
  simp only [mul_assoc, ← Finset.mul_sum]
  rw [sum_extend e w fun j => ∑ l, Function.extend e w 0 l * θ.kern (X j) (X l)]
  refine Finset.sum_congr rfl fun i _ => ?_
  rw [sum_extend e w fun l => θ.kern (X (e i)) (X l)]
  rfl

/-- More data, same hyperparameters: the variance does not grow. -/
theorem gpVar_mono {θ : Hyper d} (hθ : θ.InBounds) (X : κ → Pt d) (e : ι ↪ κ) (x : Pt d) :
    gpVar θ X x ≤ gpVar θ (X ∘ e) x := by
  rw [gpVar_eq hθ, gpVar_eq hθ, ← gpQ_extend]
  have := gpQ_le hθ X x (Function.extend e (gpWeights θ (X ∘ e) x) 0)
  linarith

/-- The mean is linear in the values. -/
theorem gpMean_smul (θ : Hyper d) (X : ι → Pt d) (y : ι → ℝ) (a : ℝ) (x : Pt d) :
    gpMean θ X (fun i => a * y i) x = a * gpMean θ X y x := by
  unfold gpMean
  have : (fun i => a * y i) = a • y := rfl
  rw [this, Matrix.mulVec_smul, dotProduct_smul, smul_eq_mul]

theorem gpMean_zero (θ : Hyper d) (X : ι → Pt d) (x : Pt d) : gpMean θ X (fun _ => 0) x = 0 := by
  have := gpMean_smul θ X (fun _ => 0) 0 x
  simpa using this

theorem gpSigma_ge (f : List ℝ) : 1 / 10 ^ 6 ≤ gpSigma f := le_max_right _ _

theorem gpSigma_pos (f : List ℝ) : 0 < gpSigma f := lt_of_lt_of_le (by norm_num) (gpSigma_ge f)

end Verif.Surrogate
