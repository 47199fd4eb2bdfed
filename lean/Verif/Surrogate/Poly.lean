import Verif.Surrogate.Generic
import Mathlib.Data.Fintype.BigOperators
import Mathlib.LinearAlgebra.FiniteDimensional.Lemmas
import Mathlib.LinearAlgebra.FiniteDimensional.Basic
import Mathlib.Algebra.Order.BigOperators.Ring.Finset
import Mathlib.Tactic.Linarith
import Mathlib.Tactic.Ring

/-!
# Polynomial regression

Source: /repo/pySOT/surrogate/poly.py: `make_pipeline(PolynomialFeatures(degree), Ridge())`.  scikit-learn is modelled by its
documented contract: `PolynomialFeatures(degree)` are all monomials of total degree at most `degree` (the constant included),
`Ridge()` (`alpha = 1`, `fit_intercept = True`) minimizes the sum of the squared residuals plus the sum of the squared
coefficients, the intercept not included.
-/

namespace Verif.Surrogate

open Verif.Num Verif.Utils

variable {d deg : ℕ}

/-- Exponents of the features of `PolynomialFeatures(degree)` (poly.py:37). -/
def exponents (d deg : ℕ) : Finset (Fin d → ℕ) :=
  (Fintype.piFinset fun _ => Finset.range (deg + 1)).filter fun a => ∑ i, a i ≤ deg

/-- The monomial with these exponents. (poly.py:35-37 (scikit-learn `PolynomialFeatures`).) -/
def monomial (a : Fin d → ℕ) (x : Pt d) : ℝ := ∏ i, x i ^ a i

/-- A fitted pipeline: `coef_` and `intercept_` of the ridge regression. (poly.py:35-44 (scikit-learn `Ridge`).) -/
structure PolyModel (d deg : ℕ) where
  coef : exponents d deg → ℝ
  intercept : ℝ

/-- `predict` of the pipeline at one point. (poly.py:46-57.) -/
def PolyModel.eval (m : PolyModel d deg) (x : Pt d) : ℝ := m.intercept + ∑ a, m.coef a * monomial a.1 x

/-- What `Ridge()` minimizes. (poly.py:35-44 (scikit-learn `Ridge`).) -/
def ridgeLoss (D : List (Pt d × ℝ)) (m : PolyModel d deg) : ℝ :=
  (D.map fun q => (q.2 - m.eval q.1) ^ 2).sum + ∑ a, m.coef a ^ 2

/-- Contract of `fit` of the pipeline: for at least one sample, a minimizer. (poly.py:39-44.) -/
def RidgeSpec (ridge : List (Pt d) → List ℝ → PolyModel d deg) : Prop :=
  ∀ X f, X ≠ [] → X.length = f.length → ∀ m : PolyModel d deg, ridgeLoss (X.zip f) (ridge X f) ≤ ridgeLoss (X.zip f) m

/-- The pipeline depends on the last fit only. (poly.py:39-44.) -/
def lastFit (ridge : List (Pt d) → List ℝ → PolyModel d deg) : List (List (Pt d) × List ℝ) → PolyModel d deg
  | [] => ridge [] []
  | q :: _ => ridge q.1 q.2

/-- A `PolyRegressor` after a sequence of calls (poly.py:36-44).  With an empty data set the fit of scikit-learn raises an
exception and nothing is stored; the model fits something instead, which the next `add_points` makes obsolete. -/
noncomputable def polyRun (lb ub : Pt d) (trans : List ℝ → List ℝ) (ridge : List (Pt d) → List ℝ → PolyModel d deg)
    (ops : List (Op d)) : St d (Ext d (PolyModel d deg)) :=
  extRun lb ub trans (lastFit ridge) ops

/-- `predict` (poly.py:46-57) after a sequence of calls, at one point. -/
noncomputable def polyPredict (lb ub : Pt d) (trans : List ℝ → List ℝ) (ridge : List (Pt d) → List ℝ → PolyModel d deg)
    (ops : List (Op d)) (x : Pt d) : Option ℝ :=
  (polyRun lb ub trans ridge (ops ++ [.predict x])).model.mod.map fun m => m.eval (toUnitBox x lb ub)

/-! ## Ridge regression -/

/-- `m` minimizes the ridge loss. -/
def IsRidge (D : List (Pt d × ℝ)) (m : PolyModel d deg) : Prop := ∀ m' : PolyModel d deg, ridgeLoss D m ≤ ridgeLoss D m'

/-- The normal equations. -/
structure Normal (D : List (Pt d × ℝ)) (m : PolyModel d deg) : Prop where
  coef : ∀ a : exponents d deg, m.coef a = (D.map fun q => (q.2 - m.eval q.1) * monomial a.1 q.1).sum
  intercept : (D.map fun q => q.2 - m.eval q.1).sum = 0

/-- `m + t h`. -/
def PolyModel.move (m h : PolyModel d deg) (t : ℝ) : PolyModel d deg :=
  ⟨fun a => m.coef a + t * h.coef a, m.intercept + t * h.intercept⟩

theorem eval_move (m h : PolyModel d deg) (t : ℝ) (x : Pt d) : (m.move h t).eval x = m.eval x + t * h.eval x := by
  simp only [PolyModel.eval, PolyModel.move, add_mul, Finset.sum_add_distrib, mul_add, Finset.mul_sum, mul_assoc]
  ring

/-- The directional derivative, up to the factor -2. -/
def slope (D : List (Pt d × ℝ)) (m h : PolyModel d deg) : ℝ :=
  (D.map fun q => (q.2 - m.eval q.1) * h.eval q.1).sum - ∑ a, m.coef a * h.coef a

/-- The loss of `h` for the values 0. -/
def energy (D : List (Pt d × ℝ)) (h : PolyModel d deg) : ℝ :=
  (D.map fun q => h.eval q.1 ^ 2).sum + ∑ a, h.coef a ^ 2

theorem loss_move (D : List (Pt d × ℝ)) (m h : PolyModel d deg) (t : ℝ) :
    ridgeLoss D (m.move h t) = ridgeLoss D m - 2 * t * slope D m h + t ^ 2 * energy D h := by
  have h1 : ∑ a, (m.move h t).coef a ^ 2 =
      ∑ a, m.coef a ^ 2 + 2 * t * ∑ a, m.coef a * h.coef a + t ^ 2 * ∑ a, h.coef a ^ 2 := by
    rw [Finset.mul_sum, Finset.mul_sum, ← Finset.sum_add_distrib, ← Finset.sum_add_distrib]
    refine Finset.sum_congr rfl fun a _ => ?_
    simp only [PolyModel.move]; ring
  have h2 : (D.map fun q => (q.2 - (m.move h t).eval q.1) ^ 2).sum =
      (D.map fun q => (q.2 - m.eval q.1) ^ 2).sum - 2 * t * (D.map fun q => (q.2 - m.eval q.1) * h.eval q.1).sum +
        t ^ 2 * (D.map fun q => h.eval q.1 ^ 2).sum := by
    induction D with
    | nil => simp
    | cons q D ih =>
      rw [List.map_cons, List.sum_cons, ih, eval_move]
      simp only [List.map_cons, List.sum_cons]
      ring
  simp only [ridgeLoss, slope, energy, h1, h2]
  ring

theorem energy_nonneg (D : List (Pt d × ℝ)) (h : PolyModel d deg) : 0 ≤ energy D h := by
  refine add_nonneg (List.sum_nonneg fun v hv => ?_) (Finset.sum_nonneg fun a _ => sq_nonneg _)
  obtain ⟨q, _, rfl⟩ := List.mem_map.1 hv
  exact sq_nonneg _

/-- The energy vanishes only at 0 (if there are data). -/
theorem energy_eq_zero {D : List (Pt d × ℝ)} (hD : D ≠ []) {h : PolyModel d deg} (he : energy D h ≤ 0) :
    (∀ a, h.coef a = 0) ∧ h.intercept = 0 := by
  have hs : 0 ≤ (D.map fun q => h.eval q.1 ^ 2).sum := by
    refine List.sum_nonneg fun v hv => ?_
    obtain ⟨q, _, rfl⟩ := List.mem_map.1 hv
    exact sq_nonneg _
  have hc : 0 ≤ ∑ a, h.coef a ^ 2 := Finset.sum_nonneg fun a _ => sq_nonneg _
  have hz : ∑ a, h.coef a ^ 2 = 0 := by simp only [energy] at he; linarith
  have h0 : ∀ a, h.coef a = 0 := fun a => by
    have := (Finset.sum_eq_zero_iff_of_nonneg fun a _ => sq_nonneg (h.coef a)).1 hz a (Finset.mem_univ a)
    exact pow_eq_zero_iff (two_ne_zero) |>.1 this
  refine ⟨h0, ?_⟩
  have he2 : ∀ x, h.eval x = h.intercept := fun x => by simp [PolyModel.eval, h0]
  obtain ⟨q, D, rfl⟩ := List.exists_cons_of_ne_nil hD
  have hD2 : 0 ≤ (D.map fun q => h.eval q.1 ^ 2).sum := by
    refine List.sum_nonneg fun v hv => ?_
    obtain ⟨q, _, rfl⟩ := List.mem_map.1 hv
    exact sq_nonneg _
  simp only [energy, List.map_cons, List.sum_cons, he2] at he hD2
  have : h.intercept ^ 2 ≤ 0 := by linarith
  exact pow_eq_zero_iff (two_ne_zero) |>.1 (le_antisymm this (sq_nonneg _))

theorem Normal.slope {D : List (Pt d × ℝ)} {m : PolyModel d deg} (hm : Normal D m) (h : PolyModel d deg) :
    slope D m h = 0 := by
  have h1 : (D.map fun q => (q.2 - m.eval q.1) * h.eval q.1).sum =
      h.intercept * (D.map fun q => q.2 - m.eval q.1).sum +
        ∑ a, h.coef a * (D.map fun q => (q.2 - m.eval q.1) * monomial a.1 q.1).sum := by
    clear hm
    generalize hr : (fun q : Pt d × ℝ => q.2 - m.eval q.1) = r
    have hr' : ∀ q : Pt d × ℝ, q.2 - m.eval q.1 = r q := fun q => by rw [← hr]
    simp only [hr']
    induction D with
    | nil => simp
    | cons q D ih =>
      simp only [List.map_cons, List.sum_cons, mul_add, Finset.sum_add_distrib, ih]
      have : r q * h.eval q.1 = h.intercept * r q + ∑ a, h.coef a * (r q * monomial a.1 q.1) := by
        simp only [PolyModel.eval, mul_add, Finset.mul_sum]
        rw [mul_comm]
        congr 1
        exact Finset.sum_congr rfl fun a _ => by ring
      rw [this]; ring
  simp only [Surrogate.slope, h1, hm.intercept, mul_zero, zero_add]
  rw [sub_eq_zero]
  exact Finset.sum_congr rfl fun a _ => by rw [← hm.coef a]; ring

/-- Solutions of the normal equations are the minimizers. -/
theorem isRidge_iff {D : List (Pt d × ℝ)} {m : PolyModel d deg} : IsRidge D m ↔ Normal D m := by
  constructor
  · intro hm
    have hsl : ∀ h, slope D m h = 0 := by
      intro h
      by_contra hne
      have he := energy_nonneg D h
      have key : ∀ t, 0 ≤ - 2 * t * slope D m h + t ^ 2 * energy D h := fun t => by
        have := hm (m.move h t)
        rw [loss_move] at this
        linarith
      have h1 := key (slope D m h / (energy D h + 1))
      have hpos : 0 < energy D h + 1 := by linarith
      have h2 : - 2 * (slope D m h / (energy D h + 1)) * slope D m h + (slope D m h / (energy D h + 1)) ^ 2 * energy D h =
          slope D m h ^ 2 * (- energy D h - 2) / (energy D h + 1) ^ 2 := by
        field_simp; ring
      rw [h2] at h1
      have h3 : slope D m h ^ 2 * (- energy D h - 2) / (energy D h + 1) ^ 2 < 0 := by
        apply div_neg_of_neg_of_pos
        · exact mul_neg_of_pos_of_neg (by positivity) (by linarith)
        · positivity
      linarith
    constructor
    · intro a
      classical
      have := hsl ⟨Pi.single a 1, 0⟩
      have he : ∀ x, (⟨Pi.single a 1, 0⟩ : PolyModel d deg).eval x = monomial a.1 x := fun x => by
        simp [PolyModel.eval, Pi.single_apply, ite_mul]
      simp only [slope, he, Pi.single_apply, mul_ite, mul_one, mul_zero, Finset.sum_ite_eq', Finset.mem_univ, if_true] at this
      linarith
    · have := hsl ⟨fun _ => 0, 1⟩
      have he : ∀ x, (⟨fun _ => 0, 1⟩ : PolyModel d deg).eval x = 1 := fun x => by simp [PolyModel.eval]
      simpa [slope, he] using this
  · intro hm m'
    have hm' : m' = m.move ⟨fun a => m'.coef a - m.coef a, m'.intercept - m.intercept⟩ 1 := by
      cases m'; simp [PolyModel.move]
    rw [hm', loss_move, hm.slope]
    have := energy_nonneg D (⟨fun a => m'.coef a - m.coef a, m'.intercept - m.intercept⟩ : PolyModel d deg)
    linarith

/-- There is at most one minimizer. -/
theorem ridge_unique {D : List (Pt d × ℝ)} (hD : D ≠ []) {m m' : PolyModel d deg} (h : IsRidge D m) (h' : IsRidge D m') :
    m = m' := by
  have hm' : m' = m.move ⟨fun a => m'.coef a - m.coef a, m'.intercept - m.intercept⟩ 1 := by
    cases m'; simp [PolyModel.move]
  have h1 := h' m
  rw [hm', loss_move, (isRidge_iff.1 h).slope] at h1
  obtain ⟨hc, hi⟩ := energy_eq_zero hD
    (h := (⟨fun a => m'.coef a - m.coef a, m'.intercept - m.intercept⟩ : PolyModel d deg)) (by linarith)
  cases m; cases m'
  simp only [PolyModel.mk.injEq]
  exact ⟨funext fun a => (sub_eq_zero.1 (hc a)).symm, (sub_eq_zero.1 hi).symm⟩

/-- The normal equations as a linear map. -/
noncomputable def normalMap (D : List (Pt d × ℝ)) : ((exponents d deg → ℝ) × ℝ) →ₗ[ℝ] ((exponents d deg → ℝ) × ℝ) where
  toFun p := (fun a => p.1 a + (D.map fun q => (⟨p.1, p.2⟩ : PolyModel d deg).eval q.1 * monomial a.1 q.1).sum,
    (D.map fun q => (⟨p.1, p.2⟩ : PolyModel d deg).eval q.1).sum)
  map_add' p p' := by
    have he : ∀ x, (⟨(p + p').1, (p + p').2⟩ : PolyModel d deg).eval x =
        (⟨p.1, p.2⟩ : PolyModel d deg).eval x + (⟨p'.1, p'.2⟩ : PolyModel d deg).eval x := fun x => by
      simp only [PolyModel.eval, Prod.fst_add, Prod.snd_add, Pi.add_apply, add_mul, Finset.sum_add_distrib]; ring
    simp only [he, add_mul, List.sum_map_add]
    ext a
    · simp only [Prod.fst_add, Pi.add_apply]; ring
    · simp
  map_smul' c p := by
    have he : ∀ x, (⟨(c • p).1, (c • p).2⟩ : PolyModel d deg).eval x = c * (⟨p.1, p.2⟩ : PolyModel d deg).eval x := fun x => by
      simp only [PolyModel.eval, Prod.smul_fst, Prod.smul_snd, Pi.smul_apply, smul_eq_mul, mul_add, Finset.mul_sum, mul_assoc]
    simp only [he, mul_assoc, List.sum_map_mul_left]
    ext a
    · simp only [Prod.smul_fst, Pi.smul_apply, smul_eq_mul, RingHom.id_apply]; ring
    · simp

theorem sum_map_neg' {α : Type} (l : List α) (f : α → ℝ) : (l.map fun q => -f q).sum = -(l.map f).sum := by
  induction l with
  | nil => simp
  | cons q l ih => simp only [List.map_cons, List.sum_cons, ih]; ring

theorem sum_map_sub' {α : Type} (l : List α) (f g : α → ℝ) :
    (l.map fun q => f q - g q).sum = (l.map f).sum - (l.map g).sum := by
  induction l with
  | nil => simp
  | cons q l ih => simp only [List.map_cons, List.sum_cons, ih]; ring

/-- There is a minimizer (so the contract can be met). -/
theorem ridge_exists {D : List (Pt d × ℝ)} (hD : D ≠ []) : ∃ m : PolyModel d deg, IsRidge D m := by
  have hinj : Function.Injective (normalMap (deg := deg) D) := by
    rw [← LinearMap.ker_eq_bot, LinearMap.ker_eq_bot']
    intro p hp
    have h1 : ∀ a, p.1 a + (D.map fun q => (⟨p.1, p.2⟩ : PolyModel d deg).eval q.1 * monomial a.1 q.1).sum = 0 :=
      fun a => congrFun (congrArg Prod.fst hp) a
    have h2 : (D.map fun q => (⟨p.1, p.2⟩ : PolyModel d deg).eval q.1).sum = 0 := congrArg Prod.snd hp
    have hN : Normal (D.map fun q => (q.1, (0 : ℝ))) (⟨p.1, p.2⟩ : PolyModel d deg) := by
      constructor
      · intro a
        have := h1 a
        simp only [List.map_map, Function.comp_def, zero_sub, neg_mul, sum_map_neg']
        linarith
      · simp only [List.map_map, Function.comp_def, zero_sub, sum_map_neg', h2, neg_zero]
    have hZ : Normal (D.map fun q => (q.1, (0 : ℝ))) (⟨fun _ => 0, 0⟩ : PolyModel d deg) := by
      constructor <;> simp [PolyModel.eval, Function.comp_def]
    have := ridge_unique (D := D.map fun q => (q.1, (0 : ℝ))) (by simpa using hD) (isRidge_iff.2 hN) (isRidge_iff.2 hZ)
    simp only [PolyModel.mk.injEq] at this
    exact Prod.ext this.1 this.2
  obtain ⟨p, hp⟩ := (LinearMap.injective_iff_surjective.1 hinj)
    (fun a => (D.map fun q => q.2 * monomial a.1 q.1).sum, (D.map fun q => q.2).sum)
  refine ⟨⟨p.1, p.2⟩, isRidge_iff.2 ⟨fun a => ?_, ?_⟩⟩
  · have := congrFun (congrArg Prod.fst hp) a
    simp only [normalMap, LinearMap.coe_mk, AddHom.coe_mk] at this
    simp only [sub_mul, sum_map_sub']
    linarith
  · have := congrArg Prod.snd hp
    simp only [normalMap, LinearMap.coe_mk, AddHom.coe_mk] at this
    rw [sum_map_sub', this, sub_self]

end Verif.Surrogate
