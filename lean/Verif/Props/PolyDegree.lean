import Verif.Props.Poly
import Mathlib.Algebra.MvPolynomial.Degrees
import Mathlib.Algebra.MvPolynomial.Eval

/-! # Property C107: which polynomials are fitted -/

namespace Verif.Props

open Verif.Num Verif.Utils Verif.Surrogate

variable {d deg : ℕ} {lb ub : Pt d} {trans : List ℝ → List ℝ} {ridge : List (Pt d) → List ℝ → PolyModel d deg}

/-- Squared residuals plus squared coefficients of the non-constant monomials. -/
noncomputable def polyLoss (D : List (Pt d × ℝ)) (p : MvPolynomial (Fin d) ℝ) : ℝ :=
  (D.map fun q => (q.2 - MvPolynomial.eval q.1 p) ^ 2).sum + ∑ a ∈ p.support.erase 0, MvPolynomial.coeff a p ^ 2

/-- Exponents as a function. -/
noncomputable def expo (a : Fin d → ℕ) : Fin d →₀ ℕ := Finsupp.equivFunOnFinite.symm a

theorem expo_inj : Function.Injective (expo (d := d)) := Finsupp.equivFunOnFinite.symm.injective

theorem expo_zero : expo (0 : Fin d → ℕ) = 0 := by ext i; rfl

theorem mem_exponents (a : Fin d → ℕ) : a ∈ exponents d deg ↔ ∑ i, a i ≤ deg := by
  simp only [exponents, Finset.mem_filter, Fintype.mem_piFinset, Finset.mem_range, Order.lt_add_one_iff, and_iff_right_iff_imp]
  exact fun h i => (Finset.single_le_sum (f := a) (fun _ _ => Nat.zero_le _) (Finset.mem_univ i)).trans h

theorem eval_expo (a : Fin d → ℕ) (r : ℝ) (x : Pt d) :
    MvPolynomial.eval x (MvPolynomial.monomial (expo a) r) = r * Surrogate.monomial a x := by
  rw [MvPolynomial.eval_monomial, Finsupp.prod_fintype _ _ (fun i => pow_zero _)]
  rfl

theorem degree_expo (a : Fin d → ℕ) : ((expo a).sum fun _ e => e) = ∑ i, a i := by
  rw [Finsupp.sum_fintype _ _ (fun _ => rfl)]
  rfl

/-- The fitted model as a polynomial. -/
noncomputable def asPoly (m : PolyModel d deg) : MvPolynomial (Fin d) ℝ :=
  MvPolynomial.C m.intercept + ∑ a, MvPolynomial.monomial (expo a.1) (m.coef a)

theorem eval_asPoly (m : PolyModel d deg) (x : Pt d) : MvPolynomial.eval x (asPoly m) = m.eval x := by
  simp only [asPoly, map_add, MvPolynomial.eval_C, map_sum, eval_expo, PolyModel.eval]

theorem degree_asPoly (m : PolyModel d deg) : (asPoly m).totalDegree ≤ deg := by
  refine (MvPolynomial.totalDegree_add _ _).trans (max_le (by simp) ?_)
  refine MvPolynomial.totalDegree_finsetSum_le fun a _ => ?_
  refine (MvPolynomial.totalDegree_monomial_le _ _).trans ?_
  rw [show ((expo a.1).sum fun _ => id) = ∑ i, a.1 i from degree_expo a.1]
  exact (mem_exponents _).1 a.2

theorem coeff_asPoly (m : PolyModel d deg) (a : exponents d deg) :
    MvPolynomial.coeff (expo a.1) (asPoly m) = (if a.1 = 0 then m.intercept else 0) + m.coef a := by
  simp only [asPoly, MvPolynomial.coeff_add, MvPolynomial.coeff_C, MvPolynomial.coeff_sum, MvPolynomial.coeff_monomial]
  congr 1
  · congr 1
    apply propext
    constructor
    · intro h; apply expo_inj; rw [← h, expo_zero]
    · intro h; rw [h, expo_zero]
  · rw [Finset.sum_eq_single a]
    · simp
    · intro b _ hb
      rw [if_neg]
      exact fun h => hb (Subtype.ext (expo_inj h))
    · simp

/-- A polynomial as a model. -/
noncomputable def ofPoly (deg : ℕ) (p : MvPolynomial (Fin d) ℝ) : PolyModel d deg :=
  ⟨fun a => if a.1 = 0 then 0 else MvPolynomial.coeff (expo a.1) p, MvPolynomial.coeff 0 p⟩

theorem sum_support {p : MvPolynomial (Fin d) ℝ} (hp : p.totalDegree ≤ deg) (g : (Fin d →₀ ℕ) → ℝ)
    (hg : ∀ a, MvPolynomial.coeff a p = 0 → g a = 0) :
    ∑ a ∈ p.support, g a = ∑ a : exponents d deg, g (expo a.1) := by
  rw [Finset.sum_coe_sort (exponents d deg) fun a => g (expo a)]
  rw [← Finset.sum_image (f := g) (g := expo) (fun a _ b _ h => expo_inj h)]
  refine Finset.sum_subset ?_ ?_
  · intro a ha
    rw [Finset.mem_image]
    refine ⟨Finsupp.equivFunOnFinite a, (mem_exponents _).2 ?_, Finsupp.equivFunOnFinite.symm_apply_apply a⟩
    have := (MvPolynomial.le_totalDegree ha).trans hp
    rw [Finsupp.sum_fintype _ _ (fun _ => rfl)] at this
    exact this
  · intro a _ ha
    exact hg a (MvPolynomial.notMem_support_iff.1 ha)

theorem eval_ofPoly {p : MvPolynomial (Fin d) ℝ} (hp : p.totalDegree ≤ deg) (x : Pt d) :
    (ofPoly deg p).eval x = MvPolynomial.eval x p := by
  rw [MvPolynomial.eval_eq', sum_support hp (fun a => MvPolynomial.coeff a p * ∏ i, x i ^ a i) (fun a h => by simp [h])]
  have h0 : (0 : Fin d → ℕ) ∈ exponents d deg := (mem_exponents _).2 (by simp)
  have h1 : ∑ a : exponents d deg, (if a.1 = 0 then MvPolynomial.coeff 0 p else 0) = MvPolynomial.coeff 0 p := by
    rw [Finset.sum_eq_single ⟨0, h0⟩]
    · simp
    · intro b _ hb
      rw [if_neg]
      exact fun h => hb (Subtype.ext h)
    · simp
  unfold PolyModel.eval ofPoly
  simp only
  rw [← h1, ← Finset.sum_add_distrib]
  refine Finset.sum_congr rfl fun a _ => ?_
  by_cases ha : a.1 = 0
  · simp [ha, expo_zero, h1]
  · simp only [if_neg ha, zero_add]
    rfl

theorem loss_ofPoly (D : List (Pt d × ℝ)) {p : MvPolynomial (Fin d) ℝ} (hp : p.totalDegree ≤ deg) :
    ridgeLoss D (ofPoly deg p) = polyLoss D p := by
  unfold ridgeLoss polyLoss
  simp only [eval_ofPoly hp]
  congr 1
  have h1 : ∑ a ∈ p.support.erase 0, MvPolynomial.coeff a p ^ 2 =
      ∑ a ∈ p.support, if a = 0 then 0 else MvPolynomial.coeff a p ^ 2 := by
    rw [Finset.sum_ite, Finset.sum_const_zero, zero_add]
    refine Finset.sum_congr ?_ fun _ _ => rfl
    ext a; simp [and_comm]
  rw [h1, sum_support hp _ (fun a h => by simp [h])]
  refine Finset.sum_congr rfl fun a _ => ?_
  have : expo a.1 = 0 ↔ a.1 = 0 := by
    rw [← expo_zero]; exact expo_inj.eq_iff
  by_cases ha : a.1 = 0
  · rw [if_pos (this.2 ha)]; simp [ofPoly, ha]
  · rw [if_neg (fun h => ha (this.1 h))]; simp [ofPoly, ha]

/-- The coefficient of the constant feature is 0: the intercept takes its place. -/
theorem Normal.constant {D : List (Pt d × ℝ)} {m : PolyModel d deg} (hm : Normal D m) (a : exponents d deg) (ha : a.1 = 0) :
    m.coef a = 0 := by
  rw [hm.coef, ← hm.intercept]
  simp [ha, Surrogate.monomial]

theorem ofPoly_asPoly {m : PolyModel d deg} (h : ∀ a, a.1 = 0 → m.coef a = 0) : ofPoly deg (asPoly m) = m := by
  have h0 : (0 : Fin d → ℕ) ∈ exponents d deg := (mem_exponents _).2 (by simp)
  have hi : (ofPoly deg (asPoly m)).intercept = m.intercept := by
    have := coeff_asPoly m ⟨0, h0⟩
    simp only [expo_zero, if_true, h ⟨0, h0⟩ rfl, add_zero] at this
    exact this
  have hc : (ofPoly deg (asPoly m)).coef = m.coef := by
    funext a
    unfold ofPoly
    simp only
    by_cases ha : a.1 = 0
    · rw [if_pos ha, h a ha]
    · rw [if_neg ha, coeff_asPoly, if_neg ha, zero_add]
  calc ofPoly deg (asPoly m) = ⟨(ofPoly deg (asPoly m)).coef, (ofPoly deg (asPoly m)).intercept⟩ := rfl
    _ = m := by rw [hi, hc]

/-- The same in terms of polynomials: after any history there is one polynomial of total degree at most `deg` whose values (in
unit coordinates) are the predictions, and among all polynomials of total degree at most `deg` it minimizes the sum of the squared
residuals and of the squared coefficients of the non-constant monomials. -/
theorem C107_polynomial (hr : RidgeSpec ridge) (ht : ∀ f, (trans f).length = f.length) (ops : List (Op d))
    (hops : NoMultiColumn ops) (hD : dataOf d ops ≠ []) :
    ∃ p : MvPolynomial (Fin d) ℝ, p.totalDegree ≤ deg ∧
      (∀ x, polyPredict lb ub trans ridge ops x = some (MvPolynomial.eval (toUnitBox x lb ub) p)) ∧
      ∀ p' : MvPolynomial (Fin d) ℝ, p'.totalDegree ≤ deg →
        polyLoss (unitData lb ub trans (dataOf d ops)) p ≤ polyLoss (unitData lb ub trans (dataOf d ops)) p' := by
  obtain ⟨m, h1, h2⟩ := polyPredict_eq (lb := lb) (ub := ub) hr ht ops hops hD
  refine ⟨asPoly m, degree_asPoly m, fun x => ?_, fun p' hp' => ?_⟩
  · rw [eval_asPoly]; exact h2 x
  · rw [← loss_ofPoly _ (degree_asPoly m), ← loss_ofPoly _ hp',
      ofPoly_asPoly (Normal.constant (isRidge_iff.1 h1))]
    exact h1 _

/-- The data of the refutation satisfy the hypotheses, for every degree: two points on a line. -/
example (ridge : List (Pt 1) → List ℝ → PolyModel 1 deg) (hr : RidgeSpec ridge) :
    ∃ p : MvPolynomial (Fin 1) ℝ, p.totalDegree ≤ deg ∧ ∀ x, polyPredict (fun _ => 0) (fun _ => 1) (fun f => f) ridge
      (twoPts 0 1) x = some (MvPolynomial.eval (toUnitBox x (fun _ => 0) (fun _ => 1)) p) := by
  obtain ⟨p, h1, h2, _⟩ := C107_polynomial (lb := fun _ => 0) (ub := fun _ => 1) (trans := fun f => f) hr (fun _ => rfl) (twoPts 0 1)
    (by intro xx fx h; simp [twoPts] at h; rcases h with h | h <;> simp [h.2, OneColumn]) (by rw [twoPts_data]; simp)
  exact ⟨p, h1, h2⟩

end Verif.Props
