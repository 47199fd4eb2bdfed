import Verif.Surrogate.Poly
import Verif.Props.Surrogate
import Mathlib.Tactic.FieldSimp

/-! # Property C107: polynomial regression -/

namespace Verif.Props

open Verif.Num Verif.Utils Verif.Surrogate

variable {d deg : ℕ} {lb ub : Pt d} {trans : List ℝ → List ℝ} {ridge : List (Pt d) → List ℝ → PolyModel d deg}

/-- The data in unit coordinates, with transformed values. -/
noncomputable def unitData (lb ub : Pt d) (trans : List ℝ → List ℝ) (D : List (Pt d × ℝ)) : List (Pt d × ℝ) :=
  (D.map fun q => toUnitBox q.1 lb ub).zip (trans (D.map Prod.snd))

theorem polyPredict_eq (hr : RidgeSpec ridge) (ht : ∀ f, (trans f).length = f.length) (ops : List (Op d))
    (hops : NoMultiColumn ops) (hD : dataOf d ops ≠ []) :
    ∃ m : PolyModel d deg, IsRidge (unitData lb ub trans (dataOf d ops)) m ∧
      ∀ x, polyPredict lb ub trans ridge ops x = some (m.eval (toUnitBox x lb ub)) := by
  refine ⟨ridge ((dataOf d ops).map fun q => toUnitBox q.1 lb ub) (trans ((dataOf d ops).map Prod.snd)), ?_, ?_⟩
  · exact hr _ _ (by simpa using hD) (by simp [ht])
  · intro x
    obtain ⟨h, h1, h2⟩ := C50_fresh lb ub trans (lastFit ridge) ops hops x
    rw [h1] at h2
    unfold polyPredict polyRun
    rw [h2]
    rfl

theorem unitData_ne {D : List (Pt d × ℝ)} (ht : ∀ f, (trans f).length = f.length) (hD : D ≠ []) :
    unitData lb ub trans D ≠ [] := by
  intro h
  have := congrArg List.length h
  simp [unitData, ht] at this
  exact hD this

/-- After any history a prediction is the value of the polynomial of degree at most `deg` (in unit coordinates, intercept
separate) that minimizes the sum of the squared residuals plus the sum of the squared coefficients. -/
theorem C107_least (hr : RidgeSpec ridge) (ht : ∀ f, (trans f).length = f.length) (ops : List (Op d))
    (hops : NoMultiColumn ops) (hD : dataOf d ops ≠ []) :
    ∃ m : PolyModel d deg, (∀ x, polyPredict lb ub trans ridge ops x = some (m.eval (toUnitBox x lb ub))) ∧
      ∀ m' : PolyModel d deg, ridgeLoss (unitData lb ub trans (dataOf d ops)) m ≤
        ridgeLoss (unitData lb ub trans (dataOf d ops)) m' := by
  obtain ⟨m, h1, h2⟩ := polyPredict_eq (lb := lb) (ub := ub) hr ht ops hops hD
  exact ⟨m, h2, h1⟩

theorem isRidge_perm {D D' : List (Pt d × ℝ)} (h : D.Perm D') {m : PolyModel d deg} (hm : IsRidge D m) : IsRidge D' m := by
  have : ∀ m' : PolyModel d deg, ridgeLoss D' m' = ridgeLoss D m' := fun m' => by
    unfold ridgeLoss
    rw [(h.symm.map _).sum_eq]
  intro m'
  rw [this, this]
  exact hm m'

/-- Predictions depend on nothing but the set of data in unit coordinates and the point in unit coordinates: not on the
order in which the points came, not on earlier predictions, resets and fits, not on the units and the origin of the
variables, and not on the method with which the least-squares problem is solved. -/
theorem C107_determined {lb' ub' : Pt d} {trans' : List ℝ → List ℝ} {ridge' : List (Pt d) → List ℝ → PolyModel d deg}
    (hr : RidgeSpec ridge) (hr' : RidgeSpec ridge') (ht : ∀ f, (trans f).length = f.length)
    (ht' : ∀ f, (trans' f).length = f.length) (ops ops' : List (Op d)) (hops : NoMultiColumn ops)
    (hops' : NoMultiColumn ops') (hD : dataOf d ops ≠ [])
    (hperm : (unitData lb ub trans (dataOf d ops)).Perm (unitData lb' ub' trans' (dataOf d ops'))) (x x' : Pt d)
    (hx : toUnitBox x lb ub = toUnitBox x' lb' ub') :
    polyPredict lb ub trans ridge ops x = polyPredict lb' ub' trans' ridge' ops' x' := by
  have hne := unitData_ne (lb := lb) (ub := ub) ht hD
  have hne' : unitData lb' ub' trans' (dataOf d ops') ≠ [] := fun h => hne (by rw [h] at hperm; exact hperm.eq_nil)
  have hD' : dataOf d ops' ≠ [] := fun h => hne' (by simp [h, unitData])
  obtain ⟨m, h1, h2⟩ := polyPredict_eq (lb := lb) (ub := ub) hr ht ops hops hD
  obtain ⟨m', h1', h2'⟩ := polyPredict_eq (lb := lb') (ub := ub') hr' ht' ops' hops' hD'
  rw [h2, h2', hx, ridge_unique hne' (isRidge_perm hperm h1) h1']

theorem unitData_id (D : List (Pt d × ℝ)) :
    unitData lb ub (fun f => f) D = D.map fun q => (toUnitBox q.1 lb ub, q.2) := by
  unfold unitData
  induction D with
  | nil => rfl
  | cons q D ih => simp only [List.map_cons, List.zip_cons_cons, ih]

/-- Units of the objective (no output transformation): multiplying all values by `α` and adding `β` does the same to every
prediction. -/
theorem C107_units (hr : RidgeSpec ridge) (ops ops' : List (Op d)) (hops : NoMultiColumn ops)
    (hops' : NoMultiColumn ops') (hD : dataOf d ops ≠ []) (α β : ℝ)
    (hv : dataOf d ops' = (dataOf d ops).map fun q => (q.1, α * q.2 + β)) (x : Pt d) :
    polyPredict lb ub (fun f => f) ridge ops' x = (polyPredict lb ub (fun f => f) ridge ops x).map fun v => α * v + β := by
  have ht : ∀ f : List ℝ, ((fun f => f) f : List ℝ).length = f.length := fun _ => rfl
  have hD' : dataOf d ops' ≠ [] := by rw [hv]; simpa using hD
  obtain ⟨m, h1, h2⟩ := polyPredict_eq (lb := lb) (ub := ub) hr ht ops hops hD
  obtain ⟨m', h1', h2'⟩ := polyPredict_eq (lb := lb) (ub := ub) hr ht ops' hops' hD'
  set n : PolyModel d deg := ⟨fun a => α * m.coef a, α * m.intercept + β⟩ with hn
  have hne : ∀ y, n.eval y = α * m.eval y + β := fun y => by
    simp only [hn, PolyModel.eval, mul_add, Finset.mul_sum, mul_assoc]; ring
  have hnr : IsRidge (unitData lb ub (fun f => f) (dataOf d ops')) n := by
    have hm := isRidge_iff.1 h1
    rw [isRidge_iff]
    rw [unitData_id] at hm ⊢
    rw [hv]
    have hres : ∀ q : Pt d × ℝ, (α * q.2 + β) - n.eval (toUnitBox q.1 lb ub) =
        α * (q.2 - m.eval (toUnitBox q.1 lb ub)) := fun q => by rw [hne]; ring
    constructor
    · intro a
      have := hm.coef a
      simp only [List.map_map, Function.comp_def] at this ⊢
      simp only [hres, mul_assoc, List.sum_map_mul_left]
      rw [← this]
    · have := hm.intercept
      simp only [List.map_map, Function.comp_def] at this ⊢
      simp only [hres, List.sum_map_mul_left, this, mul_zero]
  rw [h2, h2', ridge_unique (unitData_ne ht hD') h1' hnr, hne]
  rfl

/-- The residuals at the data add up to zero (no output transformation). -/
theorem C107_residuals (hr : RidgeSpec ridge) (ops : List (Op d)) (hops : NoMultiColumn ops) (hD : dataOf d ops ≠ []) :
    ∃ s : Pt d → ℝ, (∀ x, polyPredict lb ub (fun f => f) ridge ops x = some (s x)) ∧
      ((dataOf d ops).map fun q => q.2 - s q.1).sum = 0 := by
  obtain ⟨m, h1, h2⟩ := polyPredict_eq (lb := lb) (ub := ub) (trans := fun f => f) hr (fun _ => rfl) ops hops hD
  refine ⟨fun x => m.eval (toUnitBox x lb ub), h2, ?_⟩
  have := (isRidge_iff.1 h1).intercept
  rw [unitData_id] at this
  simpa [Function.comp_def] using this

/-- Full statement: values of a polynomial of the degree of the regressor are reproduced.  False (`C107_refuted`).  Exactly
when are the data reproduced? If and only if all values are equal, and then the prediction is that value everywhere. -/
theorem C107_reproduces_partial (hr : RidgeSpec ridge) (ops : List (Op d)) (hops : NoMultiColumn ops)
    (hD : dataOf d ops ≠ []) :
    ((∀ q ∈ dataOf d ops, polyPredict lb ub (fun f => f) ridge ops q.1 = some q.2) ↔
      ∃ c, ∀ q ∈ dataOf d ops, q.2 = c) ∧
    ∀ c, (∀ q ∈ dataOf d ops, q.2 = c) → ∀ x, polyPredict lb ub (fun f => f) ridge ops x = some c := by
  have ht : ∀ f : List ℝ, ((fun f => f) f : List ℝ).length = f.length := fun _ => rfl
  obtain ⟨m, h1, h2⟩ := polyPredict_eq (lb := lb) (ub := ub) hr ht ops hops hD
  have hconst : ∀ c, (∀ q ∈ dataOf d ops, q.2 = c) → ∀ x, polyPredict lb ub (fun f => f) ridge ops x = some c := by
    intro c hc x
    have hn : IsRidge (unitData lb ub (fun f => f) (dataOf d ops)) (⟨fun _ => 0, c⟩ : PolyModel d deg) := by
      rw [isRidge_iff, unitData_id]
      have hz : ∀ q ∈ dataOf d ops, q.2 - (⟨fun _ => 0, c⟩ : PolyModel d deg).eval (toUnitBox q.1 lb ub) = 0 :=
        fun q hq => by simp [PolyModel.eval, hc q hq]
      constructor
      · intro a
        symm
        refine List.sum_eq_zero fun v hv => ?_
        simp only [List.map_map, List.mem_map, Function.comp_apply] at hv
        obtain ⟨q, hq, rfl⟩ := hv
        rw [hz q hq, zero_mul]
      · refine List.sum_eq_zero fun v hv => ?_
        simp only [List.map_map, List.mem_map, Function.comp_apply] at hv
        obtain ⟨q, hq, rfl⟩ := hv
        exact hz q hq
    rw [h2, ridge_unique (unitData_ne ht hD) h1 hn]
    simp [PolyModel.eval]
  refine ⟨⟨fun h => ?_, fun ⟨c, hc⟩ q hq => by rw [hconst c hc, hc q hq]⟩, hconst⟩
  have hm := isRidge_iff.1 h1
  rw [unitData_id] at hm
  have hz : ∀ q ∈ dataOf d ops, m.eval (toUnitBox q.1 lb ub) = q.2 := fun q hq => by
    have := h q hq
    rw [h2] at this
    exact Option.some.inj this
  have h0 : ∀ a, m.coef a = 0 := fun a => by
    rw [hm.coef a]
    refine List.sum_eq_zero fun v hv => ?_
    simp only [List.map_map, List.mem_map, Function.comp_apply] at hv
    obtain ⟨q, hq, rfl⟩ := hv
    rw [hz q hq, sub_self, zero_mul]
  exact ⟨m.intercept, fun q hq => by rw [← hz q hq]; simp [PolyModel.eval, h0]⟩

/-- A history: two calls of `add_points` with the points 0 and 1, values `v` and `w`. -/
def twoPts (v w : ℝ) : List (Op 1) := [.add (.vec [0]) (.float v), .add (.vec [1]) (.float w)]

theorem twoPts_data (v w : ℝ) : dataOf 1 (twoPts v w) = [(fun _ => 0, v), (fun _ => 1, w)] := by
  simp [twoPts, dataOf, accepted, pointsOf, valuesOf]

/-- The default regressor (degree 2) on [0, 1] does not reproduce the values of the identity, a polynomial of degree 1. -/
theorem C107_refuted (ridge : List (Pt 1) → List ℝ → PolyModel 1 2) (hr : RidgeSpec ridge) :
    (∀ q ∈ dataOf 1 (twoPts 0 1), q.2 = q.1 0) ∧
    ∃ q ∈ dataOf 1 (twoPts 0 1), polyPredict (fun _ => 0) (fun _ => 1) (fun f => f) ridge (twoPts 0 1) q.1 ≠ some q.2 := by
  have hd := twoPts_data 0 1
  refine ⟨by rw [hd]; simp, ?_⟩
  by_contra hcon
  push Not at hcon
  obtain ⟨c, hc⟩ := (C107_reproduces_partial hr (twoPts 0 1)
    (by intro xx fx h; simp [twoPts] at h; rcases h with h | h <;> simp [h.2, OneColumn]) (by rw [hd]; simp)).1.1 hcon
  rw [hd] at hc
  have h0 := hc _ (List.mem_cons_self)
  have h1 := hc _ (List.mem_cons_of_mem _ List.mem_cons_self)
  simp at h0 h1
  linarith

/-- The contract of the ridge regression can be met. -/
theorem exists_ridge (d deg : ℕ) : ∃ ridge : List (Pt d) → List ℝ → PolyModel d deg, RidgeSpec ridge := by
  classical
  refine ⟨fun X f => if h : X.zip f ≠ [] then (ridge_exists (deg := deg) h).choose else ⟨fun _ => 0, 0⟩, ?_⟩
  intro X f hX hl m
  have h : X.zip f ≠ [] := by
    intro h
    have := congrArg List.length h
    simp [← hl] at this
    exact hX this
  simp only [dif_pos h]
  exact (ridge_exists (deg := deg) h).choose_spec m

/-- The hypotheses are met: a regression on the two points, whose predictions exist everywhere. -/
example : ∃ ridge : List (Pt 1) → List ℝ → PolyModel 1 2, RidgeSpec ridge ∧
    ∃ v, polyPredict (fun _ => 0) (fun _ => 1) (fun f => f) ridge (twoPts 0 1) (fun _ => 1 / 2) = some v := by
  obtain ⟨ridge, hr⟩ := exists_ridge 1 2
  obtain ⟨m, h, _⟩ := C107_least (lb := fun _ => 0) (ub := fun _ => 1) (trans := fun f => f) hr (fun _ => rfl) (twoPts 0 1)
    (by intro xx fx h; simp [twoPts] at h; rcases h with h | h <;> simp [h.2, OneColumn]) (by rw [twoPts_data]; simp)
  exact ⟨ridge, hr, _, h _⟩

end Verif.Props
