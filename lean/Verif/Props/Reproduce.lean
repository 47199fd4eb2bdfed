import Verif.Surrogate.FitForm
import Verif.Surrogate.Median
import Verif.Props.Regular

/-!
# Properties C85-C88: what RBF predictions depend on

C85 affine functions are reproduced, C86 predictions are linear in the values, C87 neither the order of the data nor the
units of the variables matter, C88 the regularized fit is at least as close to the data as any affine function.
-/

namespace Verif.Props

open Verif.Num Verif.Utils Verif.Surrogate Finset

variable {d : ℕ}

/-- An affine function. -/
noncomputable def affine (a : Fin d → ℝ) (b : ℝ) (x : Pt d) : ℝ := b + ∑ j, a j * x j

/-- Coefficients of the affine function in the unit box. -/
noncomputable def affineCoef (lb ub : Pt d) (a : Fin d → ℝ) (b : ℝ) : ℕ → ℝ := fun k =>
  if h : 1 ≤ k ∧ k < 1 + d then a ⟨k - 1, by omega⟩ * (ub ⟨k - 1, by omega⟩ - lb ⟨k - 1, by omega⟩)
  else b + ∑ j, a j * lb j

theorem tailPart_affine (p : Par d) (hT : p.tail = linearTail d) (hb : ∀ i, p.lb i < p.ub i) (a : Fin d → ℝ) (b : ℝ) (x : Pt d) :
    tailPart p (affineCoef p.lb p.ub a b) (toUnitBox x p.lb p.ub) = affine a b x := by
  unfold tailPart
  rw [hT]
  show ∑ k ∈ range (1 + d), _ = _
  rw [Finset.sum_range, linearTail_sum _ (fun k => affineCoef p.lb p.ub a b k)]
  unfold affine affineCoef
  rw [dif_neg (by simp)]
  have : ∑ j : Fin d, toUnitBox x p.lb p.ub j * (if h : 1 ≤ (Fin.natAdd 1 j).1 ∧ (Fin.natAdd 1 j).1 < 1 + d then
      a ⟨(Fin.natAdd 1 j).1 - 1, by omega⟩ * (p.ub ⟨(Fin.natAdd 1 j).1 - 1, by omega⟩ - p.lb ⟨(Fin.natAdd 1 j).1 - 1, by omega⟩)
      else b + ∑ j, a j * p.lb j) = ∑ j, (a j * x j - a j * p.lb j) := by
    refine Finset.sum_congr rfl fun j _ => ?_
    rw [dif_pos ⟨by simp, by have := j.2; simp⟩]
    have hj : (⟨(Fin.natAdd 1 j).1 - 1, by have := j.2; simp⟩ : Fin d) = j := Fin.ext (by simp)
    rw [hj]
    have := (sub_pos.mpr (hb j)).ne'
    unfold toUnitBox
    field_simp
  rw [this, Finset.sum_sub_distrib]
  ring

/-! ## C85: reproduction -/

/-- Linear tail, any kernel and regularization: if the (transformed) values are those of an affine function, every
prediction is the value of this function. -/
theorem C85_affine (p : Par d) (hlu : LuSpec p.lu) (hchol : CholSpec p.chol) (hT : p.tail = linearTail d)
    (hb : ∀ i, p.lb i < p.ub i) (ops : List (Op d)) (hops : NoMultiColumn ops)
    (hfit : ∃ x, (predict p (rrun p ops) x).2 ≠ none) (a : Fin d → ℝ) (b : ℝ)
    (hval : ∀ i : Fin (dataOf d ops).length,
      (p.trans ((dataOf d ops).map Prod.snd)).getD i 0 = affine a b (dataOf d ops)[i].1) (x : Pt d) :
    (predict p (rrun p ops) x).2 = some (affine a b x) := by
  have hk : ∀ y, kernelPart p (dataOf d ops) (fun _ => 0) y = 0 := by intro y; simp [kernelPart]
  have hc : Coef p (dataOf d ops) (fun i => (p.trans ((dataOf d ops).map Prod.snd)).getD i 0) (fun _ => 0)
      (affineCoef p.lb p.ub a b) := by
    refine ⟨fun k _ => by simp, fun i => ?_⟩
    rw [hk, tailPart_affine p hT hb, hval i]
    ring
  rw [predict_coef p hlu hchol ops hops hfit _ _ hc x, hk, tailPart_affine p hT hb, zero_add]

/-- Constant tail: equal (transformed) values are reproduced everywhere. -/
theorem C85_constant (p : Par d) (hlu : LuSpec p.lu) (hchol : CholSpec p.chol) (hT : p.tail = constantTail d)
    (ops : List (Op d)) (hops : NoMultiColumn ops)
    (hfit : ∃ x, (predict p (rrun p ops) x).2 ≠ none) (b : ℝ)
    (hval : ∀ i : Fin (dataOf d ops).length, (p.trans ((dataOf d ops).map Prod.snd)).getD i 0 = b) (x : Pt d) :
    (predict p (rrun p ops) x).2 = some b := by
  have hk : ∀ y, kernelPart p (dataOf d ops) (fun _ => 0) y = 0 := by intro y; simp [kernelPart]
  have ht : ∀ y, tailPart p (fun _ => b) y = b := by
    intro y
    unfold tailPart
    rw [hT]
    simp [constantTail]
  have hc : Coef p (dataOf d ops) (fun i => (p.trans ((dataOf d ops).map Prod.snd)).getD i 0) (fun _ => 0) (fun _ => b) := by
    refine ⟨fun k _ => by simp, fun i => ?_⟩
    rw [hk, ht, hval i]
    ring
  rw [predict_coef p hlu hchol ops hops hfit _ _ hc x, hk, ht, zero_add]

/-- The gradient is reproduced too, at every point (also at data points and for every kernel). -/
theorem C85_gradient (p : Par d) (hlu : LuSpec p.lu) (hchol : CholSpec p.chol) (hT : p.tail = linearTail d)
    (hb : ∀ i, p.lb i < p.ub i) (ops : List (Op d)) (hops : NoMultiColumn ops)
    (hfit : ∃ x, (predict p (rrun p ops) x).2 ≠ none) (a : Fin d → ℝ) (b : ℝ)
    (hval : ∀ i : Fin (dataOf d ops).length,
      (p.trans ((dataOf d ops).map Prod.snd)).getD i 0 = affine a b (dataOf d ops)[i].1) (x : Pt d) :
    (predictDeriv p (rrun p ops) x).2 = some a := by
  have hk : ∀ y, kernelPart p (dataOf d ops) (fun _ => 0) y = 0 := by intro y; simp [kernelPart]
  have hc : Coef p (dataOf d ops) (fun i => (p.trans ((dataOf d ops).map Prod.snd)).getD i 0) (fun _ => 0)
      (affineCoef p.lb p.ub a b) := by
    refine ⟨fun k _ => by simp, fun i => ?_⟩
    rw [hk, tailPart_affine p hT hb, hval i]
    ring
  obtain ⟨c, hc', hd⟩ := predictDeriv_coef p hlu hchol ops hops hfit _ _ hc x
  rw [hd]
  congr 1
  funext j
  unfold evalDeriv
  have h0 : ∀ i ∈ range (ptsOf p (dataOf d ops)).length, c (p.tail.dimTail + i) = 0 := by
    intro i hi
    rw [hc' _ (by have := mem_range.mp hi; omega)]
    unfold joinCoef
    rw [if_neg (by omega)]
  simp only
  rw [Finset.sum_eq_zero (s := range (ptsOf p (dataOf d ops)).length) (fun i hi => by rw [h0 i hi]; ring), add_zero, hT]
  have h1 : ∑ k ∈ range (linearTail d).dimTail, (linearTail d).deriv (toUnitBox x p.lb p.ub) j k * c k = c (j.1 + 1) := by
    rw [Finset.sum_eq_single (j.1 + 1)]
    · simp [linearTail]
    · intro k _ hne
      simp [linearTail, hne]
    · intro h
      exfalso
      apply h
      have := j.2
      simp only [linearTail, mem_range]
      omega
  rw [h1, hc' _ (by rw [hT]; have := j.2; simp only [linearTail]; omega)]
  unfold joinCoef
  rw [if_pos (by rw [hT]; have := j.2; simp only [linearTail]; omega)]
  unfold affineCoef
  rw [dif_pos ⟨by omega, by have := j.2; omega⟩]
  have hj : (⟨j.1 + 1 - 1, by have := j.2; omega⟩ : Fin d) = j := Fin.ext (by simp)
  rw [hj]
  exact mul_div_cancel_right₀ _ (sub_pos.mpr (hb j)).ne'

/-! ## C86: linear in the values -/

/-- Three histories with the same points: if the (transformed) values of the third are `α` times those of the first plus
`β` times those of the second, so are the predictions, everywhere (unless an earlier fit of the third failed). -/
theorem C86_linear (p : Par d) (hlu : LuSpec p.lu) (hchol : CholSpec p.chol) (o₁ o₂ o₃ : List (Op d))
    (h₁ : NoMultiColumn o₁) (h₂ : NoMultiColumn o₂) (h₃ : NoMultiColumn o₃)
    (e₁ : (dataOf d o₁).map Prod.fst = (dataOf d o₃).map Prod.fst)
    (e₂ : (dataOf d o₂).map Prod.fst = (dataOf d o₃).map Prod.fst) (α β : ℝ)
    (hval : ∀ i < (dataOf d o₃).length, (p.trans ((dataOf d o₃).map Prod.snd)).getD i 0 =
      α * (p.trans ((dataOf d o₁).map Prod.snd)).getD i 0 + β * (p.trans ((dataOf d o₂).map Prod.snd)).getD i 0)
    (hff : ¬ FailedFit p o₃) (x : Pt d) (s₁ s₂ : ℝ) (p₁ : (predict p (rrun p o₁) x).2 = some s₁) (p₂ : (predict p (rrun p o₂) x).2 = some s₂) :
    (predict p (rrun p o₃) x).2 = some (α * s₁ + β * s₂) := by
  have f₁ : ∃ x, (predict p (rrun p o₁) x).2 ≠ none := ⟨x, by rw [p₁]; simp⟩
  have f₂ : ∃ x, (predict p (rrun p o₂) x).2 ≠ none := ⟨x, by rw [p₂]; simp⟩
  have f₃ : ∃ x, (predict p (rrun p o₃) x).2 ≠ none := by
    refine ⟨x, fun hn => ?_⟩
    have h1 := (C48_solves p hlu hchol o₁ h₁ x).1
    have h3 := ((C48_solves p hlu hchol o₃ h₃ x).1.mp hn).resolve_right hff
    have : (dataOf d o₁).map (fun q => toUnitBox q.1 p.lb p.ub) = (dataOf d o₃).map fun q => toUnitBox q.1 p.lb p.ub := by
      have := congrArg (List.map fun y => toUnitBox y p.lb p.ub) e₁
      simpa [List.map_map, Function.comp_def] using this
    simp only [this] at h1
    rw [h1.mpr (.inl h3)] at p₁
    simp at p₁
  obtain ⟨l₁, b₁, c₁⟩ := exists_coef p hlu hchol o₁ h₁ f₁
  obtain ⟨l₂, b₂, c₂⟩ := exists_coef p hlu hchol o₂ h₂ f₂
  have q₁ := predict_coef p hlu hchol o₁ h₁ f₁ _ _ c₁ x
  have q₂ := predict_coef p hlu hchol o₂ h₂ f₂ _ _ c₂ x
  rw [p₁, Option.some.injEq] at q₁
  rw [p₂, Option.some.injEq] at q₂
  obtain ⟨c₁', k₁⟩ := c₁.congr e₁
  obtain ⟨c₂', k₂⟩ := c₂.congr e₂
  have c₃ := c₁'.comb α β c₂'
  have c₃' : Coef p (dataOf d o₃) (fun i => (p.trans ((dataOf d o₃).map Prod.snd)).getD i 0)
      (fun i => α * l₁ i + β * l₂ i) (fun k => α * b₁ k + β * b₂ k) :=
    ⟨c₃.orth, fun i => by rw [c₃.fits i, hval i i.2]⟩
  rw [predict_coef p hlu hchol o₃ h₃ f₃ _ _ c₃' x, kernelPart_comb, tailPart_comb, k₁, k₂, q₁, q₂]
  congr 1
  ring

/-- Units of the objective (no output transformation, constant or linear tail): multiplying all values by `α` and adding
`β` does the same to every prediction. -/
theorem C86_units (p : Par d) (hlu : LuSpec p.lu) (hchol : CholSpec p.chol) (htr : p.trans = fun f => f)
    (hT : p.tail = constantTail d ∨ p.tail = linearTail d) (hb : ∀ i, p.lb i < p.ub i) (o o' : List (Op d))
    (h : NoMultiColumn o) (h' : NoMultiColumn o') (α β : ℝ)
    (hD : dataOf d o' = (dataOf d o).map fun q => (q.1, α * q.2 + β)) (hff : ¬ FailedFit p o') (x : Pt d) (s : ℝ)
    (hp : (predict p (rrun p o) x).2 = some s) :
    (predict p (rrun p o') x).2 = some (α * s + β) := by
  -- a third history with the same points and all values one
  set o₁ : List (Op d) := scratch ((dataOf d o).map fun q => (q.1, 1)) with ho₁
  have h₁ : NoMultiColumn o₁ := scratch_ok _
  have hD₁ : dataOf d o₁ = (dataOf d o).map fun q => (q.1, 1) := scratch_data _
  have f₁ : ∃ x, (predict p (rrun p o₁) x).2 ≠ none := by
    refine ⟨x, fun hn => ?_⟩
    have h1 := ((C48_solves p hlu hchol o₁ h₁ x).1.mp hn).resolve_right (scratch_noFail p _)
    have h3 := (C48_solves p hlu hchol o h x).1
    rw [hD₁] at h1
    simp only [List.map_map, Function.comp_def] at h1
    rw [h3.mpr (.inl h1)] at hp
    simp at hp
  have p₁ : (predict p (rrun p o₁) x).2 = some 1 := by
    have hv : ∀ i : Fin (dataOf d o₁).length, (p.trans ((dataOf d o₁).map Prod.snd)).getD i 0 = 1 := by
      intro i
      have hi := i.2
      rw [htr]
      simp only [hD₁, List.length_map] at hi
      simp [hD₁, hi]
    rcases hT with hT | hT
    · exact C85_constant p hlu hchol hT o₁ h₁ f₁ 1 hv x
    · have := C85_affine p hlu hchol hT hb o₁ h₁ f₁ (fun _ => 0) 1 (fun i => by rw [hv i]; simp [affine]) x
      simpa [affine] using this
  have := C86_linear p hlu hchol o o₁ o' h h₁ h' (by rw [hD]; simp [List.map_map, Function.comp_def])
    (by rw [hD, hD₁]; simp [List.map_map, Function.comp_def]) α β ?_ hff x s 1 hp p₁
  · simpa using this
  · intro i hi
    rw [hD, List.length_map] at hi
    simp [htr, hD, hD₁, hi]

/-! ## C87: order and units of the data -/

/-- An output transformation that treats equal values alike, whatever their positions (the identity, median capping). -/
def OrderFree (trans : List ℝ → List ℝ) : Prop :=
  ∃ g : Multiset ℝ → ℝ → ℝ, ∀ f : List ℝ, trans f = f.map (g (f : Multiset ℝ))

theorem orderFree_id : OrderFree fun f => f := ⟨fun _ v => v, fun f => by simp⟩

theorem orderFree_cap : OrderFree medianCapping := by
  refine ⟨fun m v => min v (median (m.sort (· ≤ ·))), fun f => ?_⟩
  rw [medianCapping_eq]
  have : median ((f : Multiset ℝ).sort (· ≤ ·)) = median f := by
    unfold median
    have hs : ((f : Multiset ℝ).sort (· ≤ ·)).insertionSort (· ≤ ·) = f.insertionSort (· ≤ ·) := by
      apply List.Perm.eq_of_pairwise' (r := (· ≤ ·)) (List.pairwise_insertionSort _ _) (List.pairwise_insertionSort _ _)
      refine (List.perm_insertionSort _ _).trans (List.Perm.trans ?_ (List.perm_insertionSort _ _).symm)
      exact Multiset.coe_eq_coe.mp (Multiset.sort_eq _ _)
    simp only [hs]
    simp
  beta_reduce
  rw [this]

/-- The order of the data does not matter: histories whose data are rearrangements of one another give the same
predictions, and fail together (if none or both of them contain a failed fit). -/
theorem C87_order (p : Par d) (hlu : LuSpec p.lu) (hchol : CholSpec p.chol) (htr : OrderFree p.trans) (o o' : List (Op d))
    (h : NoMultiColumn o) (h' : NoMultiColumn o') (hD : (dataOf d o').Perm (dataOf d o)) (hff : FailedFit p o' ↔ FailedFit p o)
    (x : Pt d) :
    (predict p (rrun p o') x).2 = (predict p (rrun p o) x).2 := by
  -- one direction of the failure
  have key : ∀ o o' : List (Op d), NoMultiColumn o → NoMultiColumn o' → (dataOf d o').Perm (dataOf d o) →
      (FailedFit p o' ↔ FailedFit p o) →
      (predict p (rrun p o) x).2 = none → (predict p (rrun p o') x).2 = none := by
    intro o o' h h' hD hff hn
    by_cases hf : FailedFit p o
    · exact (C48_solves p hlu hchol o' h' x).1.mpr (.inr (hff.mpr hf))
    rw [predict_none_coef p hlu hchol o h hf x] at hn
    rw [predict_none_coef p hlu hchol o' h' (mt hff.mp hf) x]
    obtain ⟨lam, b, hc, hne⟩ := hn
    obtain ⟨σ, hσ⟩ := perm_equiv hD
    refine ⟨_, b, (hc.perm σ hσ (v' := fun _ => 0) fun _ => rfl).1, ?_⟩
    rcases hne with ⟨i, hi, hne⟩ | hne
    · left
      refine ⟨σ.symm ⟨i, hi⟩, (σ.symm ⟨i, hi⟩).2, ?_⟩
      beta_reduce
      rw [dif_pos (σ.symm ⟨i, hi⟩).2]
      simpa using hne
    · exact .inr hne
  by_cases hn : (predict p (rrun p o) x).2 = none
  · rw [hn, key o o' h h' hD hff hn]
  · have hn' : (predict p (rrun p o') x).2 ≠ none := fun hn' => hn (key o' o h' h hD.symm hff.symm hn')
    obtain ⟨lam, b, hc⟩ := exists_coef p hlu hchol o h ⟨x, hn⟩
    obtain ⟨σ, hσ⟩ := perm_equiv hD
    obtain ⟨g, hg⟩ := htr
    have hms : ((dataOf d o').map Prod.snd : Multiset ℝ) = ((dataOf d o).map Prod.snd : List ℝ) :=
      Multiset.coe_eq_coe.mpr (hD.map Prod.snd)
    have hv : ∀ i : Fin (dataOf d o').length, (p.trans ((dataOf d o').map Prod.snd)).getD i.1 0 =
        (p.trans ((dataOf d o).map Prod.snd)).getD (σ i) 0 := by
      intro i
      have e := hσ i
      rw [Fin.getElem_fin, Fin.getElem_fin] at e
      rw [hg, hg, hms]
      simp [e]
    obtain ⟨hc', hk⟩ := hc.perm σ hσ (v' := fun i => (p.trans ((dataOf d o').map Prod.snd)).getD i 0) hv
    rw [predict_coef p hlu hchol o' h' ⟨x, hn'⟩ _ _ hc' x, hk, predict_coef p hlu hchol o h ⟨x, hn⟩ _ _ hc x]

/-- The units of the variables do not matter: an interpolant with bounds, data and query changed by the same positive
rescaling and shift of each variable gives the same predictions, and fails together (if none or both of the histories
contain a failed fit). -/
theorem C87_units (lb ub : Pt d) (kernel : Kernel) (tail : Tail d) (eta : ℝ) (trans : List ℝ → List ℝ)
    (lu : ℕ → Mat → LuOut) (chol : ℕ → Mat → Option Mat) (hlu : LuSpec lu) (hchol : CholSpec chol) (u v : Fin d → ℝ)
    (hu : ∀ j, u j ≠ 0) (o o' : List (Op d)) (h : NoMultiColumn o) (h' : NoMultiColumn o')
    (hD : dataOf d o' = (dataOf d o).map fun q => ((fun j => u j * q.1 j + v j), q.2))
    (hff : FailedFit ⟨fun j => u j * lb j + v j, fun j => u j * ub j + v j, kernel, tail, eta, trans, lu, chol⟩ o' ↔
      FailedFit ⟨lb, ub, kernel, tail, eta, trans, lu, chol⟩ o) (x : Pt d) :
    (predict ⟨fun j => u j * lb j + v j, fun j => u j * ub j + v j, kernel, tail, eta, trans, lu, chol⟩
      (rrun ⟨fun j => u j * lb j + v j, fun j => u j * ub j + v j, kernel, tail, eta, trans, lu, chol⟩ o')
      fun j => u j * x j + v j).2 =
    (predict ⟨lb, ub, kernel, tail, eta, trans, lu, chol⟩ (rrun ⟨lb, ub, kernel, tail, eta, trans, lu, chol⟩ o) x).2 := by
  have hbox : ∀ y : Pt d, toUnitBox (fun j => u j * y j + v j) (fun j => u j * lb j + v j) (fun j => u j * ub j + v j) =
      toUnitBox y lb ub := by
    intro y
    funext j
    unfold toUnitBox
    rw [show u j * y j + v j - (u j * lb j + v j) = u j * (y j - lb j) by ring,
      show u j * ub j + v j - (u j * lb j + v j) = u j * (ub j - lb j) by ring, mul_div_mul_left _ _ (hu j)]
  obtain ⟨a1, a2⟩ := C48_solves ⟨fun j => u j * lb j + v j, fun j => u j * ub j + v j, kernel, tail, eta, trans, lu, chol⟩
    hlu hchol o' h' fun j => u j * x j + v j
  obtain ⟨b1, b2⟩ := C48_solves ⟨lb, ub, kernel, tail, eta, trans, lu, chol⟩ hlu hchol o h x
  have e1 : (dataOf d o').map (fun q => toUnitBox q.1 (fun j => u j * lb j + v j) (fun j => u j * ub j + v j)) =
      (dataOf d o).map fun q => toUnitBox q.1 lb ub := by
    rw [hD, List.map_map]
    refine List.map_congr_left fun q _ => ?_
    exact hbox q.1
  have e2 : (dataOf d o').map Prod.snd = (dataOf d o).map Prod.snd := by
    rw [hD, List.map_map]; rfl
  simp only [e1, e2] at a1 a2 b1 b2
  have hs : ∀ X, sysDet ⟨fun j => u j * lb j + v j, fun j => u j * ub j + v j, kernel, tail, eta, trans, lu, chol⟩ X =
      sysDet ⟨lb, ub, kernel, tail, eta, trans, lu, chol⟩ X := fun _ => rfl
  rw [hs] at a1 a2
  by_cases hdet : sysDet ⟨lb, ub, kernel, tail, eta, trans, lu, chol⟩ ((dataOf d o).map fun q => toUnitBox q.1 lb ub) = 0 ∨
      FailedFit ⟨lb, ub, kernel, tail, eta, trans, lu, chol⟩ o
  · rw [a1.mpr (hdet.imp_right hff.mpr), b1.mpr hdet]
  · push Not at hdet
    obtain ⟨hdet, hf⟩ := hdet
    obtain ⟨c, hc, e⟩ := a2 hdet (mt hff.mp hf)
    obtain ⟨c', hc', e'⟩ := b2 hdet hf
    rw [e, e', hbox x]
    congr 1
    exact evalAt_unique ⟨lb, ub, kernel, tail, eta, trans, lu, chol⟩ _ _ c c' hdet hc hc' _

/-! ## C88: regularization -/

/-- Cubic kernel with linear tail, `eta ≥ 0`: at the data points the predictions are, in the sum of squares, at least as
close to the (transformed) values as any affine function, in particular as the least squares fit. -/
theorem C88_least_squares (p : Par d) (hlu : LuSpec p.lu) (hchol : CholSpec p.chol) (hT : p.tail = linearTail d)
    (hK : p.kernel = cubicKernel) (heta : 0 ≤ p.eta) (hb : ∀ i, p.lb i < p.ub i) (ops : List (Op d))
    (hops : NoMultiColumn ops) (g : Pt d → ℝ) (hg : ∀ x, (predict p (rrun p ops) x).2 = some (g x)) (a : Fin d → ℝ) (b : ℝ) :
    ∑ i : Fin (dataOf d ops).length, (g (dataOf d ops)[i].1 - (p.trans ((dataOf d ops).map Prod.snd)).getD i 0) ^ 2 ≤
      ∑ i : Fin (dataOf d ops).length,
        (affine a b (dataOf d ops)[i].1 - (p.trans ((dataOf d ops).map Prod.snd)).getD i 0) ^ 2 := by
  have hfit : ∃ x, (predict p (rrun p ops) x).2 ≠ none := ⟨0, by rw [hg]; simp⟩
  obtain ⟨lam, bb, hc⟩ := exists_coef p hlu hchol ops hops hfit
  have hgx : ∀ x, g x = kernelPart p (dataOf d ops) lam (toUnitBox x p.lb p.ub) + tailPart p bb (toUnitBox x p.lb p.ub) := by
    intro x
    have := predict_coef p hlu hchol ops hops hfit _ _ hc x
    rw [hg, Option.some.injEq] at this
    exact this
  set D := dataOf d ops with hD
  set v : ℕ → ℝ := fun i => (p.trans (D.map Prod.snd)).getD i 0 with hv
  set y : Fin D.length → Pt d := fun i => toUnitBox D[i].1 p.lb p.ub with hy
  -- the residual is `-eta * lam`
  have hres : ∀ i : Fin D.length, g D[i].1 - v i = -(p.eta * lam i) := by
    intro i
    rw [hgx, ← hc.fits i]
    ring
  -- orthogonality to all tail functions
  have horth : ∀ w : ℕ → ℝ, ∑ i : Fin D.length, lam i * tailPart p w (y i) = 0 := by
    intro w
    unfold tailPart
    simp only [Finset.mul_sum]
    rw [Finset.sum_comm]
    apply Finset.sum_eq_zero
    intro k hk
    have := hc.orth k (mem_range.mp hk)
    calc ∑ i : Fin D.length, lam i * (p.tail.eval (y i) k * w k) =
        (∑ i : Fin D.length, lam i * p.tail.eval (y i) k) * w k := by
          rw [Finset.sum_mul]; exact Finset.sum_congr rfl fun i _ => by ring
      _ = 0 := by rw [this, zero_mul]
  -- the kernel form is nonnegative
  have hform : 0 ≤ ∑ i : Fin D.length, lam i * kernelPart p D lam (y i) := by
    have hcon : ∀ k < 1 + d, ∑ i, (fun i : Fin D.length => lam i) i * (linearTail d).eval (y i) k = 0 := by
      intro k hk
      have := hc.orth k (by rw [hT]; exact hk)
      rw [hT] at this
      exact this
    obtain ⟨q1, q2⟩ := linearTail_constraints y (fun i => lam i) hcon
    refine le_of_le_of_eq (cubic_form y (fun i => lam i) q1 q2).1 ?_
    refine Finset.sum_congr rfl fun i _ => ?_
    unfold kernelPart
    rw [Finset.mul_sum, hK]
    refine Finset.sum_congr rfl fun j _ => ?_
    show _ = lam i * (eucl (y i) (y j) ^ 3 * lam j)
    ring
  -- `eta * |lam|² ≤ <lam, v - affine>`
  have hin : p.eta * ∑ i : Fin D.length, lam i ^ 2 ≤ ∑ i : Fin D.length, lam i * (v i - affine a b D[i].1) := by
    have h1 := horth (affineCoef p.lb p.ub a b)
    have h2 := horth bb
    have e : ∑ i : Fin D.length, lam i * (v i - affine a b D[i].1) =
        ∑ i : Fin D.length, lam i * kernelPart p D lam (y i) + ∑ i : Fin D.length, lam i * tailPart p bb (y i) +
        p.eta * ∑ i : Fin D.length, lam i ^ 2 -
        ∑ i : Fin D.length, lam i * tailPart p (affineCoef p.lb p.ub a b) (y i) := by
      rw [Finset.mul_sum, ← Finset.sum_add_distrib, ← Finset.sum_add_distrib, ← Finset.sum_sub_distrib]
      refine Finset.sum_congr rfl fun i _ => ?_
      rw [← hc.fits i, hy]
      simp only
      rw [tailPart_affine p hT hb]
      ring
    rw [e, h1, h2]
    linarith
  -- conclusion: `|r - eta lam|² ≥ 0` with `r = v - affine`
  have hsq : ∀ i : Fin D.length, (g D[i].1 - v i) ^ 2 ≤
      (affine a b D[i].1 - v i) ^ 2 + 2 * p.eta * (p.eta * lam i ^ 2 - lam i * (v i - affine a b D[i].1)) := by
    intro i
    rw [hres i]
    nlinarith [sq_nonneg (v i - affine a b D[i].1 - p.eta * lam i)]
  calc ∑ i : Fin D.length, (g D[i].1 - v i) ^ 2
      ≤ ∑ i : Fin D.length, ((affine a b D[i].1 - v i) ^ 2 +
        2 * p.eta * (p.eta * lam i ^ 2 - lam i * (v i - affine a b D[i].1))) := Finset.sum_le_sum fun i _ => hsq i
    _ = ∑ i : Fin D.length, (affine a b D[i].1 - v i) ^ 2 +
        2 * p.eta * (p.eta * ∑ i : Fin D.length, lam i ^ 2 - ∑ i : Fin D.length, lam i * (v i - affine a b D[i].1)) := by
      rw [Finset.sum_add_distrib, ← Finset.mul_sum, Finset.sum_sub_distrib, ← Finset.mul_sum]
    _ ≤ _ := by
      have := mul_nonneg (mul_nonneg (by norm_num : (0:ℝ) ≤ 2) heta) (sub_nonneg.mpr hin)
      linarith

/-! ## Examples -/

/-- The default interpolant of the box `[0, 2] × [-1, 3]`. -/
noncomputable def demoPar (lu : ℕ → Mat → LuOut) (chol : ℕ → Mat → Option Mat) (trans : List ℝ → List ℝ) : Par 2 :=
  ⟨![0, -1], ![2, 3], cubicKernel, linearTail 2, 1e-6, trans, lu, chol⟩

/-- Three points, a prediction, then a repeated point with another value, after a reset of earlier data. -/
noncomputable def demoHist (v w : ℝ) : List (Op 2) :=
  [.add (.vec [1, 1]) (.float 7), .reset, .add (.vec [0, 0]) (.float 1), .add (.mat 2 2 ![![1, 0], ![0, 1]]) (.arr1 [3, 0]),
    .predict 0, .add (.vec [v, w]) (.float (1 + 2 * v - w))]

theorem demoHist_data (v w : ℝ) : dataOf 2 (demoHist v w) =
    [(![0, 0], 1), (![1, 0], 3), (![0, 1], 0), (![v, w], 1 + 2 * v - w)] := by
  have h2 : ∀ a b : ℝ, (fun i : Fin 2 => ([a, b] : List ℝ)[i]) = ![a, b] := by
    intro a b; funext i; fin_cases i <;> rfl
  simp only [demoHist, dataOf, List.foldl_cons, List.foldl_nil, accepted, pointsOf, valuesOf, dite_true, List.length_cons,
    List.length_nil]
  simp [h2, List.ofFn_succ]
  constructor <;> (funext i; fin_cases i <;> rfl)

theorem demoHist_ok (v w : ℝ) : NoMultiColumn (demoHist v w) := by
  intro xx fx h
  simp only [demoHist, List.mem_cons, List.not_mem_nil, or_false] at h
  rcases h with h | h | h | h | h | h <;> cases h <;> trivial

theorem not_onHyperplane_tri (P : List (Pt 2)) (h1 : ![0, 0] ∈ P) (h2 : ![1, 0] ∈ P) (h3 : ![0, 1] ∈ P) : ¬ OnHyperplane P := by
  rintro ⟨u, b, hu, h⟩
  apply hu
  have h1 := h ![0, 0] h1
  have h2 := h ![1, 0] h2
  have h3 := h ![0, 1] h3
  simp [Fin.sum_univ_two] at h1 h2 h3
  funext j
  fin_cases j
  · simp only [Pi.zero_apply]; show u 0 = 0; linarith
  · simp only [Pi.zero_apply]; show u 1 = 0; linarith

/-- The only prediction of the history is made with three points that do not lie on a line. -/
theorem demoHist_noFail (v w : ℝ) : ¬ FailedOnHyperplane (demoHist v w) := by
  rintro ⟨o₁, x, o₂, h, hr, ht, hh⟩
  have hd : o₁ = [.add (.vec [1, 1]) (.float 7), .reset, .add (.vec [0, 0]) (.float 1),
      .add (.mat 2 2 ![![1, 0], ![0, 1]]) (.arr1 [3, 0])] := by
    unfold demoHist at h
    rcases o₁ with _ | ⟨a1, _ | ⟨a2, _ | ⟨a3, _ | ⟨a4, _ | ⟨a5, _ | ⟨a6, o₁⟩⟩⟩⟩⟩⟩ <;> simp at h
    obtain ⟨rfl, rfl, rfl, rfl, _⟩ := h
    rfl
  subst hd
  have h2 : ∀ a b : ℝ, (fun i : Fin 2 => ([a, b] : List ℝ)[i]) = ![a, b] := by
    intro a b; funext i; fin_cases i <;> rfl
  simp only [dataOf, List.foldl_cons, List.foldl_nil, accepted, pointsOf, valuesOf, dite_true, List.length_cons,
    List.length_nil] at hh
  simp [h2, List.ofFn_succ] at hh
  exact not_onHyperplane_tri _ (List.mem_cons.mpr (.inl (by funext i; fin_cases i <;> rfl))) (by simp) (by simp) hh

theorem demoHist_fit (lu : ℕ → Mat → LuOut) (chol : ℕ → Mat → Option Mat) (hlu : LuSpec lu) (hchol : CholSpec chol)
    (trans : List ℝ → List ℝ) (v w : ℝ) (x : Pt 2) :
    (predict (demoPar lu chol trans) (rrun (demoPar lu chol trans) (demoHist v w)) x).2 ≠ none := by
  unfold demoPar
  rw [Ne, C77_cubic _ _ (by intro i; fin_cases i <;> norm_num) _ (by norm_num) _ _ _ hlu hchol _ (demoHist_ok v w) x
    (.inl (by norm_num)), demoHist_data]
  rintro (h | h | h)
  · simp at h
  · exact not_onHyperplane_tri _ (by simp) (by simp) (by simp) h
  · exact demoHist_noFail v w h

/-- C85 applies: the values are those of `1 + 2 x - y`, which is predicted everywhere, in spite of the regularization. -/
example (v w : ℝ) (x : Pt 2) : ∃ lu chol, LuSpec lu ∧ CholSpec chol ∧
    (predict (demoPar lu chol fun f => f) (rrun (demoPar lu chol fun f => f) (demoHist v w)) x).2 =
      some (1 + (2 * x 0 - x 1)) := by
  obtain ⟨lu, chol, h1, h2, _⟩ := exists_library
  refine ⟨lu, chol, h1, h2, ?_⟩
  have := C85_affine (demoPar lu chol fun f => f) h1 h2 rfl (by intro i; fin_cases i <;> norm_num [demoPar]) (demoHist v w)
    (demoHist_ok v w) ⟨x, demoHist_fit lu chol h1 h2 _ v w x⟩ ![2, -1] 1 ?_ x
  · rw [this]
    simp [affine, Fin.sum_univ_two, sub_eq_add_neg]
  · have key : ∀ D : List (Pt 2 × ℝ), D = [(![0, 0], 1), (![1, 0], 3), (![0, 1], 0), (![v, w], 1 + 2 * v - w)] →
        ∀ i : Fin D.length, (D.map Prod.snd).getD i 0 = affine ![2, -1] 1 D[i].1 := by
      rintro _ rfl i
      rcases i with ⟨_ | _ | _ | _ | n, hn⟩
      · simp [affine, Fin.sum_univ_two]
      · simp [affine, Fin.sum_univ_two]; norm_num
      · simp [affine, Fin.sum_univ_two]
      · simp [affine, Fin.sum_univ_two]; ring
      · exact absurd hn (by simp)
    exact key _ (demoHist_data v w)

/-- C86 and C87 apply: data with the values doubled and shifted, and the same data in another order; no fit fails. -/
example (v w : ℝ) : ∃ lu chol, LuSpec lu ∧ CholSpec chol ∧ ∃ o o' : List (Op 2), NoMultiColumn o ∧ NoMultiColumn o' ∧
    dataOf 2 o = (dataOf 2 (demoHist v w)).map (fun q => (q.1, 2 * q.2 + 5)) ∧
    (dataOf 2 o').Perm (dataOf 2 (demoHist v w)) ∧ ¬ FailedFit (demoPar lu chol fun f => f) o ∧
    (FailedFit (demoPar lu chol fun f => f) o' ↔ FailedFit (demoPar lu chol fun f => f) (demoHist v w)) := by
  obtain ⟨lu, chol, h1, h2, _⟩ := exists_library
  refine ⟨lu, chol, h1, h2, scratch ((dataOf 2 (demoHist v w)).map fun q => (q.1, 2 * q.2 + 5)),
    scratch (dataOf 2 (demoHist v w)).reverse, scratch_ok _, scratch_ok _, scratch_data _, ?_, scratch_noFail _ _, ?_⟩
  · rw [scratch_data]; exact List.reverse_perm _
  · exact iff_of_false (scratch_noFail _ _)
      (predict_solves _ h1 h2 _ (demoHist_ok v w) 0 (demoHist_fit lu chol h1 h2 _ v w 0)).2.1

/-- C88 applies to these data with any transformation of the values: all predictions are given. -/
example (trans : List ℝ → List ℝ) (v w : ℝ) : ∃ lu chol, LuSpec lu ∧ CholSpec chol ∧
    ∃ g : Pt 2 → ℝ, ∀ x, (predict (demoPar lu chol trans) (rrun (demoPar lu chol trans) (demoHist v w)) x).2 = some (g x) := by
  obtain ⟨lu, chol, h1, h2, _⟩ := exists_library
  refine ⟨lu, chol, h1, h2, fun x => ((predict (demoPar lu chol trans) (rrun (demoPar lu chol trans) (demoHist v w)) x).2).getD 0,
    fun x => ?_⟩
  obtain ⟨y, hy⟩ := Option.ne_none_iff_exists'.mp (demoHist_fit lu chol h1 h2 trans v w x)
  beta_reduce
  rw [hy]
  rfl

end Verif.Props
