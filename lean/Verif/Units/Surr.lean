import Verif.Units.Cand
import Verif.Props.Reproduce

/-! # The surrogates convert their predictions when the data are converted (for C100) -/

namespace Verif.Loop

open Verif.Num Verif.Utils Verif.Cand Verif.Surrogate Verif.Props

variable {d : ℕ}

theorem median_affine {α : ℝ} (hα : 0 < α) (β : ℝ) (f : List ℝ) (hf : f ≠ []) :
    median (f.map fun v => α * v + β) = α * median f + β := by
  have hs := sorted_map (fun v => α * v + β) (affine_strictMono hα β).monotone f
  have hlen := sorted_length f
  have hpos : 0 < f.length := List.length_pos_of_ne_nil hf
  have hget : ∀ i, i < f.length → (sorted (f.map fun v => α * v + β)).getD i 0 = α * (sorted f).getD i 0 + β := by
    intro i hi
    rw [hs]
    simp [List.getD_eq_getElem?_getD, hlen, hi]
  rcases Nat.mod_two_eq_zero_or_one f.length with h | h
  · rw [median_even _ (by simpa using h), median_even _ h, List.length_map, hget _ (by omega), hget _ (by omega)]
    ring
  · rw [median_odd _ (by simpa using h), median_odd _ h, List.length_map, hget _ (by omega)]

theorem cap_affine {α : ℝ} (hα : 0 < α) (β : ℝ) (f : List ℝ) :
    medianCapping (f.map fun v => α * v + β) = (medianCapping f).map fun v => α * v + β := by
  by_cases hf : f = []
  · subst hf; rfl
  rw [medianCapping_eq, medianCapping_eq, median_affine hα β f hf, List.map_map, List.map_map]
  apply List.map_congr_left
  intro v _
  exact ((affine_strictMono hα β).monotone.map_min).symm

/-- An output transformation that converts with its argument (the identity, median capping). -/
def AffineTrans (trans : List ℝ → List ℝ) : Prop :=
  (∀ (α β : ℝ) (f : List ℝ), 0 < α → trans (f.map fun v => α * v + β) = (trans f).map fun v => α * v + β) ∧
    ∀ f, (trans f).length = f.length

theorem affineTrans_id : AffineTrans fun f => f := ⟨fun _ _ _ _ => rfl, fun _ => rfl⟩

theorem affineTrans_cap : AffineTrans medianCapping := ⟨fun _ β f h => cap_affine h β f, cap_length⟩

theorem AffineTrans.ones {trans : List ℝ → List ℝ} (h : AffineTrans trans) (n i : ℕ) (hi : i < n) :
    (trans (List.replicate n 1)).getD i 0 = 1 := by
  have h2 := h.1 2 0 (List.replicate n 0) (by norm_num)
  have h1 := h.1 1 1 (List.replicate n 0) one_pos
  have hl := h.2 (List.replicate n 0)
  simp only [List.length_replicate] at hl
  simp only [List.map_replicate, mul_zero, add_zero, zero_add] at h1 h2
  have h0 : (trans (List.replicate n 0)).getD i 0 = 0 := by
    have := congrArg (fun l : List ℝ => l.getD i 0) h2
    simp only [List.getD_eq_getElem?_getD, List.getElem?_map] at this ⊢
    rw [List.getElem?_eq_getElem (by omega)] at this ⊢
    simp only [Option.map_some, Option.getD_some] at this ⊢
    linarith
  rw [h1]
  simp only [List.getD_eq_getElem?_getD, List.getElem?_map] at h0 ⊢
  rw [List.getElem?_eq_getElem (by omega)] at h0 ⊢
  simp only [Option.map_some, Option.getD_some] at h0 ⊢
  linarith

/-- `C86_units` also with an output transformation, for increasing conversions. -/
theorem rbf_convert (p : Par d) (hlu : LuSpec p.lu) (hchol : CholSpec p.chol) (htr : AffineTrans p.trans)
    (hT : p.tail = constantTail d ∨ p.tail = linearTail d) (hb : ∀ i, p.lb i < p.ub i) (D : List (Pt d × ℝ))
    (α β : ℝ) (hα : 0 < α) (x : Pt d) :
    (predict p (rrun p (scratch (convert α β D))) x).2 =
      (predict p (rrun p (scratch D)) x).2.map fun s => α * s + β := by
  have hsing : ∀ D' : List (Pt d × ℝ), D'.map Prod.fst = D.map Prod.fst →
      ((predict p (rrun p (scratch D')) x).2 = none ↔ (predict p (rrun p (scratch D)) x).2 = none) := by
    intro D' hD'
    have e1 := (C48_solves p hlu hchol (scratch D') (scratch_ok _) x).1
    have e2 := (C48_solves p hlu hchol (scratch D) (scratch_ok _) x).1
    rw [e1, e2]
    have : ∀ E : List (Pt d × ℝ), (dataOf d (scratch E)).map (fun q => toUnitBox q.1 p.lb p.ub) =
        (E.map Prod.fst).map fun y => toUnitBox y p.lb p.ub := by
      intro E; rw [scratch_data]; simp [List.map_map, Function.comp_def]
    simp only [this, hD', scratch_noFail, or_false]
  have hfst : (convert α β D).map Prod.fst = D.map Prod.fst := by simp [convert, List.map_map, Function.comp_def]
  rcases hp : (predict p (rrun p (scratch D)) x).2 with _ | s
  · rw [(hsing _ hfst).mpr hp]; rfl
  -- the same points, all values one
  have hD₁ : (D.map fun q => (q.1, (1 : ℝ))).map Prod.fst = D.map Prod.fst := by simp [List.map_map, Function.comp_def]
  have f₁ : ∃ x, (predict p (rrun p (scratch (D.map fun q => (q.1, (1 : ℝ))))) x).2 ≠ none :=
    ⟨x, fun hn => by rw [(hsing _ hD₁).mp hn] at hp; cases hp⟩
  have hones : ∀ i < D.length, (p.trans ((D.map fun q => (q.1, (1 : ℝ))).map Prod.snd)).getD i 0 = 1 := by
    intro i hi
    have := htr.ones D.length i hi
    simpa [List.map_map, Function.comp_def, List.map_const'] using this
  have p₁ : (predict p (rrun p (scratch (D.map fun q => (q.1, (1 : ℝ))))) x).2 = some 1 := by
    have hv : ∀ i : Fin (dataOf d (scratch (D.map fun q => (q.1, (1 : ℝ))))).length,
        (p.trans ((dataOf d (scratch (D.map fun q => (q.1, (1 : ℝ))))).map Prod.snd)).getD i 0 = 1 := by
      rintro ⟨i, hi⟩
      simp only [scratch_data, List.length_map] at hi
      simp only [scratch_data]
      exact hones i hi
    rcases hT with hT | hT
    · exact C85_constant p hlu hchol hT _ (scratch_ok _) f₁ 1 hv x
    · have := C85_affine p hlu hchol hT hb _ (scratch_ok _) f₁ (fun _ => 0) 1 (fun i => by rw [hv i]; simp [affine]) x
      simpa [affine] using this
  have := C86_linear p hlu hchol (scratch D) (scratch (D.map fun q => (q.1, (1 : ℝ)))) (scratch (convert α β D))
    (scratch_ok _) (scratch_ok _) (scratch_ok _) (by rw [scratch_data, scratch_data, hfst])
    (by rw [scratch_data, scratch_data, hfst, hD₁]) α β ?_ (scratch_noFail _ _) x s 1 hp p₁
  · rw [this]; simp
  · intro i hi
    rw [scratch_data] at hi
    have hi' : i < D.length := by simpa [convert] using hi
    rw [scratch_data, scratch_data, scratch_data, hones i hi']
    have hmap : (convert α β D).map Prod.snd = (D.map Prod.snd).map fun v => α * v + β := by
      simp [convert, List.map_map, Function.comp_def]
    have hl := htr.2 (D.map Prod.snd)
    rw [List.length_map] at hl
    rw [hmap, htr.1 α β _ hα]
    simp only [List.getD_eq_getElem?_getD, List.getElem?_map]
    rw [List.getElem?_eq_getElem (by omega)]
    simp

open Classical in
/-- An RBF interpolant as a surrogate of the loop: its predictions are those of a fit from scratch (C48), an exception for a
singular system; it has no `predict_std`. -/
noncomputable def rbfSurr (p : Par d) : Surr d where
  mean D := if ∃ x, (predict p (rrun p (scratch D)) x).2 = none then none
    else some fun x => (predict p (rrun p (scratch D)) x).2.getD 0
  std _ := none

/-- A Gaussian process (gp.py:51-85) as a surrogate of the loop: `reg` is the fitted regressor of scikit-learn, a function of
the points in the unit box and the standardized values; it returns mean and standard deviation at a point. -/
noncomputable def gpSurr (lb ub : Pt d) (trans : List ℝ → List ℝ) (reg : List (Pt d) → List ℝ → Pt d → ℝ × ℝ) : Surr d where
  mean D := some fun x =>
    let f := trans (D.map Prod.snd)
    gpUnscale f (reg (D.map fun e => toUnitBox e.1 lb ub) (gpScale f) (toUnitBox x lb ub)).1
  std D := some fun x =>
    let f := trans (D.map Prod.snd)
    gpSigma f * (reg (D.map fun e => toUnitBox e.1 lb ub) (gpScale f) (toUnitBox x lb ub)).2

/-- The standard deviation of the values (`np.std`). -/
noncomputable def stdDev (f : List ℝ) : ℝ := Real.sqrt ((f.map fun v => (v - mean f) ^ 2).sum / f.length)

theorem mean_affine (α β : ℝ) (f : List ℝ) (hf : f ≠ []) : mean (f.map fun v => α * v + β) = α * mean f + β := by
  have hl : (f.length : ℝ) ≠ 0 := by simpa using hf
  have : (f.map fun v => α * v + β).sum = α * f.sum + f.length * β := by
    clear hl hf
    induction f with
    | nil => simp
    | cons x l ih => simp only [List.map_cons, List.sum_cons, ih, List.length_cons]; push_cast; ring
  unfold mean
  rw [this, List.length_map]
  field_simp

theorem stdDev_affine {α : ℝ} (hα : 0 < α) (β : ℝ) (f : List ℝ) : stdDev (f.map fun v => α * v + β) = α * stdDev f := by
  by_cases hf : f = []
  · subst hf; simp [stdDev]
  unfold stdDev
  rw [mean_affine α β f hf, List.map_map, List.length_map]
  have : (f.map ((fun v => (v - (α * mean f + β)) ^ 2) ∘ fun v => α * v + β)).sum =
      α ^ 2 * (f.map fun v => (v - mean f) ^ 2).sum := by
    rw [← List.sum_map_mul_left]
    congr 1
    apply List.map_congr_left
    intro v _
    simp only [Function.comp_apply]; ring
  rw [this, mul_div_assoc, Real.sqrt_mul (by positivity), Real.sqrt_sq hα.le]

theorem gpSigma_eq (f : List ℝ) : gpSigma f = max (stdDev f) (1 / 10 ^ 6) := rfl

/-- If the values are spread by at least `1e-6` in both units, the standardized values are the same. -/
theorem gpScale_affine {α : ℝ} (hα : 0 < α) (β : ℝ) (f : List ℝ) (h1 : 1 / 10 ^ 6 ≤ stdDev f)
    (h2 : 1 / 10 ^ 6 ≤ α * stdDev f) :
    gpScale (f.map fun v => α * v + β) = gpScale f ∧ gpSigma (f.map fun v => α * v + β) = α * gpSigma f := by
  have hs : gpSigma (f.map fun v => α * v + β) = α * gpSigma f := by
    rw [gpSigma_eq, gpSigma_eq, stdDev_affine hα, max_eq_left h1, max_eq_left h2]
  refine ⟨?_, hs⟩
  by_cases hf : f = []
  · subst hf; rfl
  unfold gpScale
  rw [hs, mean_affine α β f hf, List.map_map]
  apply List.map_congr_left
  intro v _
  simp only [Function.comp_apply]
  rw [show α * v + β - (α * mean f + β) = α * (v - mean f) by ring, mul_div_mul_left _ _ hα.ne']

end Verif.Loop
