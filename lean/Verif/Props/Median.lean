import Verif.Surrogate.Median

/-! # Property C51: median capping; standardization of the GP -/

namespace Verif.Props

open Verif.Surrogate

/-- What is used as median is one: at least half of the values are at most it, at least half at least it. -/
theorem C51_median (x : List ℝ) (hx : x ≠ []) :
    x.length ≤ 2 * x.countP (fun v => decide (v ≤ median x)) ∧
    x.length ≤ 2 * x.countP (fun v => decide (median x ≤ v)) := by
  have hp : 0 < x.length := List.length_pos_iff.mpr hx
  obtain ⟨h1, h2⟩ := median_between x hx
  have a := countP_le_ge x ((x.length - 1) / 2) (by omega) _ h1
  have b := countP_ge_ge x (x.length / 2) (by omega) _ h2
  omega

/-- Position by position: never raised, unchanged up to the median, capped above it. -/
theorem C51_cap (x : List ℝ) :
    (medianCapping x).length = x.length ∧
    ∀ (i : ℕ) (h : i < x.length) (h' : i < (medianCapping x).length),
      (medianCapping x)[i] ≤ x[i] ∧ (x[i] ≤ median x → (medianCapping x)[i] = x[i]) ∧
      (median x < x[i] → (medianCapping x)[i] = median x) := by
  refine ⟨cap_length x, fun i h h' => ?_⟩
  have : (medianCapping x)[i] = min x[i] (median x) := by simp [medianCapping_eq]
  rw [this]
  exact ⟨min_le_left _ _, fun h => min_eq_left h, fun h => min_eq_right h.le⟩

/-- The order is kept. -/
theorem C51_order (x : List ℝ) (i j : ℕ) (hi : i < x.length) (hj : j < x.length) (h : x[i] ≤ x[j]) :
    (medianCapping x)[i]'(by rw [cap_length]; exact hi) ≤ (medianCapping x)[j]'(by rw [cap_length]; exact hj) := by
  simp only [medianCapping_eq, List.getElem_map]
  exact min_le_min_right _ h

/-- The smallest value is kept, where it is and as the smallest. -/
theorem C51_minimum (x : List ℝ) (i : ℕ) (hi : i < x.length) (h : ∀ v ∈ x, x[i] ≤ v) :
    (medianCapping x)[i]'(by rw [cap_length]; exact hi) = x[i] ∧ ∀ v ∈ medianCapping x, x[i] ≤ v := by
  have hx : x ≠ [] := by rintro rfl; simp at hi
  have hm : x[i] ≤ median x := by
    refine le_trans (h _ ?_) (median_between x hx).1
    have hl := sorted_length x
    rw [List.getD_eq_getElem _ _ (by omega), ← (sorted_perm x).mem_iff]
    exact List.getElem_mem _
  refine ⟨((C51_cap x).2 i hi _).2.1 hm, fun v hv => ?_⟩
  rw [medianCapping_eq, List.mem_map] at hv
  obtain ⟨w, hw, rfl⟩ := hv
  exact le_min (h w hw) hm

/-- Idempotent exactly for an odd number of values, or if the two middle values are equal. -/
theorem C51_idempotent_partial (x : List ℝ) (hx : x ≠ []) :
    medianCapping (medianCapping x) = medianCapping x ↔ x.length % 2 = 1 ∨
      (x.insertionSort (· ≤ ·)).getD (x.length / 2 - 1) 0 = (x.insertionSort (· ≤ ·)).getD (x.length / 2) 0 := by
  rw [cap_cap x hx, median_cap x hx]; rfl

/-- Not idempotent in general. -/
theorem C51_refuted : medianCapping (medianCapping [1, 2, 3, 4]) ≠ medianCapping [1, 2, 3, 4] := by
  intro h
  rw [C51_idempotent_partial _ (by simp)] at h
  rcases h with h | h
  · simp at h
  · have : ([1, 2, 3, 4] : List ℝ).insertionSort (· ≤ ·) = [1, 2, 3, 4] := by
      simp [List.insertionSort]
      norm_num
    rw [this] at h
    norm_num at h

example : medianCapping [5, 1, 3] = [3, 1, 3] := by
  have : median [5, 1, 3] = 3 := by
    unfold median
    simp [List.insertionSort, List.orderedInsert]
    norm_num
  unfold medianCapping
  rw [this]
  norm_num

/-! ## C67: the GP undoes its standardization -/

/-- The scale of the GP is positive, and a wrapped regressor that reproduces the standardized value of a point gives a
prediction equal to the value of the point; a deviation is scaled by the positive factor `gpSigma`. -/
theorem C67_unscale (f : List ℝ) :
    0 < gpSigma f ∧ (gpScale f).map (gpUnscale f) = f ∧
    (gpScale f).length = f.length ∧
    ∀ a b, gpUnscale f a - gpUnscale f b = gpSigma f * (a - b) := by
  have hs : 0 < gpSigma f := lt_of_lt_of_le (by norm_num) (le_max_right _ _)
  refine ⟨hs, ?_, by simp [gpScale], fun a b => by unfold gpUnscale; ring⟩
  unfold gpScale
  rw [List.map_map]
  conv_rhs => rw [← List.map_id f]
  refine List.map_congr_left fun v _ => ?_
  simp only [Function.comp, gpUnscale, id]
  field_simp
  ring

/-- The values given to the wrapped regressor have mean zero and mean square at most one, exactly one if the standard
deviation of the data is at least `1e-6`. -/
theorem C67_standardized (f : List ℝ) :
    (gpScale f).sum = 0 ∧ ((gpScale f).map (· ^ 2)).sum ≤ (f.length : ℝ) ∧
    (1 / 10 ^ 6 ≤ Real.sqrt ((f.map fun v => (v - mean f) ^ 2).sum / f.length) →
      ((gpScale f).map (· ^ 2)).sum = (f.length : ℝ)) := by
  have hs : 0 < gpSigma f := lt_of_lt_of_le (by norm_num) (le_max_right _ _)
  rcases eq_or_ne f [] with rfl | hf
  · simp [gpScale]
  have hn : (0 : ℝ) < f.length := by exact_mod_cast List.length_pos_iff.mpr hf
  have hsum : ∀ l : List ℝ, (l.map fun v => (v - mean f) / gpSigma f).sum = (l.sum - l.length * mean f) / gpSigma f := by
    intro l
    induction l with
    | nil => simp
    | cons a l ih => simp only [List.map_cons, List.sum_cons, List.length_cons, ih]; push_cast; ring
  have hsq : ∀ l : List ℝ, ((l.map fun v => (v - mean f) / gpSigma f).map (· ^ 2)).sum =
      (l.map fun v => (v - mean f) ^ 2).sum / gpSigma f ^ 2 := by
    intro l
    induction l with
    | nil => simp
    | cons a l ih => simp only [List.map_cons, List.sum_cons, ih, div_pow]; ring
  have hvar : 0 ≤ (f.map fun v => (v - mean f) ^ 2).sum :=
    List.sum_nonneg fun a ha => by obtain ⟨v, _, rfl⟩ := List.mem_map.mp ha; positivity
  set V := (f.map fun v => (v - mean f) ^ 2).sum with hV
  have hVn : 0 ≤ V / f.length := by positivity
  refine ⟨?_, ?_, ?_⟩
  · unfold gpScale
    rw [hsum]
    unfold mean
    field_simp
    ring
  · unfold gpScale
    rw [hsq, ← hV, div_le_iff₀ (by positivity)]
    have h1 : Real.sqrt (V / f.length) ≤ gpSigma f := le_max_left _ _
    have h2 : V / f.length ≤ gpSigma f ^ 2 := by
      rw [← Real.sq_sqrt hVn]
      exact pow_le_pow_left₀ (Real.sqrt_nonneg _) h1 2
    rw [div_le_iff₀ hn] at h2
    linarith
  · intro h
    have h1 : gpSigma f = Real.sqrt (V / f.length) := max_eq_left h
    unfold gpScale
    rw [hsq, ← hV, h1, Real.sq_sqrt hVn]
    have hV0 : V ≠ 0 := by
      intro h0
      rw [h0, zero_div, Real.sqrt_zero] at h
      norm_num at h
    field_simp

/-- Both cases occur: two different values, and constant data. -/
example : gpScale [3, 1] = [1, -1] ∧ gpScale [2, 2] = [0, 0] := by
  have h1 : mean [3, 1] = 2 := by unfold mean; norm_num
  have h2 : mean [2, 2] = 2 := by unfold mean; norm_num
  have h3 : gpSigma [3, 1] = 1 := by
    unfold gpSigma
    rw [h1]
    norm_num
  unfold gpScale
  rw [h1, h2, h3]
  norm_num

end Verif.Props
