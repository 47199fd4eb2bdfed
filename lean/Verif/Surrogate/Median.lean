import Verif.Surrogate.Generic
import Mathlib.Data.List.Sort
import Mathlib.Data.List.GetD

/-! # Facts about the median and median capping -/

namespace Verif.Surrogate

open List

/-- The sorted values. -/
noncomputable def sorted (x : List ℝ) : List ℝ := x.insertionSort (· ≤ ·)

theorem sorted_perm (x : List ℝ) : sorted x ~ x := perm_insertionSort _ x

theorem sorted_length (x : List ℝ) : (sorted x).length = x.length := (sorted_perm x).length_eq

theorem sorted_pairwise (x : List ℝ) : (sorted x).Pairwise (· ≤ ·) := pairwise_insertionSort _ x

theorem sorted_mono (x : List ℝ) (i j : ℕ) (hij : i ≤ j) (hj : j < x.length) :
    (sorted x).getD i 0 ≤ (sorted x).getD j 0 := by
  have hl := sorted_length x
  rw [getD_eq_getElem _ _ (by omega), getD_eq_getElem _ _ (by omega)]
  rcases hij.eq_or_lt with h | h
  · subst h; rfl
  · exact pairwise_iff_getElem.mp (sorted_pairwise x) i j (by omega) (by omega) h

theorem median_odd (x : List ℝ) (h : x.length % 2 = 1) : median x = (sorted x).getD (x.length / 2) 0 := by
  unfold median sorted; simp only; rw [if_pos h]

theorem median_even (x : List ℝ) (h : x.length % 2 = 0) :
    median x = ((sorted x).getD (x.length / 2 - 1) 0 + (sorted x).getD (x.length / 2) 0) / 2 := by
  unfold median sorted; simp only; rw [if_neg (by omega)]

/-- The median lies between the two middle values. -/
theorem median_between (x : List ℝ) (hx : x ≠ []) :
    (sorted x).getD ((x.length - 1) / 2) 0 ≤ median x ∧ median x ≤ (sorted x).getD (x.length / 2) 0 := by
  have hp : 0 < x.length := length_pos_iff.mpr hx
  rcases Nat.mod_two_eq_zero_or_one x.length with h | h
  · rw [median_even x h, show (x.length - 1) / 2 = x.length / 2 - 1 by omega]
    have := sorted_mono x (x.length / 2 - 1) (x.length / 2) (by omega) (by omega)
    constructor <;> linarith
  · rw [median_odd x h, show (x.length - 1) / 2 = x.length / 2 by omega]
    exact ⟨le_rfl, le_rfl⟩

/-- In a sorted list at least `k + 1` elements are at most the `k`-th. -/
theorem countP_le_ge (x : List ℝ) (k : ℕ) (hk : k < x.length) (m : ℝ) (hm : (sorted x).getD k 0 ≤ m) :
    k + 1 ≤ x.countP (fun v => decide (v ≤ m)) := by
  rw [← (sorted_perm x).countP_eq]
  have hl := sorted_length x
  rw [← take_append_drop (k + 1) (sorted x), countP_append]
  have : ((sorted x).take (k + 1)).countP (fun v => decide (v ≤ m)) = k + 1 := by
    rw [countP_eq_length.mpr, length_take]
    · omega
    · intro a ha
      obtain ⟨i, hi, rfl⟩ := mem_take_iff_getElem.mp ha
      have h2 := sorted_mono x i k (by omega) hk
      rw [getD_eq_getElem _ _ (by omega)] at h2
      exact decide_eq_true (h2.trans hm)
  omega

theorem countP_ge_ge (x : List ℝ) (k : ℕ) (hk : k < x.length) (m : ℝ) (hm : m ≤ (sorted x).getD k 0) :
    x.length - k ≤ x.countP (fun v => decide (m ≤ v)) := by
  rw [← (sorted_perm x).countP_eq]
  have hl := sorted_length x
  rw [← take_append_drop k (sorted x), countP_append]
  have : ((sorted x).drop k).countP (fun v => decide (m ≤ v)) = x.length - k := by
    rw [countP_eq_length.mpr, length_drop, hl]
    intro a ha
    obtain ⟨i, hi, rfl⟩ := mem_drop_iff_getElem.mp ha
    have h2 := sorted_mono x k (k + i) (by omega) (by omega)
    rw [getD_eq_getElem (sorted x) (n := k + i) _ (by omega)] at h2
    exact decide_eq_true (hm.trans h2)
  omega

/-- Capping is taking the minimum with the median. -/
theorem medianCapping_eq (x : List ℝ) : medianCapping x = x.map fun v => min v (median x) := by
  unfold medianCapping
  refine map_congr_left fun v _ => ?_
  split
  · rename_i h; rw [min_eq_right h.le]
  · rename_i h; rw [min_eq_left (not_lt.mp h)]

/-- Sorting commutes with a monotone map. -/
theorem sorted_map (f : ℝ → ℝ) (hf : Monotone f) (x : List ℝ) : sorted (x.map f) = (sorted x).map f := by
  have hp : sorted (x.map f) ~ (sorted x).map f := (sorted_perm _).trans ((sorted_perm x).map f).symm
  have h1 := sorted_pairwise (x.map f)
  have h2 : ((sorted x).map f).Pairwise (· ≤ ·) := pairwise_map.mpr ((sorted_pairwise x).imp fun h => hf h)
  exact hp.eq_of_pairwise (fun a b _ _ h1 h2 => le_antisymm h1 h2) h1 h2

/-- The sorted values after capping. -/
theorem sorted_cap (x : List ℝ) (i : ℕ) (hi : i < x.length) :
    (sorted (medianCapping x)).getD i 0 = min ((sorted x).getD i 0) (median x) := by
  rw [medianCapping_eq, sorted_map _ (fun a b h => min_le_min_right _ h)]
  have hl := sorted_length x
  rw [getD_eq_getElem _ _ (by simpa [hl] using hi), getD_eq_getElem _ _ (by omega)]
  simp

theorem cap_length (x : List ℝ) : (medianCapping x).length = x.length := by rw [medianCapping_eq]; simp

/-- The median after capping. -/
theorem median_cap (x : List ℝ) (hx : x ≠ []) :
    median (medianCapping x) = median x ↔ x.length % 2 = 1 ∨
      (sorted x).getD (x.length / 2 - 1) 0 = (sorted x).getD (x.length / 2) 0 := by
  have hp : 0 < x.length := length_pos_iff.mpr hx
  rcases Nat.mod_two_eq_zero_or_one x.length with h | h
  · rw [median_even _ (by rw [cap_length]; exact h), cap_length, sorted_cap x _ (by omega), sorted_cap x _ (by omega)]
    have hm := median_even x h
    set a := (sorted x).getD (x.length / 2 - 1) 0
    set b := (sorted x).getD (x.length / 2) 0
    have hab : a ≤ b := sorted_mono x _ _ (by omega) (by omega)
    rw [min_eq_left (a := a) (by linarith), min_eq_right (a := b) (by linarith)]
    constructor
    · intro h1; right; linarith
    · rintro (h1 | h1)
      · omega
      · linarith
  · rw [median_odd _ (by rw [cap_length]; exact h), cap_length, sorted_cap x _ (by omega), ← median_odd x h, min_self]
    simp [h]

/-- The median after capping is never larger. -/
theorem median_cap_le (x : List ℝ) (hx : x ≠ []) : median (medianCapping x) ≤ median x := by
  have hc : medianCapping x ≠ [] := by rw [medianCapping_eq]; simpa using hx
  have := (median_between (medianCapping x) hc).2
  rw [cap_length, sorted_cap x _ (by have := length_pos_iff.mpr hx; omega)] at this
  exact this.trans (min_le_right _ _)

theorem cap_cap (x : List ℝ) (hx : x ≠ []) :
    medianCapping (medianCapping x) = medianCapping x ↔ median (medianCapping x) = median x := by
  constructor
  · intro h
    by_contra hne
    have hlt : median (medianCapping x) < median x := lt_of_le_of_ne (median_cap_le x hx) hne
    have hp : 0 < x.length := length_pos_iff.mpr hx
    have hb := (median_between x hx).2
    have h1 := sorted_cap x (x.length / 2) (by omega)
    rw [min_eq_right hb] at h1
    have hmem : median x ∈ medianCapping x := by
      rw [← (sorted_perm _).mem_iff, ← h1, getD_eq_getElem _ _ (by rw [sorted_length, cap_length]; omega)]
      exact getElem_mem _
    rw [← h, medianCapping_eq (medianCapping x), mem_map] at hmem
    obtain ⟨v, _, hv⟩ := hmem
    have := min_le_right v (median (medianCapping x))
    linarith
  · intro h
    rw [medianCapping_eq (medianCapping x), h, medianCapping_eq, map_map]
    refine map_congr_left fun v _ => ?_
    simp

end Verif.Surrogate
