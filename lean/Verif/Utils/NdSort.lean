import Verif.Utils.Pareto
import Mathlib.Data.Finset.Card

/-!
# Model of `nd_sorting` and `check_radius_rule`

Source: /repo/pySOT/utils.py:452-522.
-/

namespace Verif.Utils

open Verif.Num List

variable {M : ℕ}

/-- Columns `F[:, P]`. (utils.py:452-484.) -/
def cols (F : List (Vec M)) (P : List ℕ) : List (Vec M) := P.map fun k => F.getD k 0

theorem cols_length (F : List (Vec M)) (P : List ℕ) : (cols F P).length = P.length := by simp [cols]

open Classical in
/-- The loop of `nd_sorting` (utils.py:474-483); `none` stands for `inf`.  Its termination is part of the claim: each pass
ranks at least one point (`ndFront_length`). -/
noncomputable def ndSortLoop [inst : NeZero M] (F : List (Vec M)) (nmax : ℕ) (P : List ℕ) (i count : ℕ) (ranks : ℕ → Option ℕ) :
    ℕ → Option ℕ :=
  if h : count < nmax ∧ P.length > 0 then
    let fr := ndFront (cols F P)
    ndSortLoop F nmax (fr.2.map fun j => P.getD j 0) (i + 1) (count + fr.1.length)
      (fr.1.foldl (fun r j => Function.update r (P.getD j 0) (some i)) ranks)
  else ranks
termination_by P.length
decreasing_by
  have h1 := ndFront_length (Nat.pos_of_ne_zero inst.out) (cols F P) (by
    intro he; have := congrArg List.length he; rw [cols_length] at this; simp at this; simp [this] at h)
  rw [cols_length] at h1
  simpa using h1

/-- `nd_sorting` (utils.py:452-484): the rank of column `k`, `none` for `inf`. -/
noncomputable def ndSorting [NeZero M] (F : List (Vec M)) (nmax : ℕ) : ℕ → Option ℕ :=
  ndSortLoop F nmax (List.range F.length) 1 0 (fun _ => none)

/-- `check_radius_rule` (utils.py:487-522).  A center is its point and the failure count stored in column `dim + 4`;
`nc` is the number of centers in the list. -/
noncomputable def checkRadiusRule {d : ℕ} (X : Pt d) (sigma : ℝ) (dThresh : ℝ) : List (Pt d × ℕ) → ℕ
  | [] => 1
  | (c, nfail) :: cs =>
    let sigmaNew := if nfail = 0 then sigma else (1 / 2) ^ nfail * sigma
    open Classical in
    if eucl X c < sigmaNew * dThresh / Real.sqrt d then 0 else checkRadiusRule X sigma dThresh cs

/-! ## Fronts -/

open Classical in
/-- The front number of a column: one plus the largest front number of a column that dominates it. -/
noncomputable def front [inst : NeZero M] (F : List (Vec M)) (k : ℕ) : ℕ :=
  1 + ((Finset.range F.length).filter fun l => domAt F l k).attach.sup fun l => front F l.1
termination_by domCount F k
decreasing_by
  have := (Finset.mem_filter.mp l.2).2
  exact domCount_lt (Nat.pos_of_ne_zero inst.out) this

variable [NeZero M]

open Classical in
theorem front_eq (F : List (Vec M)) (k : ℕ) :
    front F k = 1 + ((Finset.range F.length).filter fun l => domAt F l k).sup (front F) := by
  rw [front, Finset.sup_attach]

theorem front_pos (F : List (Vec M)) (k : ℕ) : 1 ≤ front F k := by rw [front_eq]; omega

theorem front_lt {F : List (Vec M)} {l k : ℕ} (h : domAt F l k) : front F l < front F k := by
  classical
  rw [front_eq F k]
  have := Finset.le_sup (f := front F) (Finset.mem_filter.mpr ⟨Finset.mem_range.mpr (domAt_lt h).1, h⟩ :
    l ∈ (Finset.range F.length).filter fun l => domAt F l k)
  omega

/-- All dominating columns have smaller front number than `i`: the front number is at most `i`. -/
theorem front_le {F : List (Vec M)} {k i : ℕ} (hi : 1 ≤ i) (h : ∀ l, domAt F l k → front F l < i) : front F k ≤ i := by
  classical
  rw [front_eq F k]
  have : ((Finset.range F.length).filter fun l => domAt F l k).sup (front F) ≤ i - 1 := by
    apply Finset.sup_le
    intro l hl
    have := h l (Finset.mem_filter.mp hl).2
    omega
  omega

theorem getD_eq {P : List ℕ} {j : ℕ} (hj : j < P.length) : P.getD j 0 = P[j] := by
  simp [List.getD_eq_getElem?_getD, hj]

omit [NeZero M] in
theorem domAt_cols {F : List (Vec M)} {P : List ℕ} (hP : ∀ k ∈ P, k < F.length) {i j : ℕ} (hi : i < P.length)
    (hj : j < P.length) : domAt (cols F P) i j ↔ domAt F (P.getD i 0) (P.getD j 0) := by
  have h1 : P[i] < F.length := hP _ (List.getElem_mem hi)
  have h2 : P[j] < F.length := hP _ (List.getElem_mem hj)
  unfold domAt cols
  simp [hi, hj, h1, h2]

theorem getD_mem {P : List ℕ} {j : ℕ} (hj : j < P.length) : P.getD j 0 ∈ P := by
  rw [getD_eq hj]; exact List.getElem_mem hj

theorem getD_inj {P : List ℕ} (hP : P.Nodup) {i j : ℕ} (hi : i < P.length) (hj : j < P.length)
    (h : P.getD i 0 = P.getD j 0) : i = j := by
  rw [getD_eq hi, getD_eq hj] at h
  exact (List.Nodup.getElem_inj_iff hP).mp h

theorem foldl_update (P : List ℕ) (l : List ℕ) (i : ℕ) (r : ℕ → Option ℕ) (k : ℕ) :
    l.foldl (fun r j => Function.update r (P.getD j 0) (some i)) r k =
      if k ∈ l.map (fun j => P.getD j 0) then some i else r k := by
  induction l generalizing r with
  | nil => simp
  | cons a l ih =>
    rw [List.foldl_cons, ih]
    by_cases h1 : k ∈ l.map (fun j => P.getD j 0)
    · have : k ∈ (a :: l).map (fun j => P.getD j 0) := by
        rw [List.map_cons]; exact List.mem_cons_of_mem _ h1
      rw [if_pos h1, if_pos this]
    · by_cases h2 : k = P.getD a 0
      · have : k ∈ (a :: l).map (fun j => P.getD j 0) := by rw [List.map_cons, h2]; exact List.mem_cons_self ..
        rw [if_neg h1, if_pos this, h2, Function.update_self]
      · have : k ∉ (a :: l).map (fun j => P.getD j 0) := by
          rw [List.map_cons, List.mem_cons]; push Not; exact ⟨h2, h1⟩
        rw [if_neg h1, if_neg this, Function.update_of_ne h2]

/-- State of the loop before rank `i` is given. -/
structure SortInv (F : List (Vec M)) (nmax : ℕ) (P : List ℕ) (i count : ℕ) (ranks : ℕ → Option ℕ) : Prop where
  pos : 1 ≤ i
  nodup : P.Nodup
  mem : ∀ k, k ∈ P ↔ k < F.length ∧ i ≤ front F k
  ranks : ∀ k, ranks k = if k < F.length ∧ front F k < i then some (front F k) else none
  count : count = ((Finset.range F.length).filter fun k => front F k < i).card
  before : ∀ R, R + 1 < i → ((Finset.range F.length).filter fun k => front F k ≤ R).card < nmax

/-- One pass: the nondominated columns of `P` are those with front number `i`. -/
theorem pass_spec {F : List (Vec M)} {nmax : ℕ} {P : List ℕ} {i count : ℕ} {ranks : ℕ → Option ℕ}
    (h : SortInv F nmax P i count ranks) (hc : count < nmax) (hP : P.length > 0) :
    SortInv F nmax ((ndFront (cols F P)).2.map fun j => P.getD j 0) (i + 1) (count + (ndFront (cols F P)).1.length)
      ((ndFront (cols F P)).1.foldl (fun r j => Function.update r (P.getD j 0) (some i)) ranks) := by
  have hPF : ∀ k ∈ P, k < F.length := fun k hk => ((h.mem k).mp hk).1
  have hne : cols F P ≠ [] := by
    intro he; have := congrArg List.length he; rw [cols_length] at this; simp at this; simp [this] at hP
  have hf := ndFront_ok (NeZero.pos M) (cols F P) hne
  rw [cols_length] at hf
  set nd := (ndFront (cols F P)).1
  set df := (ndFront (cols F P)).2
  have hlt : ∀ j ∈ nd ++ df, j < P.length := fun j hj => (hf.mem j).mp hj
  -- front number of the columns in the two lists
  have hnd : ∀ j ∈ nd, front F (P.getD j 0) = i := by
    intro j hj
    have hjl := hlt j (by simp [hj])
    have hge := ((h.mem _).mp (getD_mem hjl)).2
    refine le_antisymm (front_le h.pos fun l hl => ?_) hge
    by_contra hc'
    have hlP : l ∈ P := (h.mem l).mpr ⟨(domAt_lt hl).1, by omega⟩
    obtain ⟨a, ha, rfl⟩ := List.getElem_of_mem hlP
    refine hf.nd j hj a ha ((domAt_cols hPF ha hjl).mpr ?_)
    rw [getD_eq ha]; exact hl
  have hdf : ∀ j ∈ df, i + 1 ≤ front F (P.getD j 0) := by
    intro j hj
    have hjl := hlt j (by simp [hj])
    obtain ⟨a, ha, hd⟩ := hf.dom j hj
    have h1 := (domAt_cols hPF ha hjl).mp hd
    have h2 := ((h.mem _).mp (getD_mem ha)).2
    have := front_lt h1
    omega
  have hall : ∀ k ∈ P, (front F k = i ∧ k ∈ nd.map fun j => P.getD j 0) ∨
      (i + 1 ≤ front F k ∧ k ∈ df.map fun j => P.getD j 0) := by
    intro k hk
    obtain ⟨a, ha, rfl⟩ := List.getElem_of_mem hk
    have hga : P.getD a 0 = P[a] := getD_eq ha
    rcases List.mem_append.mp ((hf.mem a).mpr ha) with h1 | h1
    · exact .inl ⟨hga ▸ hnd a h1, List.mem_map.mpr ⟨a, h1, hga⟩⟩
    · exact .inr ⟨hga ▸ hdf a h1, List.mem_map.mpr ⟨a, h1, hga⟩⟩
  have hndmem : ∀ k, k ∈ nd.map (fun j => P.getD j 0) ↔ k < F.length ∧ front F k = i := by
    intro k
    constructor
    · intro hk
      obtain ⟨j, hj, rfl⟩ := List.mem_map.mp hk
      exact ⟨hPF _ (getD_mem (hlt j (by simp [hj]))), hnd j hj⟩
    · rintro ⟨h1, h2⟩
      rcases hall k ((h.mem k).mpr ⟨h1, by omega⟩) with ⟨_, h3⟩ | ⟨h3, _⟩
      · exact h3
      · omega
  have hndnodup : (nd.map fun j => P.getD j 0).Nodup := by
    refine List.Nodup.map_on (fun x hx y hy hxy => getD_inj h.nodup (hlt x (by simp [hx])) (hlt y (by simp [hy])) hxy)
      (List.nodup_append.mp hf.nodup).1
  have hdfnodup : (df.map fun j => P.getD j 0).Nodup := by
    refine List.Nodup.map_on (fun x hx y hy hxy => getD_inj h.nodup (hlt x (by simp [hx])) (hlt y (by simp [hy])) hxy)
      (List.nodup_append.mp hf.nodup).2.1
  constructor
  · omega
  · exact hdfnodup
  · intro k
    constructor
    · intro hk
      obtain ⟨j, hj, rfl⟩ := List.mem_map.mp hk
      exact ⟨hPF _ (getD_mem (hlt j (by simp [hj]))), hdf j hj⟩
    · rintro ⟨h1, h2⟩
      rcases hall k ((h.mem k).mpr ⟨h1, by omega⟩) with ⟨h3, _⟩ | ⟨_, h3⟩
      · omega
      · exact h3
  · intro k
    rw [foldl_update, h.ranks]
    by_cases h1 : k ∈ nd.map (fun j => P.getD j 0)
    · have h2 := (hndmem k).mp h1
      rw [if_pos h1, if_pos ⟨h2.1, by omega⟩, h2.2]
    · rw [if_neg h1]
      have h2 : ¬ (k < F.length ∧ front F k = i) := fun hh => h1 ((hndmem k).mpr hh)
      have : (k < F.length ∧ front F k < i) ↔ (k < F.length ∧ front F k < i + 1) := by
        constructor
        · rintro ⟨a, b⟩; exact ⟨a, by omega⟩
        · rintro ⟨a, b⟩; exact ⟨a, by by_contra; exact h2 ⟨a, by omega⟩⟩
      by_cases h3 : k < F.length ∧ front F k < i
      · rw [if_pos h3, if_pos (this.mp h3)]
      · rw [if_neg h3, if_neg (fun hh => h3 (this.mpr hh))]
  · have hlen : nd.length = ((Finset.range F.length).filter fun k => front F k = i).card := by
      rw [← List.length_map (f := fun j => P.getD j 0), ← List.toFinset_card_of_nodup hndnodup]
      congr 1
      ext k
      simp only [List.mem_toFinset, Finset.mem_filter, Finset.mem_range]
      exact hndmem k
    rw [hlen, h.count, ← Finset.card_union_of_disjoint]
    · congr 1
      ext k
      simp only [Finset.mem_union, Finset.mem_filter, Finset.mem_range]
      constructor
      · rintro (⟨a, b⟩ | ⟨a, b⟩) <;> exact ⟨a, by omega⟩
      · rintro ⟨a, b⟩
        by_cases hb : front F k = i
        · exact .inr ⟨a, hb⟩
        · exact .inl ⟨a, by omega⟩
    · rw [Finset.disjoint_left]
      intro k hk hk'
      have h1 := (Finset.mem_filter.mp hk).2
      have h2 := (Finset.mem_filter.mp hk').2
      omega
  · intro R hR
    by_cases hR' : R + 1 < i
    · exact h.before R hR'
    · have : R + 1 = i := by omega
      have he : ((Finset.range F.length).filter fun k => front F k ≤ R) =
          ((Finset.range F.length).filter fun k => front F k < i) := by
        ext k; simp only [Finset.mem_filter]; constructor <;> rintro ⟨a, b⟩ <;> exact ⟨a, by omega⟩
      rw [he, ← h.count]; exact hc

/-- When the loop ends. -/
theorem sortLoop_spec (F : List (Vec M)) (nmax : ℕ) (P : List ℕ) (i count : ℕ) (ranks : ℕ → Option ℕ)
    (h : SortInv F nmax P i count ranks) :
    ∃ R, (∀ k, ndSortLoop F nmax P i count ranks k = if k < F.length ∧ front F k ≤ R then some (front F k) else none) ∧
      min nmax F.length ≤ ((Finset.range F.length).filter fun k => front F k ≤ R).card ∧
      ∀ R' < R, ((Finset.range F.length).filter fun k => front F k ≤ R').card < nmax := by
  induction hn : P.length using Nat.strong_induction_on generalizing P i count ranks with
  | _ n ih =>
    rw [ndSortLoop]
    by_cases hcond : count < nmax ∧ P.length > 0
    · simp only [hcond, and_self, dite_true]
      refine ih _ ?_ _ _ _ _ (pass_spec h hcond.1 hcond.2) rfl
      have h1 := ndFront_length (NeZero.pos M) (cols F P) (by
        intro he; have := congrArg List.length he; rw [cols_length] at this; simp at this; simp [this] at hcond)
      rw [cols_length] at h1
      rw [List.length_map, ← hn]; exact h1
    · rw [dif_neg hcond]
      have he : ((Finset.range F.length).filter fun k => front F k ≤ i - 1) =
          ((Finset.range F.length).filter fun k => front F k < i) := by
        have := h.pos
        ext k; simp only [Finset.mem_filter]; constructor <;> rintro ⟨a, b⟩ <;> exact ⟨a, by omega⟩
      refine ⟨i - 1, fun k => ?_, ?_, fun R' hR' => h.before R' (by omega)⟩
      · have hiff : (k < F.length ∧ front F k ≤ i - 1) ↔ (k < F.length ∧ front F k < i) := by
          have := h.pos
          constructor <;> rintro ⟨a, b⟩ <;> exact ⟨a, by omega⟩
        rw [h.ranks]
        by_cases h1 : k < F.length ∧ front F k < i
        · rw [if_pos h1, if_pos (hiff.mpr h1)]
        · rw [if_neg h1, if_neg (fun hh => h1 (hiff.mp hh))]
      · rw [he, ← h.count]
        by_cases hc : count < nmax
        · have hP0 : P.length = 0 := by by_contra hne; exact hcond ⟨hc, by omega⟩
          have hP : P = [] := List.length_eq_zero_iff.mp hP0
          have : count = F.length := by
            rw [h.count, Finset.filter_true_of_mem, Finset.card_range]
            intro k hk
            by_contra hk'
            have : k ∈ P := (h.mem k).mpr ⟨Finset.mem_range.mp hk, by omega⟩
            rw [hP] at this; exact absurd this (List.not_mem_nil)
          rw [this]; exact min_le_right _ _
        · exact (min_le_left _ _).trans (not_lt.mp hc)

theorem sortInv_init (F : List (Vec M)) (nmax : ℕ) : SortInv F nmax (List.range F.length) 1 0 (fun _ => none) := by
  refine ⟨le_rfl, List.nodup_range, fun k => ?_, fun k => ?_, ?_, fun R hR => by omega⟩
  · rw [List.mem_range]; exact ⟨fun h => ⟨h, front_pos F k⟩, And.left⟩
  · rw [if_neg]; rintro ⟨_, h⟩; have := front_pos F k; omega
  · symm; rw [Finset.card_eq_zero, Finset.filter_eq_empty_iff]
    intro k _ h; have := front_pos F k; omega

end Verif.Utils
