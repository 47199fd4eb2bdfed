import Mathlib.Tactic.IntervalCases
import Mathlib.Tactic.FinCases
import Verif.Utils.NdSort

/-! # Properties C40–C42: Pareto utilities and the radius rule -/

namespace Verif.Props

open Verif.Num Verif.Utils

variable {M : ℕ}

/-- `nd_front` splits the indices of any nonempty objective matrix (with at least one objective): each index occurs exactly
once, the first list holds exactly the nondominated ones. -/
theorem C40_front (hM : 0 < M) (F : List (Vec M)) (hF : F ≠ []) :
    ((ndFront F).1 ++ (ndFront F).2).Perm (List.range F.length) ∧
    (∀ k, ∀ hk : k < F.length, k ∈ (ndFront F).1 ↔ ¬ ∃ l, ∃ hl : l < F.length, ∀ i, F[l] i < F[k] i) := by
  have h := ndFront_ok hM F hF
  have hdom : ∀ k l (hk : k < F.length) (hl : l < F.length), domAt F l k ↔ ∀ i, F[l] i < F[k] i := by
    intro k l hk hl
    unfold domAt Dominates
    simp [hk, hl]
  refine ⟨(List.perm_ext_iff_of_nodup h.nodup List.nodup_range).mpr fun k => by rw [h.mem, List.mem_range], ?_⟩
  intro k hk
  constructor
  · rintro hm ⟨l, hl, hd⟩
    exact h.nd k hm l hl ((hdom k l hk hl).mpr hd)
  · intro hn
    rcases List.mem_append.mp ((h.mem k).mpr hk) with h1 | h1
    · exact h1
    · obtain ⟨l, hl, hd⟩ := h.dom k h1
      exact absurd ⟨l, hl, (hdom k l hk hl).mp hd⟩ hn

/-- Two objectives, four points. -/
example : 0 < 2 ∧ ([![1, 2], ![2, 1], ![3, 3], ![2, 4]] : List (Vec 2)) ≠ [] := by simp

/-! ## C41 -/

open Classical in
/-- Specification of non-domination ranks: one plus the largest rank of a dominating point (1 if there is none). -/
def IsRank (F : List (Vec M)) (rank : ℕ → ℕ) : Prop :=
  ∀ k, ∀ hk : k < F.length, rank k = 1 + ((Finset.range F.length).filter fun l => ∃ hl : l < F.length, ∀ i, F[l] i < F[k] i).sup rank

theorem domAt_iff (F : List (Vec M)) {k l : ℕ} (hk : k < F.length) :
    domAt F l k ↔ ∃ hl : l < F.length, ∀ i, F[l] i < F[k] i := by
  constructor
  · intro h
    refine ⟨(domAt_lt h).1, ?_⟩
    obtain ⟨a, b, ha, hb, hd⟩ := h
    obtain ⟨_, rfl⟩ := List.getElem?_eq_some_iff.mp ha
    obtain ⟨_, rfl⟩ := List.getElem?_eq_some_iff.mp hb
    exact hd
  · rintro ⟨hl, hd⟩
    exact ⟨F[l], F[k], List.getElem?_eq_getElem hl, List.getElem?_eq_getElem hk, hd⟩

/-- The specification determines the ranks. -/
theorem C41_unique (hM : 0 < M) (F : List (Vec M)) (r r' : ℕ → ℕ) (h : IsRank F r) (h' : IsRank F r') (k : ℕ)
    (hk : k < F.length) : r k = r' k := by
  classical
  induction hc : domCount F k using Nat.strong_induction_on generalizing k with
  | _ c ih =>
    rw [h k hk, h' k hk]
    congr 1
    refine Finset.sup_congr rfl fun l hl => ?_
    obtain ⟨hl1, hl2⟩ := Finset.mem_filter.mp hl
    have hd : domAt F l k := (domAt_iff F hk).mpr hl2
    exact ih (domCount F l) (hc ▸ domCount_lt hM hd) l (Finset.mem_range.mp hl1) rfl

/-- `nd_sorting` terminates, and for some number `R` of fronts: the points of rank at most `R` get their rank, all others
`inf` (`none`); at least `min nmax N` points are ranked, and with fewer fronts it would be less than `nmax`. -/
theorem C41_sorting (hM : 0 < M) (F : List (Vec M)) (nmax : ℕ) :
    haveI : NeZero M := ⟨hM.ne'⟩
    ∃ rank, IsRank F rank ∧ ∃ R,
      (∀ k < F.length, ndSorting F nmax k = if rank k ≤ R then some (rank k) else none) ∧
      min nmax F.length ≤ ((Finset.range F.length).filter fun k => rank k ≤ R).card ∧
      ∀ R' < R, ((Finset.range F.length).filter fun k => rank k ≤ R').card < nmax := by
  classical
  haveI : NeZero M := ⟨hM.ne'⟩
  refine ⟨front F, ?_, ?_⟩
  · intro k hk
    rw [front_eq]
    congr 2
    ext l
    simp only [Finset.mem_filter, domAt_iff F hk]
  · obtain ⟨R, h1, h2, h3⟩ := sortLoop_spec F nmax _ _ _ _ (sortInv_init F nmax)
    refine ⟨R, fun k hk => ?_, h2, h3⟩
    rw [ndSorting, h1]
    by_cases h : front F k ≤ R
    · rw [if_pos ⟨hk, h⟩, if_pos h]
    · rw [if_neg (fun hh => h hh.2), if_neg h]

/-- With `nmax ≥ N` every point is ranked. -/
theorem C41_all (hM : 0 < M) (F : List (Vec M)) (nmax : ℕ) (hn : F.length ≤ nmax) :
    haveI : NeZero M := ⟨hM.ne'⟩
    ∃ rank, IsRank F rank ∧ ∀ k < F.length, ndSorting F nmax k = some (rank k) := by
  haveI : NeZero M := ⟨hM.ne'⟩
  obtain ⟨rank, hr, R, h1, h2, _⟩ := C41_sorting hM F nmax
  refine ⟨rank, hr, fun k hk => ?_⟩
  have hall : ((Finset.range F.length).filter fun k => rank k ≤ R) = Finset.range F.length := by
    apply Finset.eq_of_subset_of_card_le (Finset.filter_subset _ _)
    rw [Finset.card_range]; rwa [min_eq_right hn] at h2
  have : k ∈ (Finset.range F.length).filter fun k => rank k ≤ R := by rw [hall]; exact Finset.mem_range.mpr hk
  rw [h1 k hk, if_pos (Finset.mem_filter.mp this).2]

/-- The result of C41 on a concrete matrix: the second column is dominated by the first and gets rank 2. -/
example : ndSorting ([![0, 0], ![1, 1], ![0, 2]] : List (Vec 2)) 3 1 = some 2 := by
  obtain ⟨rank, hr, h⟩ := C41_all (M := 2) (by norm_num) ([![0, 0], ![1, 1], ![0, 2]] : List (Vec 2)) 3 (by simp)
  rw [h 1 (by simp)]
  have h0 : rank 0 = 1 := by
    rw [hr 0 (by simp), Finset.filter_false_of_mem]
    · simp
    · rintro l hl ⟨hl', hd⟩
      have hl3 : l < 3 := by simpa using hl
      interval_cases l
      · have := hd 0; simp at this
      · have := hd 0; simp at this; linarith
      · have := hd 0; simp at this
  rw [hr 1 (by simp)]
  have : ((Finset.range ([![0, 0], ![1, 1], ![0, 2]] : List (Vec 2)).length).filter fun l =>
      ∃ hl : l < ([![0, 0], ![1, 1], ![0, 2]] : List (Vec 2)).length, ∀ i,
        ([![0, 0], ![1, 1], ![0, 2]] : List (Vec 2))[l] i < ([![0, 0], ![1, 1], ![0, 2]] : List (Vec 2))[1] i) = {0} := by
    ext l
    simp only [Finset.mem_filter, Finset.mem_range, Finset.mem_singleton]
    constructor
    · rintro ⟨hl, hl', hd⟩
      have hl3 : l < 3 := by simpa using hl
      interval_cases l
      · rfl
      · have := hd 0; simp at this
      · have := hd 1; simp at this
    · rintro rfl
      refine ⟨by simp, by simp, fun i => ?_⟩
      fin_cases i <;> simp
  rw [this, Finset.sup_singleton, h0]

/-! ## C42 -/

/-- The radius rule in closed form. -/
theorem C42_rule {d : ℕ} (X : Pt d) (sigma dThresh : ℝ) (centers : List (Pt d × ℕ)) :
    (checkRadiusRule X sigma dThresh centers = 1 ↔
      ∀ c ∈ centers, (1 / 2) ^ c.2 * sigma * dThresh / Real.sqrt d ≤ eucl X c.1) ∧
    (checkRadiusRule X sigma dThresh centers = 0 ↔
      ¬ ∀ c ∈ centers, (1 / 2) ^ c.2 * sigma * dThresh / Real.sqrt d ≤ eucl X c.1) := by
  induction centers with
  | nil => simp [checkRadiusRule]
  | cons c cs ih =>
    obtain ⟨c, nfail⟩ := c
    have hs : (if nfail = 0 then sigma else (1 / 2) ^ nfail * sigma) = (1 / 2) ^ nfail * sigma := by
      split
      · rename_i h; simp [h]
      · rfl
    simp only [checkRadiusRule, hs]
    by_cases h : eucl X c < (1 / 2) ^ nfail * sigma * dThresh / Real.sqrt d
    · rw [if_pos h]
      have : ¬ ∀ c' ∈ (c, nfail) :: cs, (1 / 2) ^ c'.2 * sigma * dThresh / Real.sqrt d ≤ eucl X c'.1 :=
        fun hh => absurd (hh (c, nfail) (by simp)) (not_le.mpr h)
      constructor
      · constructor
        · intro h0; norm_num at h0
        · intro hh; exact absurd hh this
      · simpa using this
    · rw [if_neg h]
      have : (∀ c' ∈ (c, nfail) :: cs, (1 / 2) ^ c'.2 * sigma * dThresh / Real.sqrt d ≤ eucl X c'.1) ↔
          ∀ c' ∈ cs, (1 / 2) ^ c'.2 * sigma * dThresh / Real.sqrt d ≤ eucl X c'.1 := by
        rw [List.forall_mem_cons]
        exact ⟨And.right, fun hh => ⟨not_lt.mp h, hh⟩⟩
      rw [this]; exact ih

/-- It accepts everything for a threshold of at most zero, and what it accepts it accepts for smaller thresholds (for a
nonnegative radius). -/
theorem C42_monotone {d : ℕ} (X : Pt d) (sigma : ℝ) (hs : 0 ≤ sigma) (centers : List (Pt d × ℕ)) :
    (∀ t ≤ 0, checkRadiusRule X sigma t centers = 1) ∧
    ∀ t t', t' ≤ t → checkRadiusRule X sigma t centers = 1 → checkRadiusRule X sigma t' centers = 1 := by
  have hp : ∀ n : ℕ, 0 ≤ (1 / 2 : ℝ) ^ n * sigma := fun n => by positivity
  constructor
  · intro t ht
    rw [(C42_rule X sigma t centers).1]
    intro c _
    refine le_trans ?_ (eucl_nonneg X c.1)
    exact div_nonpos_of_nonpos_of_nonneg (mul_nonpos_of_nonneg_of_nonpos (hp _) ht) (Real.sqrt_nonneg _)
  · intro t t' htt h
    rw [(C42_rule X sigma t centers).1] at h
    rw [(C42_rule X sigma t' centers).1]
    intro c hc
    refine le_trans ?_ (h c hc)
    exact div_le_div_of_nonneg_right (mul_le_mul_of_nonneg_left htt (hp _)) (Real.sqrt_nonneg _)

/-- The rule does refuse: a center at distance 0. -/
example : checkRadiusRule (![0] : Pt 1) 0.2 1 [(![0], 1)] = 0 := by
  rw [(C42_rule _ _ _ _).2]
  intro h
  have := h (![0], 1) (by simp)
  simp at this
  norm_num at this

end Verif.Props
