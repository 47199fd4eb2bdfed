import Verif.Utils.Box
import Verif.Num.Spec
import Mathlib.Tactic.FinCases
import Mathlib.Tactic.FieldSimp

/-! # Properties C36–C39, C65: box utilities -/

namespace Verif.Props

open Verif.Num Verif.Spec Verif.Utils

variable {d : ℕ}

/-! ## C36: unit-box maps -/

/-- The maps are inverse to each other. -/
theorem C36_inverse (x lb ub : Pt d) (h : ∀ i, lb i < ub i) :
    fromUnitBox (toUnitBox x lb ub) lb ub = x ∧ toUnitBox (fromUnitBox x lb ub) lb ub = x := by
  constructor <;> funext i <;> have := sub_ne_zero.mpr (h i).ne' <;> simp only [fromUnitBox, toUnitBox] <;>
    field_simp <;> ring

/-- They map the box onto the unit cube and back. -/
theorem C36_box (x lb ub : Pt d) (h : ∀ i, lb i < ub i) :
    (InBox lb ub x ↔ InBox (fun _ => 0) (fun _ => 1) (toUnitBox x lb ub)) ∧
    (InBox (fun _ => 0) (fun _ => 1) x ↔ InBox lb ub (fromUnitBox x lb ub)) := by
  have key : ∀ y : Pt d, InBox lb ub y ↔ InBox (fun _ => 0) (fun _ => 1) (toUnitBox y lb ub) := by
    intro y
    unfold InBox toUnitBox
    refine forall_congr' fun i => ?_
    have hp : 0 < ub i - lb i := sub_pos.mpr (h i)
    rw [div_le_one hp, le_div_iff₀ hp]
    constructor <;> rintro ⟨h1, h2⟩ <;> constructor <;> linarith
  refine ⟨key x, ?_⟩
  rw [key, (C36_inverse x lb ub h).2]

/-- They preserve the order of the coordinates. -/
theorem C36_order (x y lb ub : Pt d) (h : ∀ i, lb i < ub i) (i : Fin d) :
    (toUnitBox x lb ub i ≤ toUnitBox y lb ub i ↔ x i ≤ y i) ∧
    (fromUnitBox x lb ub i ≤ fromUnitBox y lb ub i ↔ x i ≤ y i) := by
  have hp : 0 < ub i - lb i := sub_pos.mpr (h i)
  refine ⟨?_, ?_⟩
  · unfold toUnitBox; rw [div_le_div_iff_of_pos_right hp]; exact sub_le_sub_iff_right _
  · unfold fromUnitBox; rw [add_le_add_iff_left]; exact mul_le_mul_iff_right₀ hp

example : InBox (fun _ => -1) (fun _ => 3) (![0, 3] : Pt 2) ∧
    toUnitBox (![0, 3] : Pt 2) (fun _ => -1) (fun _ => 3) = ![1 / 4, 1] := by
  constructor
  · intro i; fin_cases i <;> norm_num
  · funext i; fin_cases i <;> norm_num [toUnitBox]

/-! ## C37: unit_rescale -/

theorem vmin_le {m : ℕ} (x : Fin (m + 1) → ℝ) (i : Fin (m + 1)) : vmin x ≤ x i := Finset.inf'_le _ (Finset.mem_univ i)
theorem le_vmax {m : ℕ} (x : Fin (m + 1) → ℝ) (i : Fin (m + 1)) : x i ≤ vmax x := Finset.le_sup' _ (Finset.mem_univ i)
theorem exists_vmin {m : ℕ} (x : Fin (m + 1) → ℝ) : ∃ i, x i = vmin x := by
  obtain ⟨i, _, h⟩ := Finset.exists_mem_eq_inf' Finset.univ_nonempty x; exact ⟨i, h.symm⟩
theorem exists_vmax {m : ℕ} (x : Fin (m + 1) → ℝ) : ∃ i, x i = vmax x := by
  obtain ⟨i, _, h⟩ := Finset.exists_mem_eq_sup' Finset.univ_nonempty x; exact ⟨i, h.symm⟩

theorem vmin_lt_vmax {m : ℕ} {x : Fin (m + 1) → ℝ} (h : vmax x ≠ vmin x) : vmin x < vmax x :=
  lt_of_le_of_ne ((vmin_le x 0).trans (le_vmax x 0)) (Ne.symm h)

/-- All results are in the unit interval. -/
theorem C37_range {m : ℕ} (x : Fin (m + 1) → ℝ) (i : Fin (m + 1)) : 0 ≤ unitRescale x i ∧ unitRescale x i ≤ 1 := by
  unfold unitRescale
  split
  · exact ⟨zero_le_one, le_rfl⟩
  · rename_i h
    have hp := sub_pos.mpr (vmin_lt_vmax h)
    refine ⟨div_nonneg (sub_nonneg.mpr (vmin_le x i)) hp.le, ?_⟩
    rw [div_le_one hp]
    exact sub_le_sub_right (le_vmax x i) _

/-- A vector that is not constant keeps its order (strictly), its minimum becomes 0 and its maximum 1. -/
theorem C37_order {m : ℕ} (x : Fin (m + 1) → ℝ) (hx : ∃ i j, x i ≠ x j) :
    (∀ i j, unitRescale x i ≤ unitRescale x j ↔ x i ≤ x j) ∧
    (∀ i, unitRescale x i = 0 ↔ ∀ j, x i ≤ x j) ∧ (∀ i, unitRescale x i = 1 ↔ ∀ j, x j ≤ x i) := by
  have hne : vmax x ≠ vmin x := by
    intro h
    obtain ⟨i, j, hij⟩ := hx
    have : ∀ k, x k = vmin x := fun k => le_antisymm (h ▸ le_vmax x k) (vmin_le x k)
    exact hij ((this i).trans (this j).symm)
  have hp := sub_pos.mpr (vmin_lt_vmax hne)
  unfold unitRescale
  rw [if_neg hne]
  refine ⟨fun i j => ?_, fun i => ?_, fun i => ?_⟩
  · rw [div_le_div_iff_of_pos_right hp]; exact sub_le_sub_iff_right _
  · rw [div_eq_zero_iff, or_iff_left hp.ne', sub_eq_zero]
    constructor
    · intro h j; rw [h]; exact vmin_le x j
    · intro h; obtain ⟨k, hk⟩ := exists_vmin x; exact le_antisymm (hk ▸ h k) (vmin_le x i)
  · rw [div_eq_one_iff_eq hp.ne']
    constructor
    · intro h j; have := le_vmax x j; linarith
    · intro h; obtain ⟨k, hk⟩ := exists_vmax x
      have h1 := h k; have h2 := le_vmax x i; linarith

/-- A constant vector becomes ones. -/
theorem C37_const {m : ℕ} (x : Fin (m + 1) → ℝ) (hx : ∀ i j, x i = x j) (i : Fin (m + 1)) : unitRescale x i = 1 := by
  unfold unitRescale
  rw [if_pos]
  obtain ⟨a, ha⟩ := exists_vmin x
  obtain ⟨b, hb⟩ := exists_vmax x
  rw [← ha, ← hb, hx]

example : ∃ i j, (![1, 4, 2] : Fin 3 → ℝ) i ≠ (![1, 4, 2] : Fin 3 → ℝ) j := ⟨0, 1, by norm_num⟩

/-! ## C38: round_vars -/

/-- Continuous variables are unchanged. -/
theorem C38_cont (x lb ub : Pt d) (iv : List (Fin d)) (i : Fin d) (hi : i ∉ iv) : roundVars x iv lb ub i = x i := by
  rw [roundVars_apply, if_neg hi]

theorem clip_int {l u : ℤ} (x : ℝ) : clip (l : ℝ) u (rint x) = ((min (max (rint x) l) u : ℤ) : ℝ) := by
  unfold clip; push_cast; rfl

/-- An integer variable with integer bounds becomes the closest integer of its domain, wherever the point was. -/
theorem C38_closest (x lb ub : Pt d) (iv : List (Fin d)) (i : Fin d) (hi : i ∈ iv) (l u : ℤ) (hl : lb i = l)
    (hu : ub i = u) (hlu : l ≤ u) :
    ∃ y : ℤ, roundVars x iv lb ub i = y ∧ l ≤ y ∧ y ≤ u ∧ ∀ z : ℤ, l ≤ z → z ≤ u → |x i - y| ≤ |x i - z| := by
  refine ⟨min (max (rint (x i)) l) u, ?_, le_min (le_max_right _ _) hlu, min_le_right _ _, ?_⟩
  · rw [roundVars_apply, if_pos hi, hl, hu, clip_int]
  · intro z hz1 hz2
    by_cases h1 : rint (x i) < l
    · rw [max_eq_right h1.le, min_eq_left hlu]
      have hx : x i < l := by
        by_contra hc; exact absurd (le_rint (not_lt.mp hc)) (not_le.mpr h1)
      have : (l : ℝ) ≤ z := by exact_mod_cast hz1
      rw [abs_of_nonpos (by linarith), abs_of_nonpos (by linarith)]; linarith
    · rw [max_eq_left (not_lt.mp h1)]
      by_cases h2 : u < rint (x i)
      · rw [min_eq_right h2.le]
        have hx : (u : ℝ) < x i := by
          by_contra hc; exact absurd (rint_le (not_lt.mp hc)) (not_le.mpr h2)
        have : (z : ℝ) ≤ u := by exact_mod_cast hz2
        rw [abs_of_nonneg (by linarith), abs_of_nonneg (by linarith)]; linarith
      · rw [min_eq_left (not_lt.mp h2)]
        exact rint_nearest _ _

/-- Halfway between two integers of the domain the even one is taken, so that with `C38_closest` the result is determined. -/
theorem C38_ties (x lb ub : Pt d) (iv : List (Fin d)) (i : Fin d) (hi : i ∈ iv) (l u k : ℤ) (hl : lb i = l)
    (hu : ub i = u) (hk : x i = k + 1 / 2) (hlk : l ≤ k) (hku : k + 1 ≤ u) :
    ∃ y : ℤ, roundVars x iv lb ub i = y ∧ (y = k ∨ y = k + 1) ∧ y % 2 = 0 := by
  have hf : ⌊x i⌋ = k := by rw [Int.floor_eq_iff, hk]; constructor <;> linarith
  have hr : rint (x i) = if k % 2 = 0 then k else k + 1 := by
    unfold rint
    rw [hf, hk]
    rw [if_neg (by linarith), if_neg (by linarith)]
  refine ⟨rint (x i), ?_, ?_, ?_⟩
  · rw [roundVars_apply, if_pos hi, hl, hu, clip_int]
    congr 1
    rw [hr]; split_ifs <;> omega
  · rw [hr]; split_ifs <;> simp
  · rw [hr]; split_ifs <;> omega

/-- A coordinate 2.5 of the domain 0, …, 5. -/
example : ∃ y : ℤ, roundVars (![2.5, 0.3] : Pt 2) [0] (fun _ => 0) (fun _ => 5) 0 = y ∧ (y = 2 ∨ y = 3) ∧ y % 2 = 0 :=
  C38_ties _ _ _ _ _ (by simp) 0 5 2 (by simp) (by simp) (by norm_num) (by norm_num) (by norm_num)

/-- A point in the box stays in the box, and rounding twice is rounding once (integer bounds of the integer variables). -/
theorem C38_box_idempotent (x lb ub : Pt d) (iv : List (Fin d)) (hb : ∀ i, lb i ≤ ub i) (hl : IntegerOn iv lb)
    (hu : IntegerOn iv ub) :
    IntegerOn iv (roundVars x iv lb ub) ∧ (InBox lb ub x → InBox lb ub (roundVars x iv lb ub)) ∧
    roundVars (roundVars x iv lb ub) iv lb ub = roundVars x iv lb ub := by
  have key : ∀ i ∈ iv, ∃ y : ℤ, roundVars x iv lb ub i = y ∧ lb i ≤ y ∧ y ≤ ub i := by
    intro i hi
    obtain ⟨l, hl⟩ := hl i hi
    obtain ⟨u, hu⟩ := hu i hi
    obtain ⟨y, h1, h2, h3, _⟩ := C38_closest x lb ub iv i hi l u hl hu (by
      have := hb i; rw [hl, hu] at this; exact_mod_cast this)
    exact ⟨y, h1, by rw [hl]; exact_mod_cast h2, by rw [hu]; exact_mod_cast h3⟩
  refine ⟨fun i hi => ?_, fun hx i => ?_, ?_⟩
  · obtain ⟨y, h, _⟩ := key i hi; exact ⟨y, h⟩
  · by_cases hi : i ∈ iv
    · obtain ⟨y, h, h'⟩ := key i hi; rw [h]; exact h'
    · rw [C38_cont _ _ _ _ _ hi]; exact hx i
  · funext i
    by_cases hi : i ∈ iv
    · obtain ⟨y, h, h1, h2⟩ := key i hi
      rw [roundVars_apply _ _ _ _ i, if_pos hi, h, rint_intCast, clip, max_eq_left h1, min_eq_left h2]
    · rw [C38_cont _ _ _ _ _ hi]

example : roundVars (![2.5, 0.3] : Pt 2) [0] (fun _ => 0) (fun _ => 5) = ![2, 0.3] := by
  have h : ⌊(2.5 : ℝ)⌋ = 2 := by rw [Int.floor_eq_iff]; norm_num
  have h25 : rint 2.5 = 2 := by unfold rint; rw [h]; norm_num
  funext i
  rw [roundVars_apply]
  fin_cases i
  · simp [h25, clip]; norm_num
  · simp

/-! ## C65: integer variables of accepted problems are always integral -/

/-- An accepted problem with an integer variable whose bounds are not integers. -/
noncomputable def fracProb : Prob :=
  { isProblem := true, dimIsInt := true, dim := 1, lbIsArray := true, lb := [0.6], ubIsArray := true, ub := [2],
    contIsArray := true, cont := [], intIsArray := true, int := [0] }

/-- Full statement: `round_vars` gives integer values for the integer variables of every accepted problem, and is
idempotent.  False: `check_opt_prob` accepts bounds that are not integers, and `round_vars` then moves points to these
bounds; a second call moves them again. -/
theorem C65_refuted : checkOptProb fracProb = true ∧
    ¬ IntegerOn [0] (roundVars (fun _ => 0.2 : Pt 1) [0] (fun _ => 0.6) (fun _ => 2)) ∧
    roundVars (roundVars (fun _ => 0.2 : Pt 1) [0] (fun _ => 0.6) (fun _ => 2)) [0] (fun _ => 0.6) (fun _ => 2) ≠
      roundVars (fun _ => 0.2 : Pt 1) [0] (fun _ => 0.6) (fun _ => 2) := by
  have h1 : rint 0.2 = 0 := by
    have h : ⌊(0.2 : ℝ)⌋ = 0 := by rw [Int.floor_eq_iff]; norm_num
    unfold rint; rw [h]; norm_num
  have h2 : rint 0.6 = 1 := by
    have h : ⌊(0.6 : ℝ)⌋ = 0 := by rw [Int.floor_eq_iff]; norm_num
    unfold rint; rw [h]; norm_num
  have e1 : roundVars (fun _ => 0.2 : Pt 1) [0] (fun _ => 0.6) (fun _ => 2) = fun _ => 0.6 := by
    funext i; rw [roundVars_apply]; fin_cases i; simp [h1, clip]; norm_num
  have e2 : roundVars (fun _ => 0.6 : Pt 1) [0] (fun _ => 0.6) (fun _ => 2) = fun _ => 1 := by
    funext i; rw [roundVars_apply]; fin_cases i; simp [h2, clip]; norm_num
  refine ⟨?_, ?_, ?_⟩
  · simp [checkOptProb, fracProb]; norm_num
  · rw [e1]
    intro h
    obtain ⟨z, hz⟩ := h 0 (by simp)
    have : (0 : ℝ) < z ∧ (z : ℝ) < 1 := by rw [← hz]; norm_num
    have h0 : 0 < z := by exact_mod_cast this.1
    have h3 : z < 1 := by exact_mod_cast this.2
    omega
  · rw [e1, e2]; intro h; have := congrFun h 0; norm_num at this

/-- The part that holds: with integer bounds (of the integer variables) the result is always integral. -/
theorem C65_integral_partial (x lb ub : Pt d) (iv : List (Fin d)) (hb : ∀ i, lb i ≤ ub i) (hl : IntegerOn iv lb)
    (hu : IntegerOn iv ub) : IntegerOn iv (roundVars x iv lb ub) :=
  (C38_box_idempotent x lb ub iv hb hl hu).1

/-! ## C39: check_opt_prob -/

/-- The intended meaning of a well-formed problem, except that variables may be listed twice. -/
structure Accepted (p : Prob) : Prop where
  types : p.isProblem = true ∧ p.dimIsInt = true ∧ p.lbIsArray = true ∧ p.ubIsArray = true
  contArray : p.cont ≠ [] → p.contIsArray = true
  intArray : p.int ≠ [] → p.intIsArray = true
  lbLen : (p.lb.length : ℤ) = p.dim
  ubLen : (p.ub.length : ℤ) = p.dim
  bounds : ∀ i (h1 : i < p.lb.length) (h2 : i < p.ub.length), p.lb[i] < p.ub[i]
  cont : ∀ i ∈ p.cont, 0 ≤ i ∧ i < p.dim
  int : ∀ i ∈ p.int, 0 ≤ i ∧ i < p.dim
  disjoint : ∀ i ∈ p.cont, i ∉ p.int
  total : ((p.cont.length + p.int.length : ℕ) : ℤ) = p.dim

/-- Exact characterization of the accepted problems. -/
theorem C39_accepts (p : Prob) : checkOptProb p = true ↔ Accepted p := by
  have hrange : p.lb.length = p.dim → p.ub.length = p.dim →
      ((∀ i < p.dim.toNat, p.lb[i]?.getD 0 < p.ub[i]?.getD 0) ↔
        ∀ i (h1 : i < p.lb.length) (h2 : i < p.ub.length), p.lb[i] < p.ub[i]) := by
    intro hl hu
    constructor
    · intro h i h1 h2
      have := h i (by omega)
      simpa [h1, h2] using this
    · intro h i hi
      have h1 : i < p.lb.length := by omega
      have h2 : i < p.ub.length := by omega
      simpa [h1, h2] using h i h1 h2
  constructor
  · intro h
    simp only [checkOptProb, Bool.and_eq_true, List.all_eq_true, decide_eq_true_eq, Bool.or_eq_true, Bool.not_eq_true',
      decide_eq_false_iff_not, List.mem_range, List.getD_eq_getElem?_getD] at h
    obtain ⟨⟨⟨⟨⟨⟨⟨⟨⟨⟨⟨a, b⟩, c⟩, e⟩, f1, f2⟩, g⟩, i⟩, j⟩, k⟩, l⟩, m⟩, n⟩ := h
    refine ⟨⟨a, b, c, e⟩, ?_, ?_, f1, f2, (hrange f1 f2).mp g, fun x hx => ⟨(k x hx).2, (k x hx).1⟩,
      fun x hx => ⟨(l x hx).2, (l x hx).1⟩, m, n⟩
    · intro hne; exact i.resolve_left (fun hh => hh (List.length_pos_iff.mpr hne))
    · intro hne; exact j.resolve_left (fun hh => hh (List.length_pos_iff.mpr hne))
  · intro h
    obtain ⟨⟨a, b, c, e⟩, i, j, f1, f2, g, k, l, m, n⟩ := h
    simp only [checkOptProb, Bool.and_eq_true, List.all_eq_true, decide_eq_true_eq, Bool.or_eq_true, Bool.not_eq_true',
      decide_eq_false_iff_not, List.mem_range, List.getD_eq_getElem?_getD]
    refine ⟨⟨⟨⟨⟨⟨⟨⟨⟨⟨⟨a, b⟩, c⟩, e⟩, f1, f2⟩, (hrange f1 f2).mpr g⟩, ?_⟩, ?_⟩, fun x hx => ⟨(k x hx).2, (k x hx).1⟩⟩,
      fun x hx => ⟨(l x hx).2, (l x hx).1⟩⟩, m⟩, n⟩
    · by_cases hne : p.cont = []
      · left; simp [hne]
      · exact .inr (i hne)
    · by_cases hne : p.int = []
      · left; simp [hne]
      · exact .inr (j hne)

/-- If no variable is listed twice, the continuous and the integer variables of an accepted problem partition the
variables. -/
theorem C39_partition_partial (p : Prob) (h : checkOptProb p = true) (hc : p.cont.Nodup) (hi : p.int.Nodup) (i : ℤ) :
    (0 ≤ i ∧ i < p.dim) ↔ ((i ∈ p.cont ∧ i ∉ p.int) ∨ (i ∈ p.int ∧ i ∉ p.cont)) := by
  have h := (C39_accepts p).mp h
  constructor
  · intro hr
    have hn : (p.cont ++ p.int).Nodup := by
      rw [List.nodup_append]
      exact ⟨hc, hi, fun a ha b hb hab => h.disjoint a ha (hab ▸ hb)⟩
    have hsub : (p.cont ++ p.int).toFinset ⊆ Finset.Ico 0 p.dim := by
      intro x hx
      simp only [List.mem_toFinset, List.mem_append, Finset.mem_Ico] at hx ⊢
      rcases hx with hx | hx
      · exact h.cont x hx
      · exact h.int x hx
    have hcard : (Finset.Ico 0 p.dim).card ≤ (p.cont ++ p.int).toFinset.card := by
      rw [List.toFinset_card_of_nodup hn, Int.card_Ico, List.length_append]
      have := h.total; omega
    have heq := Finset.eq_of_subset_of_card_le hsub hcard
    have : i ∈ (p.cont ++ p.int).toFinset := by rw [heq, Finset.mem_Ico]; exact hr
    simp only [List.mem_toFinset, List.mem_append] at this
    rcases this with hx | hx
    · exact .inl ⟨hx, h.disjoint i hx⟩
    · exact .inr ⟨hx, fun hh => h.disjoint i hh hx⟩
  · rintro (⟨hx, _⟩ | ⟨hx, _⟩)
    · exact h.cont i hx
    · exact h.int i hx

/-- The full statement is false: a variable listed twice hides a variable that is listed nowhere. -/
theorem C39_refuted : ∃ p : Prob, checkOptProb p = true ∧ (0 ≤ (1 : ℤ) ∧ 1 < p.dim) ∧ (1 : ℤ) ∉ p.cont ∧ (1 : ℤ) ∉ p.int := by
  refine ⟨{ isProblem := true, dimIsInt := true, dim := 2, lbIsArray := true, lb := [0, 0], ubIsArray := true, ub := [1, 1],
            contIsArray := true, cont := [0, 0], intIsArray := true, int := [] }, ?_, ?_⟩
  · rw [C39_accepts]
    refine ⟨by simp, by simp, by simp, by simp, by simp, ?_, by simp, by simp, by simp, by simp⟩
    intro i h1 h2
    have : i < 2 := h1
    match i, this with
    | 0, _ => norm_num
    | 1, _ => norm_num
  · simp

end Verif.Props
