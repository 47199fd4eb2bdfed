import Verif.Float.Merit
import Verif.Props.Float
import Verif.Cand.CandProofs
import Mathlib.Analysis.Real.Sqrt

/-! # Property C137: the selection of candidates in double precision -/

namespace Verif.Props

open Verif.Fl Verif.Num

variable {rnd : ℝ → ℝ} {d m n : ℕ}

/-! ## Specification -/

/-- Half the distance from 1 to the next double. -/
noncomputable def unitRoundoff : ℝ := (2 : ℝ) ^ (-53 : ℤ)

/-- Half the smallest positive double. -/
noncomputable def halfTiny : ℝ := (2 : ℝ) ^ (-1075 : ℤ)

/-- The computed distance to every point of the list is at least `δ`. -/
def Apart (rnd : ℝ → ℝ) (δ : ℝ) (x : Pt d) (L : List (Pt d)) : Prop := ∀ y ∈ L, δ ≤ dist rnd x y

/-- The computed distance to the nearest point of the list. -/
noncomputable def nearestComputed (rnd : ℝ → ℝ) (x : Pt d) (L : List (Pt d)) : ℝ := ⨅ y : {y // y ∈ L}, dist rnd x y.1

/-- The weighted merit, in exact arithmetic, of the predicted values and the computed distances. -/
noncomputable def meritOfComputed (rnd : ℝ → ℝ) (pred : Pt d → ℝ) (cand : Fin (m + 1) → Pt d) (L : List (Pt d)) (w : ℝ)
    (j : Fin (m + 1)) : ℝ :=
  w * Utils.unitRescale (fun k => pred (cand k)) j +
    (1 - w) * (1 - Utils.unitRescale (fun k => nearestComputed rnd (cand k) L) j)

/-! ## Distances -/

theorem uro_pos : 0 < unitRoundoff := two_zpow_pos _

theorem uro_le : unitRoundoff ≤ 1 / 1000000 := by unfold unitRoundoff; norm_num

theorem tiny_pos : 0 < halfTiny := two_zpow_pos _

theorem tiny_le : halfTiny ≤ unitRoundoff / 1000000 := by
  have : halfTiny ≤ (2 : ℝ) ^ (-100 : ℤ) := zpow_le_zpow_right₀ (by norm_num) (by norm_num)
  refine this.trans ?_
  unfold unitRoundoff
  norm_num

theorem rel_add (h : Nearest rnd) {a b : ℝ} (ha : IsDouble a) (hb : IsDouble b) (h0 : 0 ≤ a + b) :
    (1 - unitRoundoff) * (a + b) ≤ rnd (a + b) ∧ rnd (a + b) ≤ (1 + unitRoundoff) * (a + b) := by
  have := h.err_add ha hb
  rw [abs_of_nonneg h0, abs_le] at this
  unfold unitRoundoff
  constructor <;> nlinarith [this.1, this.2]

theorem sum_bounds (h : Nearest rnd) {ι : Type*} (q : ι → ℝ) (hq : ∀ i, IsDouble (q i) ∧ 0 ≤ q i) (l : List ι) :
    ∀ s0 : ℝ, IsDouble s0 → 0 ≤ s0 →
    IsDouble (l.foldl (fun s i => rnd (s + q i)) s0) ∧
    (1 - unitRoundoff) ^ l.length * (s0 + (l.map q).sum) ≤ l.foldl (fun s i => rnd (s + q i)) s0 ∧
    l.foldl (fun s i => rnd (s + q i)) s0 ≤ (1 + unitRoundoff) ^ l.length * (s0 + (l.map q).sum) := by
  have hu := uro_pos
  have hu' := uro_le
  induction l with
  | nil =>
    intro s0 h1 h2
    simpa using h1
  | cons a l ih =>
    intro s0 h1 h2
    obtain ⟨b1, b2⟩ := rel_add h h1 (hq a).1 (add_nonneg h2 (hq a).2)
    have hs0 : 0 ≤ rnd (s0 + q a) := h.nonneg (add_nonneg h2 (hq a).2)
    obtain ⟨c1, c2, c3⟩ := ih (rnd (s0 + q a)) (h.double _) hs0
    have hsum : 0 ≤ (l.map q).sum := List.sum_nonneg (by
      intro x hx
      obtain ⟨i, -, rfl⟩ := List.mem_map.mp hx
      exact (hq i).2)
    simp only [List.foldl_cons, List.length_cons, List.map_cons, List.sum_cons]
    refine ⟨c1, le_trans ?_ c2, c3.trans ?_⟩
    · rw [pow_succ, mul_assoc]
      refine mul_le_mul_of_nonneg_left ?_ (pow_nonneg (by linarith) _)
      nlinarith
    · rw [pow_succ, mul_assoc]
      refine mul_le_mul_of_nonneg_left ?_ (pow_nonneg (by linarith) _)
      nlinarith

/-- The square of a computed difference. -/
theorem square_bounds (h : Nearest rnd) {a b : ℝ} (ha : IsDouble a) (hb : IsDouble b) :
    (1 - unitRoundoff) ^ 3 * (a - b) ^ 2 - halfTiny ≤ rnd (rnd (a - b) * rnd (a - b)) ∧
    rnd (rnd (a - b) * rnd (a - b)) ≤ (1 + unitRoundoff) ^ 3 * (a - b) ^ 2 + halfTiny := by
  have hu := uro_pos
  have hu' := uro_le
  have e1 := h.err_sub ha hb
  have e2 := h.err (rnd (a - b) * rnd (a - b))
  rw [abs_of_nonneg (mul_self_nonneg (rnd (a - b)))] at e2
  change _ ≤ unitRoundoff * _ + halfTiny at e2
  change _ ≤ unitRoundoff * _ at e1
  generalize rnd (a - b) = e at *
  generalize a - b = D at *
  have f1 : |e| ≤ (1 + unitRoundoff) * |D| := by
    have := abs_sub_abs_le_abs_sub e D
    rw [abs_sub_comm e D] at this
    linarith
  have f2 : (1 - unitRoundoff) * |D| ≤ |e| := by
    have := abs_sub_abs_le_abs_sub D e
    linarith
  have g1 : e * e ≤ (1 + unitRoundoff) ^ 2 * D ^ 2 := by
    rw [← abs_mul_abs_self e, ← sq_abs D, ← mul_pow, sq]
    exact mul_self_le_mul_self (abs_nonneg _) f1
  have g2 : (1 - unitRoundoff) ^ 2 * D ^ 2 ≤ e * e := by
    rw [← abs_mul_abs_self e, ← sq_abs D, ← mul_pow, sq]
    exact mul_self_le_mul_self (mul_nonneg (by linarith) (abs_nonneg _)) f2
  rw [abs_le] at e2
  constructor
  · have : (1 - unitRoundoff) ^ 3 * D ^ 2 = (1 - unitRoundoff) * ((1 - unitRoundoff) ^ 2 * D ^ 2) := by ring
    rw [this]
    nlinarith [e2.2, mul_le_mul_of_nonneg_left g2 (by linarith : 0 ≤ 1 - unitRoundoff)]
  · have : (1 + unitRoundoff) ^ 3 * D ^ 2 = (1 + unitRoundoff) * ((1 + unitRoundoff) ^ 2 * D ^ 2) := by ring
    rw [this]
    nlinarith [e2.1, mul_le_mul_of_nonneg_left g1 (by linarith : 0 ≤ 1 + unitRoundoff)]

/-- The computed root of a double: a relative error only. -/
theorem sqrt_bounds (h : Nearest rnd) {s : ℝ} (hs : IsDouble s) (h0 : 0 ≤ s) :
    (1 - unitRoundoff) * Real.sqrt s ≤ rnd (Real.sqrt s) ∧ rnd (Real.sqrt s) ≤ (1 + unitRoundoff) * Real.sqrt s := by
  rcases h0.eq_or_lt with rfl | hpos
  · simp [h.zero]
  obtain ⟨k, hk⟩ := hs.mult
  have hr := Real.sqrt_pos.mpr hpos
  have hbig : (2 : ℝ) ^ (-1022 : ℤ) ≤ Real.sqrt s := by
    apply Real.le_sqrt_of_sq_le
    have h1 : (2 : ℝ) ^ (-1074 : ℤ) ≤ s := by
      rw [hk] at hpos ⊢
      have ht := two_zpow_pos (-1074)
      have : 0 < (k : ℝ) := (mul_pos_iff_of_pos_right ht).mp hpos
      have : (1 : ℝ) ≤ k := by exact_mod_cast (Int.cast_pos.mp this)
      exact le_mul_of_one_le_left ht.le this
    refine le_trans ?_ h1
    rw [← zpow_natCast, ← zpow_mul]
    exact zpow_le_zpow_right₀ (by norm_num) (by norm_num)
  obtain ⟨j, h1, h2⟩ := exists_binade hr.ne'
  have hj : -1022 ≤ j := by
    by_contra hlt
    have : (2 : ℝ) ^ (j + 1) ≤ 2 ^ (-1022 : ℤ) := zpow_le_zpow_right₀ (by norm_num) (by omega)
    rw [abs_of_pos hr] at h2
    linarith
  have e := h.err_binade h2
  rw [max_eq_left (by omega)] at e
  have e1 : (2 : ℝ) ^ (j - 52) / 2 = 2 ^ (-53 : ℤ) * 2 ^ j := by
    rw [← zpow_add₀ (by norm_num), div_eq_mul_inv, ← zpow_neg_one, ← zpow_add₀ (by norm_num)]
    congr 1; ring
  rw [e1] at e
  rw [abs_of_pos hr] at h1
  have e2 : (2 : ℝ) ^ (-53 : ℤ) * 2 ^ j ≤ unitRoundoff * Real.sqrt s := mul_le_mul_of_nonneg_left h1 uro_pos.le
  rw [abs_le] at e
  constructor <;> linarith [e.1, e.2]

/-- The computed distance of two points with double-precision coordinates, in terms of the exact one. -/
theorem C137_distance (h : Nearest rnd) (x y : Pt d) (hx : ∀ i, IsDouble (x i)) (hy : ∀ i, IsDouble (y i)) :
    0 ≤ dist rnd x y ∧
    (1 - unitRoundoff) ^ (d + 5) * eucl x y ^ 2 - d * halfTiny ≤ dist rnd x y ^ 2 ∧
    dist rnd x y ^ 2 ≤ (1 + unitRoundoff) ^ (d + 5) * (eucl x y ^ 2 + d * halfTiny) := by
  have hu := uro_pos
  have hu' := uro_le
  have ht := tiny_pos
  have hq : ∀ i, IsDouble (rnd (rnd (x i - y i) * rnd (x i - y i))) ∧ 0 ≤ rnd (rnd (x i - y i) * rnd (x i - y i)) :=
    fun i => ⟨h.double _, h.nonneg (mul_self_nonneg _)⟩
  obtain ⟨c1, c2, c3⟩ := sum_bounds h (fun i => rnd (rnd (x i - y i) * rnd (x i - y i))) hq (List.finRange d) 0 isDouble_zero le_rfl
  have hsum : ((List.finRange d).map fun i => rnd (rnd (x i - y i) * rnd (x i - y i))).sum =
      ∑ i, rnd (rnd (x i - y i) * rnd (x i - y i)) := (Fin.sum_univ_def _).symm
  rw [hsum, zero_add, List.length_finRange] at c2 c3
  have hE : eucl x y ^ 2 = ∑ i, (x i - y i) ^ 2 := by
    unfold eucl
    rw [Real.sq_sqrt (Finset.sum_nonneg fun i _ => sq_nonneg _)]
  have hE0 : 0 ≤ eucl x y ^ 2 := sq_nonneg _
  have s1 : (1 - unitRoundoff) ^ 3 * eucl x y ^ 2 - d * halfTiny ≤ ∑ i, rnd (rnd (x i - y i) * rnd (x i - y i)) := by
    have : ∑ i, ((1 - unitRoundoff) ^ 3 * (x i - y i) ^ 2 - halfTiny) ≤ ∑ i, rnd (rnd (x i - y i) * rnd (x i - y i)) :=
      Finset.sum_le_sum fun i _ => (square_bounds h (hx i) (hy i)).1
    rw [Finset.sum_sub_distrib, ← Finset.mul_sum, ← hE] at this
    simpa using this
  have s2 : ∑ i, rnd (rnd (x i - y i) * rnd (x i - y i)) ≤ (1 + unitRoundoff) ^ 3 * eucl x y ^ 2 + d * halfTiny := by
    have : ∑ i, rnd (rnd (x i - y i) * rnd (x i - y i)) ≤ ∑ i, ((1 + unitRoundoff) ^ 3 * (x i - y i) ^ 2 + halfTiny) :=
      Finset.sum_le_sum fun i _ => (square_bounds h (hx i) (hy i)).2
    rw [Finset.sum_add_distrib, ← Finset.mul_sum, ← hE] at this
    simpa using this
  have hq0 : 0 ≤ ∑ i, rnd (rnd (x i - y i) * rnd (x i - y i)) := Finset.sum_nonneg fun i _ => (hq i).2
  unfold Fl.dist
  generalize ∑ i, rnd (rnd (x i - y i) * rnd (x i - y i)) = Q at *
  generalize (List.finRange d).foldl (fun s i => rnd (s + rnd (rnd (x i - y i) * rnd (x i - y i)))) 0 = S at *
  have hS : 0 ≤ S := le_trans (mul_nonneg (pow_nonneg (by linarith) _) hq0) c2
  obtain ⟨r1, r2⟩ := sqrt_bounds h c1 hS
  have hsq := Real.sq_sqrt hS
  have hs0 := Real.sqrt_nonneg S
  have hd0 : (0 : ℝ) ≤ d * halfTiny := mul_nonneg (Nat.cast_nonneg _) ht.le
  generalize eucl x y ^ 2 = E at *
  generalize (d : ℝ) * halfTiny = T at *
  refine ⟨h.nonneg hs0, ?_, ?_⟩
  · have k1 : (1 - unitRoundoff) ^ 2 * S ≤ rnd (Real.sqrt S) ^ 2 := by
      rw [← hsq, ← mul_pow]
      rw [hsq]
      exact pow_le_pow_left₀ (mul_nonneg (by linarith) hs0) r1 2
    refine le_trans ?_ k1
    have k2 : (1 - unitRoundoff) ^ 2 * ((1 - unitRoundoff) ^ d * Q) ≤ (1 - unitRoundoff) ^ 2 * S :=
      mul_le_mul_of_nonneg_left c2 (by positivity)
    refine le_trans ?_ k2
    have k3 : (1 - unitRoundoff) ^ 2 * ((1 - unitRoundoff) ^ d * ((1 - unitRoundoff) ^ 3 * E - T)) ≤
        (1 - unitRoundoff) ^ 2 * ((1 - unitRoundoff) ^ d * Q) :=
      mul_le_mul_of_nonneg_left (mul_le_mul_of_nonneg_left s1 (pow_nonneg (by linarith) _)) (by positivity)
    refine le_trans ?_ k3
    have k4 : (1 - unitRoundoff) ^ 2 * (1 - unitRoundoff) ^ d ≤ 1 := by
      rw [← pow_add]
      exact pow_le_one₀ (by linarith) (by linarith)
    have k5 : (1 - unitRoundoff) ^ 2 * (1 - unitRoundoff) ^ d * T ≤ T := mul_le_of_le_one_left hd0 k4
    have k6 : (1 - unitRoundoff) ^ (d + 5) * E = (1 - unitRoundoff) ^ 2 * ((1 - unitRoundoff) ^ d * ((1 - unitRoundoff) ^ 3 * E)) := by
      ring
    rw [k6]
    nlinarith
  · have k1 : rnd (Real.sqrt S) ^ 2 ≤ (1 + unitRoundoff) ^ 2 * S := by
      rw [← hsq, ← mul_pow]
      rw [hsq]
      exact pow_le_pow_left₀ (h.nonneg hs0) r2 2
    refine k1.trans ?_
    have k2 : (1 + unitRoundoff) ^ 2 * S ≤ (1 + unitRoundoff) ^ 2 * ((1 + unitRoundoff) ^ d * Q) :=
      mul_le_mul_of_nonneg_left c3 (by positivity)
    refine k2.trans ?_
    have k4 : 1 ≤ (1 + unitRoundoff) ^ 3 := one_le_pow₀ (by linarith)
    have k3 : Q ≤ (1 + unitRoundoff) ^ 3 * (E + T) := by
      rw [mul_add]
      nlinarith
    have k6 : (1 + unitRoundoff) ^ (d + 5) * (E + T) = (1 + unitRoundoff) ^ 2 * ((1 + unitRoundoff) ^ d * ((1 + unitRoundoff) ^ 3 * (E + T))) := by
      ring
    rw [k6]
    exact mul_le_mul_of_nonneg_left (mul_le_mul_of_nonneg_left k3 (pow_nonneg (by linarith) _)) (by positivity)

/-! ## The selection -/

theorem computed_le {x y : Pt d} {L : List (Pt d)} (h : y ∈ L) : nearestComputed rnd x L ≤ dist rnd x y :=
  ciInf_le (Finite.bddBelow_range _) (⟨y, h⟩ : {y // y ∈ L})

theorem exists_computed (x : Pt d) {L : List (Pt d)} (h : L ≠ []) : ∃ y ∈ L, nearestComputed rnd x L = dist rnd x y := by
  obtain ⟨a, ha⟩ := List.exists_mem_of_ne_nil L h
  haveI : Nonempty {y // y ∈ L} := ⟨⟨a, ha⟩⟩
  obtain ⟨y, hy⟩ := exists_eq_ciInf_of_finite (f := fun y : {y // y ∈ L} => dist rnd x y.1)
  exact ⟨y.1, y.2, hy.symm⟩

theorem le_computed_iff {x : Pt d} {L : List (Pt d)} (h : L ≠ []) (δ : ℝ) :
    δ ≤ nearestComputed rnd x L ↔ Apart rnd δ x L := by
  constructor
  · intro hd y hy; exact hd.trans (computed_le hy)
  · intro hs; obtain ⟨y, hy, he⟩ := exists_computed (rnd := rnd) x h; rw [he]; exact hs y hy

theorem computed_snoc {x y : Pt d} {L : List (Pt d)} (h : L ≠ []) :
    nearestComputed rnd x (L ++ [y]) = min (nearestComputed rnd x L) (dist rnd x y) := by
  apply le_antisymm
  · apply le_min
    · obtain ⟨z, hz, he⟩ := exists_computed (rnd := rnd) x h
      rw [he]; exact computed_le (List.mem_append_left _ hz)
    · exact computed_le (by simp)
  · obtain ⟨z, hz, he⟩ := exists_computed (rnd := rnd) x (L := L ++ [y]) (by simp)
    rw [he]
    rcases List.mem_append.mp hz with h1 | h1
    · exact (min_le_left _ _).trans (computed_le h1)
    · rw [List.mem_singleton.mp h1]; exact min_le_right _ _

theorem minComputed_eq (x y0 : Pt d) (ys : List (Pt d)) : Fl.minDist rnd x y0 ys = nearestComputed rnd x (y0 :: ys) := by
  unfold Fl.minDist
  suffices H : ∀ (L : List (Pt d)), L ≠ [] →
      ys.foldl (fun a y => min a (dist rnd x y)) (nearestComputed rnd x L) = nearestComputed rnd x (L ++ ys) by
    have h0 : nearestComputed rnd x [y0] = dist rnd x y0 := by
      obtain ⟨z, hz, he⟩ := exists_computed (rnd := rnd) x (L := [y0]) (by simp)
      rw [he, List.mem_singleton.mp hz]
    rw [← h0, H _ (by simp)]; rfl
  induction ys with
  | nil => simp
  | cons y ys ih =>
    intro L hL
    rw [List.foldl_cons, ← computed_snoc hL, ih _ (by simp)]
    simp

theorem computed_double (h : Nearest rnd) (x : Pt d) {L : List (Pt d)} (hL : L ≠ []) : IsDouble (nearestComputed rnd x L) := by
  obtain ⟨y, -, he⟩ := exists_computed (rnd := rnd) x hL
  rw [he]
  exact h.double _

/-- `unit_rescale` computed in double precision is within five units of the exact one. -/
theorem rescale_err (h : Nearest rnd) (x : Fin (m + 1) → ℝ) (hx : ∀ i, IsDouble (x i)) (i : Fin (m + 1)) :
    |Fl.unitRescale rnd x i - Utils.unitRescale x i| ≤ 5 * unitRoundoff := by
  have hu := uro_pos
  have hu' := uro_le
  have ht := tiny_pos
  have ht' := tiny_le
  unfold Fl.unitRescale Utils.unitRescale
  split
  · simpa using hu.le
  rename_i hne
  have hmax : x i ≤ Utils.vmax x := Finset.le_sup' x (Finset.mem_univ i)
  have hmin : Utils.vmin x ≤ x i := Finset.inf'_le x (Finset.mem_univ i)
  obtain ⟨a, -, ha⟩ := Finset.exists_mem_eq_sup' Finset.univ_nonempty x
  obtain ⟨b, -, hb⟩ := Finset.exists_mem_eq_inf' Finset.univ_nonempty x
  have ha' : IsDouble (Utils.vmax x) := by rw [show Utils.vmax x = x a from ha]; exact hx a
  have hb' : IsDouble (Utils.vmin x) := by rw [show Utils.vmin x = x b from hb]; exact hx b
  have hlt : Utils.vmin x < Utils.vmax x := lt_of_le_of_ne (hmin.trans hmax) (Ne.symm hne)
  have e1 := h.err_sub (hx i) hb'
  have e2 := h.err_sub ha' hb'
  have hW := h.sub_pos ha' hb' hlt
  have hle : rnd (x i - Utils.vmin x) ≤ rnd (Utils.vmax x - Utils.vmin x) := h.mono (by linarith)
  have h0 : 0 ≤ rnd (x i - Utils.vmin x) := h.nonneg (by linarith)
  have e3 := h.err (rnd (x i - Utils.vmin x) / rnd (Utils.vmax x - Utils.vmin x))
  change _ ≤ unitRoundoff * _ + halfTiny at e3
  change _ ≤ unitRoundoff * _ at e1 e2
  rw [abs_of_nonneg (by linarith : 0 ≤ x i - Utils.vmin x)] at e1
  rw [abs_of_pos (by linarith : 0 < Utils.vmax x - Utils.vmin x)] at e2
  have hA : 0 ≤ x i - Utils.vmin x := by linarith
  have hB : 0 < Utils.vmax x - Utils.vmin x := by linarith
  have hAB : x i - Utils.vmin x ≤ Utils.vmax x - Utils.vmin x := by linarith
  beta_reduce
  generalize rnd (x i - Utils.vmin x) = α at *
  generalize rnd (Utils.vmax x - Utils.vmin x) = β at *
  generalize x i - Utils.vmin x = A at *
  generalize Utils.vmax x - Utils.vmin x = B at *
  have q0 : 0 ≤ α / β := div_nonneg h0 hW.le
  have q1 : α / β ≤ 1 := (div_le_one hW).mpr hle
  rw [abs_of_nonneg q0] at e3
  have e4 : |α / β - A / B| ≤ 2 * unitRoundoff := by
    have r1 : 0 ≤ A / B := div_nonneg hA hB.le
    have r2 : A / B ≤ 1 := (div_le_one hB).mpr hAB
    have key : (α / β - A / B) * B = (α - A) + (α / β) * (B - β) := by field_simp; ring
    have : |(α / β - A / B) * B| ≤ 2 * unitRoundoff * B := by
      rw [key]
      refine (abs_add_le _ _).trans ?_
      rw [abs_mul, abs_of_nonneg q0, abs_sub_comm α A]
      have t1 : α / β * |B - β| ≤ 1 * (unitRoundoff * B) :=
        mul_le_mul q1 e2 (abs_nonneg _) zero_le_one
      have t2 : unitRoundoff * A ≤ unitRoundoff * B := mul_le_mul_of_nonneg_left hAB hu.le
      linarith
    rw [abs_mul, abs_of_pos hB] at this
    exact le_of_mul_le_mul_right this hB
  have e5 : |rnd (α / β) - A / B| ≤ |α / β - rnd (α / β)| + |α / β - A / B| := by
    rw [abs_sub_comm (α / β) (rnd (α / β))]
    exact abs_sub_le _ _ _
  have : unitRoundoff * (α / β) ≤ unitRoundoff := mul_le_of_le_one_right hu.le q1
  linarith

/-- The computed merit is within `17` units of the exact one. -/
theorem merit_err (h : Nearest rnd) {w r1 r2 p1 p2 : ℝ} (hw : IsDouble w) (hw0 : 0 ≤ w) (hw1 : w ≤ 1)
    (hr2 : IsDouble r2) (hr10 : 0 ≤ r1) (hr11 : r1 ≤ 1) (hr20 : 0 ≤ r2) (hr21 : r2 ≤ 1)
    (h1 : |r1 - p1| ≤ 5 * unitRoundoff) (h2 : |r2 - p2| ≤ 5 * unitRoundoff) :
    |rnd (rnd (w * r1) + rnd (rnd (1 - w) * rnd (1 - r2))) - (w * p1 + (1 - w) * (1 - p2))| ≤ 17 * unitRoundoff := by
  have hu := uro_pos
  have hu' := uro_le
  have ht := tiny_pos
  have ht' := tiny_le
  have a1 := h.err (w * r1)
  have a2 := h.err_sub isDouble_one hw
  have a3 := h.err_sub isDouble_one hr2
  have a4 := h.err (rnd (1 - w) * rnd (1 - r2))
  have a5 := h.err_add (h.double (w * r1)) (h.double (rnd (1 - w) * rnd (1 - r2)))
  change _ ≤ unitRoundoff * _ + halfTiny at a1 a4
  change _ ≤ unitRoundoff * _ at a2 a3 a5
  have b1 : 0 ≤ w * r1 := mul_nonneg hw0 hr10
  have b2 : w * r1 ≤ 1 := mul_le_one₀ hw1 hr10 hr11
  have b3 : 0 ≤ rnd (1 - w) := h.nonneg (by linarith)
  have b4 : rnd (1 - w) ≤ 1 := h.le isDouble_one (by linarith)
  have b5 : 0 ≤ rnd (1 - r2) := h.nonneg (by linarith)
  have b6 : rnd (1 - r2) ≤ 1 := h.le isDouble_one (by linarith)
  have b7 : 0 ≤ rnd (1 - w) * rnd (1 - r2) := mul_nonneg b3 b5
  have b8 : rnd (1 - w) * rnd (1 - r2) ≤ 1 := mul_le_one₀ b4 b5 b6
  have b9 : rnd (w * r1) ≤ 1 := h.le isDouble_one b2
  have b10 : rnd (rnd (1 - w) * rnd (1 - r2)) ≤ 1 := h.le isDouble_one b8
  have b11 : 0 ≤ rnd (w * r1) := h.nonneg b1
  have b12 : 0 ≤ rnd (rnd (1 - w) * rnd (1 - r2)) := h.nonneg b7
  rw [abs_of_nonneg b1] at a1
  rw [abs_of_nonneg (by linarith : 0 ≤ 1 - w)] at a2
  rw [abs_of_nonneg (by linarith : 0 ≤ 1 - r2)] at a3
  rw [abs_of_nonneg b7] at a4
  rw [abs_of_nonneg (add_nonneg b11 b12)] at a5
  have c1 : unitRoundoff * (w * r1) ≤ unitRoundoff := mul_le_of_le_one_right hu.le b2
  have c2 : unitRoundoff * (1 - w) ≤ unitRoundoff := mul_le_of_le_one_right hu.le (by linarith)
  have c3 : unitRoundoff * (1 - r2) ≤ unitRoundoff := mul_le_of_le_one_right hu.le (by linarith)
  have c4 : unitRoundoff * (rnd (1 - w) * rnd (1 - r2)) ≤ unitRoundoff := mul_le_of_le_one_right hu.le b8
  have c5 : unitRoundoff * (rnd (w * r1) + rnd (rnd (1 - w) * rnd (1 - r2))) ≤ 2 * unitRoundoff := by nlinarith
  -- products
  have d1 : |w * r1 - w * p1| ≤ 5 * unitRoundoff := by
    rw [← mul_sub, abs_mul, abs_of_nonneg hw0]
    have := mul_le_mul hw1 h1 (abs_nonneg _) zero_le_one
    linarith
  have d2 : |rnd (1 - w) * rnd (1 - r2) - (1 - w) * (1 - p2)| ≤ 7 * unitRoundoff := by
    have e : rnd (1 - w) * rnd (1 - r2) - (1 - w) * (1 - p2) =
        (rnd (1 - w) - (1 - w)) * rnd (1 - r2) + (1 - w) * ((rnd (1 - r2) - (1 - r2)) + (p2 - r2)) := by ring
    rw [e]
    refine (abs_add_le _ _).trans ?_
    rw [abs_mul, abs_mul, abs_of_nonneg b5, abs_of_nonneg (by linarith : 0 ≤ 1 - w)]
    have g1 : |rnd (1 - w) - (1 - w)| * rnd (1 - r2) ≤ unitRoundoff * 1 :=
      mul_le_mul (by rw [abs_sub_comm]; linarith) b6 b5 hu.le
    have g2 : |(rnd (1 - r2) - (1 - r2)) + (p2 - r2)| ≤ 6 * unitRoundoff := by
      refine (abs_add_le _ _).trans ?_
      rw [abs_sub_comm (rnd (1 - r2)), abs_sub_comm p2]
      linarith
    have g3 : (1 - w) * |(rnd (1 - r2) - (1 - r2)) + (p2 - r2)| ≤ 1 * (6 * unitRoundoff) :=
      mul_le_mul (by linarith) g2 (abs_nonneg _) zero_le_one
    linarith
  generalize rnd (rnd (w * r1) + rnd (rnd (1 - w) * rnd (1 - r2))) = R at *
  generalize rnd (rnd (1 - w) * rnd (1 - r2)) = R2 at *
  generalize rnd (w * r1) = R1 at *
  generalize rnd (1 - w) * rnd (1 - r2) = R3 at *
  rw [abs_le] at *
  constructor <;> linarith [a1.1, a1.2, a4.1, a4.2, a5.1, a5.2, d1.1, d1.2, d2.1, d2.2]

/-- What one selection satisfies, with `L` the points that count. -/
structure SelectsRounded (rnd : ℝ → ℝ) (pred : Pt d → ℝ) (cand : Fin (m + 1) → Pt d) (dtol w : ℝ) (L : List (Pt d))
    (jj : Fin (m + 1)) : Prop where
  best : (∃ j, Apart rnd dtol (cand j) L) → Apart rnd dtol (cand jj) L ∧
    ∀ j, Apart rnd dtol (cand j) L →
      meritOfComputed rnd pred cand L w jj ≤ meritOfComputed rnd pred cand L w j + 34 * unitRoundoff
  fallback : (¬ ∃ j, Apart rnd dtol (cand j) L) → jj = 0

theorem selectRounded_spec (h : Nearest rnd) (pred : Pt d → ℝ) (cand : Fin (m + 1) → Pt d) (hp : ∀ j, IsDouble (pred (cand j)))
    {dtol w : ℝ} (hw : IsDouble w) (hw0 : 0 ≤ w) (hw1 : w ≤ 1) (L : List (Pt d)) (hL : L ≠ [])
    (fvals : Fin (m + 1) → Cand.Fl)
    (hf : ∀ j, Apart rnd dtol (cand j) L → fvals j = .fin (Fl.unitRescale rnd (fun k => pred (cand k)) j)) :
    SelectsRounded rnd pred cand dtol w L
      (Cand.flArgmin (Fl.merit rnd w dtol fvals (fun j => nearestComputed rnd (cand j) L))) := by
  let M : Fin (m + 1) → ℝ := fun j => rnd (rnd (w * Fl.unitRescale rnd (fun k => pred (cand k)) j) +
    rnd (rnd (1 - w) * rnd (1 - Fl.unitRescale rnd (fun k => nearestComputed rnd (cand k) L) j)))
  have hM : ∀ j, |M j - meritOfComputed rnd pred cand L w j| ≤ 17 * unitRoundoff := by
    intro j
    have x1 : ∀ i, IsDouble ((fun k => pred (cand k)) i) := hp
    have x2 : ∀ i, IsDouble ((fun k => nearestComputed rnd (cand k) L) i) := fun i => computed_double h _ hL
    obtain ⟨g1, -⟩ := C92_rescale h _ x1
    obtain ⟨g2, -⟩ := C92_rescale h _ x2
    refine merit_err h hw hw0 hw1 ?_ (g1 j).1 (g1 j).2 (g2 j).1 (g2 j).2 (rescale_err h _ x1 j) (rescale_err h _ x2 j)
    unfold Fl.unitRescale
    split
    · exact isDouble_one
    · exact h.double _
  have hmer : ∀ j, Fl.merit rnd w dtol fvals (fun j => nearestComputed rnd (cand j) L) j =
      open Classical in if Apart rnd dtol (cand j) L then .fin (M j) else .inf := by
    intro j
    unfold Fl.merit
    by_cases hs : Apart rnd dtol (cand j) L
    · rw [if_neg (not_lt.mpr ((le_computed_iff hL dtol).mpr hs)), if_pos hs, hf j hs]
      rfl
    · rw [if_pos (not_le.mp (fun hc => hs ((le_computed_iff hL dtol).mp hc))), if_neg hs]
  set v := Fl.merit rnd w dtol fvals (fun j => nearestComputed rnd (cand j) L) with hv
  have hle := argmin_le (fun j => (v j).key)
  constructor
  · rintro ⟨j0, hj0⟩
    have hsep : Apart rnd dtol (cand (Cand.flArgmin v)) L := by
      by_contra hns
      have := hle j0
      have h1 : v (Cand.flArgmin v) = .inf := by rw [hmer, if_neg hns]
      have h2 : v j0 = .fin (M j0) := by rw [hmer, if_pos hj0]
      change (v (Cand.flArgmin v)).key ≤ (v j0).key at this
      rw [h1, h2] at this
      simp [Cand.Fl.key] at this
    refine ⟨hsep, fun j hj => ?_⟩
    have := hle j
    change (v (Cand.flArgmin v)).key ≤ (v j).key at this
    rw [hmer, hmer j, if_pos hsep, if_pos hj] at this
    have h3 : M (Cand.flArgmin v) ≤ M j := by simpa [Cand.Fl.key] using this
    have h4 := hM (Cand.flArgmin v)
    have h5 := hM j
    rw [abs_le] at h4 h5
    linarith [h4.1, h5.2]
  · intro hno
    have : ∀ j, v j = .inf := fun j => by rw [hmer, if_neg (fun h => hno ⟨j, h⟩)]
    unfold Cand.flArgmin
    apply argmin_unique
    · intro j; simp [this]
    · intro j hj; exact absurd hj (Fin.not_lt_zero j)

theorem dist_self (h : Nearest rnd) (x : Pt d) : dist rnd x x = 0 := by
  unfold Fl.dist
  have : ∀ l : List (Fin d), l.foldl (fun s i => rnd (s + rnd (rnd (x i - x i) * rnd (x i - x i)))) 0 = 0 := by
    intro l
    induction l with
    | nil => rfl
    | cons a l ih => simpa [h.zero] using ih
  rw [this]
  simp [h.zero]

theorem wdmLoopRounded_spec (h : Nearest rnd) (pred : Pt d → ℝ) (cand : Fin (m + 1) → Pt d)
    (hp : ∀ j, IsDouble (pred (cand j))) {dtol : ℝ} (hd : 0 < dtol) (ws : List ℝ)
    (hws : ∀ w ∈ ws, IsDouble w ∧ 0 ≤ w ∧ w ≤ 1)
    (fvals : Fin (m + 1) → Cand.Fl) (L : List (Pt d)) (hL : L ≠ [])
    (hf : ∀ j, Apart rnd dtol (cand j) L → fvals j = .fin (Fl.unitRescale rnd (fun k => pred (cand k)) j))
    (i : ℕ) (hi : i < ws.length) (jj : Fin (m + 1))
    (hjj : (Fl.wdmLoop rnd cand dtol ws fvals (fun j => nearestComputed rnd (cand j) L))[i]? = some jj) :
    SelectsRounded rnd pred cand dtol ws[i]
      (L ++ ((Fl.wdmLoop rnd cand dtol ws fvals (fun j => nearestComputed rnd (cand j) L)).take i).map cand) jj := by
  induction ws generalizing fvals L i with
  | nil => simp at hi
  | cons w ws ih =>
    simp only [Fl.wdmLoop] at hjj ⊢
    set k := Cand.flArgmin (Fl.merit rnd w dtol fvals (fun j => nearestComputed rnd (cand j) L)) with hk
    cases i with
    | zero =>
      simp only [List.getElem?_cons_zero, Option.some.injEq] at hjj
      subst hjj
      obtain ⟨w1, w2, w3⟩ := hws w (by simp)
      simpa using selectRounded_spec h pred cand hp w1 w2 w3 L hL fvals hf
    | succ i =>
      have hdm : (fun j => min (nearestComputed rnd (cand j) L) (dist rnd (cand j) (cand k))) =
          fun j => nearestComputed rnd (cand j) (L ++ [cand k]) := by
        funext j; rw [computed_snoc hL]
      rw [hdm] at hjj ⊢
      simp only [List.getElem?_cons_succ] at hjj
      have := ih (fun w hw => hws w (by simp [hw])) (Function.update fvals k .inf) (L ++ [cand k]) (by simp) ?_ i
        (by simpa using hi) hjj
      · simpa using this
      · intro j hj
        have hne : j ≠ k := by
          rintro rfl
          have := hj (cand k) (by simp)
          rw [dist_self h] at this; linarith
        rw [Function.update_of_ne hne]
        exact hf j (fun y hy => hj y (List.mem_append_left _ hy))

theorem wdmLoopRounded_length (cand : Fin (m + 1) → Pt d) (dtol : ℝ) (ws) (fv) (dm) :
    (Fl.wdmLoop rnd cand dtol ws fv dm).length = ws.length := by
  induction ws generalizing fv dm with
  | nil => rfl
  | cons w ws ih => simp [Fl.wdmLoop, ih]

/-- The points selected in double precision. -/
noncomputable def selectedRounded (rnd : ℝ → ℝ) (pred : Pt d → ℝ) (X : Fin (n + 1) → Pt d) (Xpend : List (Pt d))
    (cand : Fin (m + 1) → Pt d) (ws : List ℝ) (dtol : ℝ) : List (Pt d) :=
  (Fl.wdmIdx rnd pred X Xpend cand ws dtol).map cand

/-- The `i`-th selected point, where `L` are the evaluated, pending and previously selected points: if some candidate has a
computed distance of at least `dtol` from all of `L`, so has the selected one, and its merit exceeds the merit of no such
candidate by more than `34 * 2^-53`.  If there is none, the first candidate is taken. -/
theorem C137_selection (h : Nearest rnd) (pred : Pt d → ℝ) (X : Fin (n + 1) → Pt d) (Xpend : List (Pt d))
    (cand : Fin (m + 1) → Pt d) (hp : ∀ j, IsDouble (pred (cand j))) (ws : List ℝ)
    (hws : ∀ w ∈ ws, IsDouble w ∧ 0 ≤ w ∧ w ≤ 1) (dtol : ℝ) (hd : 0 < dtol) :
    (selectedRounded rnd pred X Xpend cand ws dtol).length = ws.length ∧
    ∀ (i : ℕ) (hi : i < ws.length), ∃ jj, (selectedRounded rnd pred X Xpend cand ws dtol)[i]? = some (cand jj) ∧
      ∀ L, L = List.ofFn X ++ Xpend ++ (selectedRounded rnd pred X Xpend cand ws dtol).take i →
        ((∃ j, Apart rnd dtol (cand j) L) → Apart rnd dtol (cand jj) L ∧
          ∀ j, Apart rnd dtol (cand j) L →
            meritOfComputed rnd pred cand L ws[i] jj ≤ meritOfComputed rnd pred cand L ws[i] j + 34 * unitRoundoff) ∧
        ((¬ ∃ j, Apart rnd dtol (cand j) L) → jj = 0) := by
  have hidx : Fl.wdmIdx rnd pred X Xpend cand ws dtol = Fl.wdmLoop rnd cand dtol ws
      (fun j => .fin (Fl.unitRescale rnd (fun k => pred (cand k)) j))
      (fun j => nearestComputed rnd (cand j) (List.ofFn X ++ Xpend)) := by
    unfold Fl.wdmIdx
    congr 1
    funext j
    rw [minComputed_eq, List.ofFn_succ, List.cons_append]
  have hlen : (Fl.wdmIdx rnd pred X Xpend cand ws dtol).length = ws.length := by rw [hidx, wdmLoopRounded_length]
  refine ⟨by rw [selectedRounded, List.length_map, hlen], fun i hi => ?_⟩
  have hi' : i < (Fl.wdmIdx rnd pred X Xpend cand ws dtol).length := hlen ▸ hi
  refine ⟨(Fl.wdmIdx rnd pred X Xpend cand ws dtol)[i], by simp [selectedRounded, hi'], ?_⟩
  rintro L rfl
  have hs := wdmLoopRounded_spec h pred cand hp hd ws hws
    (fun j => .fin (Fl.unitRescale rnd (fun k => pred (cand k)) j)) (List.ofFn X ++ Xpend)
    (by simp [List.ofFn_succ]) (fun _ _ => rfl) i hi (Fl.wdmIdx rnd pred X Xpend cand ws dtol)[i]
    (by rw [← hidx]; exact List.getElem?_eq_getElem hi')
  rw [← hidx] at hs
  have e : (selectedRounded rnd pred X Xpend cand ws dtol).take i =
      ((Fl.wdmIdx rnd pred X Xpend cand ws dtol).take i).map cand := by rw [selectedRounded, List.map_take]
  rw [e]
  exact ⟨hs.best, hs.fallback⟩

/-- Full statement: if, for each point to be selected, some candidate is at distance at least `dtol` from the evaluated,
pending and previously selected points, then so is the selected one (`C28_separated`).  False in double precision
(`C137_refuted`).  Proved with both distances up to rounding errors, all in terms of exact distances. -/
theorem C137_separated_partial (h : Nearest rnd) (pred : Pt d → ℝ) (X : Fin (n + 1) → Pt d) (Xpend : List (Pt d))
    (cand : Fin (m + 1) → Pt d) (hp : ∀ j, IsDouble (pred (cand j))) (ws : List ℝ)
    (hws : ∀ w ∈ ws, IsDouble w ∧ 0 ≤ w ∧ w ≤ 1) (dtol : ℝ) (hd : 0 < dtol)
    (hX : ∀ k i, IsDouble (X k i)) (hXp : ∀ y ∈ Xpend, ∀ i, IsDouble (y i)) (hc : ∀ j i, IsDouble (cand j i))
    (hex : ∀ i < ws.length, ∃ j, ∀ y ∈ List.ofFn X ++ Xpend ++ (selectedRounded rnd pred X Xpend cand ws dtol).take i,
      dtol ^ 2 + d * halfTiny ≤ (1 - unitRoundoff) ^ (d + 5) * eucl (cand j) y ^ 2) :
    (∀ x ∈ selectedRounded rnd pred X Xpend cand ws dtol, ∀ y ∈ List.ofFn X ++ Xpend,
      dtol ^ 2 ≤ (1 + unitRoundoff) ^ (d + 5) * (eucl x y ^ 2 + d * halfTiny)) ∧
    (selectedRounded rnd pred X Xpend cand ws dtol).Pairwise fun x y =>
      dtol ^ 2 ≤ (1 + unitRoundoff) ^ (d + 5) * (eucl x y ^ 2 + d * halfTiny) := by
  obtain ⟨hl, hsel⟩ := C137_selection h pred X Xpend cand hp ws hws dtol hd
  have hdbl : ∀ i, ∀ y ∈ List.ofFn X ++ Xpend ++ (selectedRounded rnd pred X Xpend cand ws dtol).take i, ∀ k, IsDouble (y k) := by
    intro i y hy k
    simp only [List.mem_append, List.mem_ofFn] at hy
    rcases hy with (⟨a, rfl⟩ | hy) | hy
    · exact hX a k
    · exact hXp y hy k
    · obtain ⟨a, -, rfl⟩ := List.mem_map.mp (List.mem_of_mem_take hy)
      exact hc a k
  have key : ∀ i (hi : i < (selectedRounded rnd pred X Xpend cand ws dtol).length),
      ∀ y ∈ List.ofFn X ++ Xpend ++ (selectedRounded rnd pred X Xpend cand ws dtol).take i,
      dtol ^ 2 ≤ (1 + unitRoundoff) ^ (d + 5) *
        (eucl ((selectedRounded rnd pred X Xpend cand ws dtol)[i]) y ^ 2 + d * halfTiny) := by
    intro i hi
    obtain ⟨jj, h1, h2⟩ := hsel i (hl ▸ hi)
    rw [List.getElem?_eq_getElem hi, Option.some.injEq] at h1
    rw [h1]
    obtain ⟨j, hj⟩ := hex i (hl ▸ hi)
    have h3 := (((h2 _ rfl).1 ⟨j, fun y hy => ?_⟩)).1
    · intro y hy
      obtain ⟨-, -, u3⟩ := C137_distance h (cand jj) y (hc jj) (hdbl i y hy)
      exact (pow_le_pow_left₀ hd.le (h3 y hy) 2).trans u3
    · obtain ⟨u1, u2, -⟩ := C137_distance h (cand j) y (hc j) (hdbl i y hy)
      refine le_of_sq_le_sq ?_ u1
      linarith [hj y hy]
  constructor
  · intro x hx
    obtain ⟨i, hi, rfl⟩ := List.getElem_of_mem hx
    exact fun y hy => key i hi y (List.mem_append_left _ hy)
  · rw [List.pairwise_iff_getElem]
    intro i j hi hj hij
    rw [eucl_comm]
    refine key j hj _ (List.mem_append_right _ ?_)
    rw [List.mem_take_iff_getElem]
    exact ⟨i, by omega, rfl⟩

theorem dist_one_ge (h : Nearest rnd) (x y : Pt 1) (hxy : 1 ≤ rnd (x 0 - y 0)) : 1 ≤ dist rnd x y := by
  unfold Fl.dist
  have e : List.finRange 1 = [0] := rfl
  rw [e, List.foldl_cons, List.foldl_nil]
  refine h.ge isDouble_one ?_
  have h1 : 1 ≤ rnd (rnd (x 0 - y 0) * rnd (x 0 - y 0)) := h.ge isDouble_one (by nlinarith)
  have h2 := h.ge isDouble_one (x := 0 + rnd (rnd (x 0 - y 0) * rnd (x 0 - y 0))) (by linarith)
  exact Real.one_le_sqrt.mpr h2

/-- One evaluated point, two candidates, `dtol = 1`.  The second candidate is at distance at least 1; the first one, which is
selected, is not: the distance is `1 - 2^-55`, and rounded to 1. -/
theorem C137_refuted (h : Nearest rnd) : ∃ (pred : Pt 1 → ℝ) (X : Fin 1 → Pt 1) (cand : Fin 2 → Pt 1),
    (∀ j, IsDouble (pred (cand j))) ∧ (∀ k i, IsDouble (X k i)) ∧ (∀ j i, IsDouble (cand j i)) ∧
    1 ≤ eucl (cand 1) (X 0) ∧ eucl (cand 0) (X 0) < 1 ∧
    selectedRounded rnd pred X [] cand [1] 1 = [cand 0] := by
  have dx : IsDouble (1 - (2 : ℝ) ^ (-53 : ℤ)) := by
    have := isDouble_of_le (m := 2 ^ 53 - 1) (e := -53) (by norm_num) (by norm_num)
    norm_num at this ⊢
    exact this
  have dy : IsDouble (-3 * (2 : ℝ) ^ (-55 : ℤ)) := by
    have := isDouble_of_le (m := -3) (e := -55) (by norm_num) (by norm_num)
    norm_num at this ⊢
    exact this
  have d2 : IsDouble 2 := by simpa using isDouble_int (m := 2) (by norm_num)
  set X : Fin 1 → Pt 1 := fun _ _ => -3 * (2 : ℝ) ^ (-55 : ℤ) with hX
  set cand : Fin 2 → Pt 1 := ![fun _ => 1 - (2 : ℝ) ^ (-53 : ℤ), fun _ => 2] with hcand
  have c0 : cand 0 = fun _ => 1 - (2 : ℝ) ^ (-53 : ℤ) := rfl
  have c1 : cand 1 = fun _ => 2 := rfl
  let pred : Pt 1 → ℝ := fun x => open Classical in if x 0 = 2 then 1 else 0
  have p0 : pred (cand 0) = 0 := by
    simp only [pred, c0]
    rw [if_neg]
    norm_num
  have p1 : pred (cand 1) = 1 := by simp [pred, c1]
  have e1 : ∀ x y : Pt 1, eucl x y = |x 0 - y 0| := by
    intro x y
    simp only [eucl, Fin.sum_univ_one, Real.sqrt_sq_eq_abs]
  have hp : ∀ j, IsDouble (pred (cand j)) := by
    intro j
    fin_cases j
    · exact p0 ▸ isDouble_zero
    · exact p1 ▸ isDouble_one
  refine ⟨pred, X, cand, hp, fun _ _ => dy, ?_, ?_, ?_, ?_⟩
  · intro j i
    fin_cases j
    · exact dx
    · exact d2
  · rw [e1, c1, abs_of_pos (by simp only [hX]; norm_num)]
    simp only [hX]
    norm_num
  · rw [e1, c0, abs_of_pos (by simp only [hX]; norm_num)]
    simp only [hX]
    norm_num
  obtain ⟨hl, hs⟩ := C137_selection h pred X [] cand hp [1] (by intro w hw; rw [List.mem_singleton.mp hw]; exact ⟨isDouble_one, by norm_num, le_rfl⟩) 1 one_pos
  obtain ⟨jj, h1, h2⟩ := hs 0 (by simp)
  have hL := h2 [X 0] (by simp)
  have a0 : Apart rnd 1 (cand 0) [X 0] := by
    intro y hy
    rw [List.mem_singleton.mp hy]
    refine dist_one_ge h _ _ ?_
    rw [c0]
    simp only [hX]
    have ex : (1 : ℝ) - 2 ^ (-53 : ℤ) - -3 * 2 ^ (-55 : ℤ) = 1 - 2 ^ (-55 : ℤ) := by norm_num
    rw [ex]
    by_contra hlt
    push Not at hlt
    have g1 := (h.double _).lt_one hlt
    have g2 := (h (1 - 2 ^ (-55 : ℤ))).2 1 isDouble_one
    have g3 : (1 : ℝ) - 2 ^ (-55 : ℤ) - 1 = -2 ^ (-55 : ℤ) := by ring
    rw [g3, abs_neg, abs_of_pos (two_zpow_pos _), abs_le] at g2
    norm_num at g1 g2
    linarith [g2.2]
  have a1 : Apart rnd 1 (cand 1) [X 0] := by
    intro y hy
    rw [List.mem_singleton.mp hy]
    refine dist_one_ge h _ _ (h.ge isDouble_one ?_)
    rw [c1]
    simp only [hX]
    norm_num
  have hj : jj = 0 := by
    by_contra hne
    have hj1 : jj = 1 := by
      rcases jj with ⟨v, hv⟩
      have : v ≠ 0 := fun hv => hne (by simp [hv])
      apply Fin.ext
      simp only [Fin.val_one]
      omega
    subst hj1
    have := (hL.1 ⟨0, a0⟩).2 0 a0
    have v1 : Utils.vmax (fun k => pred (cand k)) = 1 := by
      apply le_antisymm
      · apply Finset.sup'_le
        intro k _
        fin_cases k
        · exact p0.le.trans zero_le_one
        · exact p1.le
      · exact p1.symm.le.trans (Finset.le_sup' (fun k => pred (cand k)) (Finset.mem_univ 1))
    have v0 : Utils.vmin (fun k => pred (cand k)) = 0 := by
      apply le_antisymm
      · exact (Finset.inf'_le (fun k => pred (cand k)) (Finset.mem_univ 0)).trans p0.le
      · apply Finset.le_inf'
        intro k _
        fin_cases k
        · exact p0.symm.le
        · exact zero_le_one.trans p1.symm.le
    have u0 : Utils.unitRescale (fun k => pred (cand k)) 0 = 0 := by
      unfold Utils.unitRescale
      rw [v1, v0, if_neg one_ne_zero]
      beta_reduce
      rw [p0]
      simp
    have u1 : Utils.unitRescale (fun k => pred (cand k)) 1 = 1 := by
      unfold Utils.unitRescale
      rw [v1, v0, if_neg one_ne_zero]
      beta_reduce
      rw [p1]
      simp
    unfold meritOfComputed at this
    rw [u0, u1] at this
    simp only [List.getElem_cons_zero] at this
    have := uro_le
    linarith
  rw [hj] at h1
  obtain ⟨a, ha⟩ := List.length_eq_one_iff.mp hl
  rw [ha] at h1 ⊢
  simpa using h1

/-- The hypotheses of `C137_separated_partial` are met: two candidates, two points to select. -/
example (h : Nearest rnd) : (selectedRounded rnd (fun x : Pt 1 => x 0) (fun _ : Fin 1 => (fun _ => 0 : Pt 1)) []
    (![fun _ => 5, fun _ => 9] : Fin 2 → Pt 1) [1, 0] 1).Pairwise fun x y =>
      (1 : ℝ) ^ 2 ≤ (1 + unitRoundoff) ^ (1 + 5) * (eucl x y ^ 2 + (1 : ℕ) * halfTiny) := by
  have hi : ∀ k : ℤ, |k| ≤ 2 ^ 53 → IsDouble (k : ℝ) := fun k hk => isDouble_int hk
  have d5 : IsDouble 5 := by simpa using hi 5 (by norm_num)
  have d9 : IsDouble 9 := by simpa using hi 9 (by norm_num)
  have hu := uro_pos
  have hu' := uro_le
  have ht := tiny_le
  have e1 : ∀ x y : Pt 1, eucl x y ^ 2 = (x 0 - y 0) ^ 2 := by
    intro x y
    simp only [eucl, Fin.sum_univ_one, Real.sqrt_sq_eq_abs, sq_abs]
  have hpow : (9 / 10 : ℝ) ^ 6 ≤ (1 - unitRoundoff) ^ 6 := pow_le_pow_left₀ (by norm_num) (by linarith) 6
  have far : ∀ x y : Pt 1, 4 ≤ |x 0 - y 0| →
      (1 : ℝ) ^ 2 + (1 : ℕ) * halfTiny ≤ (1 - unitRoundoff) ^ (1 + 5) * eucl x y ^ 2 := by
    intro x y hxy
    rw [e1, ← sq_abs]
    have : (4 : ℝ) ^ 2 ≤ |x 0 - y 0| ^ 2 := pow_le_pow_left₀ (by norm_num) hxy 2
    have := mul_le_mul hpow this (by positivity) (by positivity)
    norm_num at this ⊢
    linarith
  refine (C137_separated_partial h _ _ [] _ ?_ [1, 0] ?_ 1 one_pos (fun _ _ => isDouble_zero) (by simp) ?_ ?_).2
  · intro j
    fin_cases j
    · exact d5
    · exact d9
  · intro w hw
    simp only [List.mem_cons, List.not_mem_nil, or_false] at hw
    rcases hw with rfl | rfl
    · exact ⟨isDouble_one, by norm_num, le_rfl⟩
    · exact ⟨isDouble_zero, le_rfl, by norm_num⟩
  · intro j i
    fin_cases j
    · exact d5
    · exact d9
  · intro i hi
    set S := selectedRounded rnd (fun x : Pt 1 => x 0) (fun _ : Fin 1 => (fun _ => 0 : Pt 1)) []
      (![fun _ => 5, fun _ => 9] : Fin 2 → Pt 1) [1, 0] 1 with hS
    have hlen : i ≤ 1 := by simp only [List.length_cons, List.length_nil] at hi; omega
    have hmem : ∀ x ∈ S, x = (fun _ => 5) ∨ x = fun _ => 9 := by
      intro x hx
      obtain ⟨a, -, rfl⟩ := List.mem_map.mp hx
      fin_cases a
      · exact Or.inl rfl
      · exact Or.inr rfl
    have hT : ∃ a : Pt 1, (a = (fun _ => 5) ∨ a = fun _ => 9) ∧ ∀ y ∈ S.take i, y = a := by
      cases hq : S with
      | nil => exact ⟨_, Or.inl rfl, by simp⟩
      | cons a l =>
        refine ⟨a, hmem a (by simp [hq]), fun y hy => ?_⟩
        interval_cases i
        · simp at hy
        · simpa using hy
    obtain ⟨a, ha, hT⟩ := hT
    rcases ha with rfl | rfl
    · refine ⟨1, fun y hy => far _ _ ?_⟩
      simp only [List.mem_append] at hy
      rcases hy with (hy | hy) | hy
      · simp only [List.ofFn_succ, List.ofFn_zero, List.mem_singleton] at hy
        subst hy
        norm_num
      · simp at hy
      · rw [hT y hy]
        norm_num
    · refine ⟨0, fun y hy => far _ _ ?_⟩
      simp only [List.mem_append] at hy
      rcases hy with (hy | hy) | hy
      · simp only [List.ofFn_succ, List.ofFn_zero, List.mem_singleton] at hy
        subst hy
        norm_num
      · simp at hy
      · rw [hT y hy]
        norm_num

end Verif.Props
