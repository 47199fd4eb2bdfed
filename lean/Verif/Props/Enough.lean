import Verif.Props.DesignLaw
import Verif.Loop.Chance
import Mathlib.MeasureTheory.Measure.Haar.Disintegration
import Mathlib.MeasureTheory.Measure.Lebesgue.EqHaar
import Mathlib.LinearAlgebra.Matrix.Charpoly.Basic
import Mathlib.LinearAlgebra.Matrix.ToLinearEquiv
import Mathlib.Analysis.SpecificLimits.Basic
import Mathlib.Topology.Instances.Matrix

/-! # Property C135: enough points give a valid design -/

namespace Verif.Props

open Verif.Num Verif.Spec Verif.Utils Verif.Design Verif.Loop MeasureTheory
open scoped ENNReal

variable {n d : ℕ}

/-! ## Rank and hyperplanes -/

/-- Full rank: no nonzero vector is orthogonal to all points. -/
theorem rank_full_iff (X : Des n d) : (Matrix.of X).rank = d ↔ ∀ w : Fin d → ℝ, (∀ i, ∑ j, w j * X i j = 0) → w = 0 := by
  have h1 := LinearMap.finrank_range_add_finrank_ker (Matrix.mulVecLin (Matrix.of X))
  rw [Module.finrank_fin_fun] at h1
  have hk : LinearMap.ker (Matrix.mulVecLin (Matrix.of X)) = ⊥ ↔ ∀ w : Fin d → ℝ, (∀ i, ∑ j, w j * X i j = 0) → w = 0 := by
    rw [LinearMap.ker_eq_bot']
    refine forall_congr' fun w => ?_
    rw [Matrix.mulVecLin_apply]
    have : (Matrix.of X).mulVec w = 0 ↔ ∀ i, ∑ j, w j * X i j = 0 := by
      rw [funext_iff]
      refine forall_congr' fun i => ?_
      simp only [Matrix.mulVec, dotProduct, Matrix.of_apply, Pi.zero_apply, mul_comm (w _)]
    rw [this]
  rw [← hk, ← Submodule.finrank_eq_zero]
  unfold Matrix.rank
  omega

theorem mapDesign_cont (lb ub : Pt d) (D : Des n d) (i : Fin n) (j : Fin d) :
    mapDesign (some (lb, ub)) [] D i j = lb j + (ub j - lb j) * D i j := by
  show roundVars (fromUnitBox (D i) lb ub) [] lb ub j = _
  rw [C38_cont _ _ _ _ _ (by simp)]
  unfold fromUnitBox
  ring

/-- Points not on a hyperplane have full rank. -/
theorem rank_of_not_degenerate {X : Des n d} (h : ¬ Degenerate X) : (Matrix.of X).rank = d := by
  rw [rank_full_iff]
  intro w hw
  by_contra h0
  exact h ⟨w, 0, h0, hw⟩

/-- With fewer equations than unknowns there is a nonzero solution. -/
theorem exists_orthogonal {m : ℕ} (hm : m < d) (A : Fin m → Pt d) : ∃ w : Fin d → ℝ, w ≠ 0 ∧ ∀ i, ∑ j, w j * A i j = 0 := by
  by_contra hcon
  push Not at hcon
  have : (Matrix.of A).rank = d := by
    rw [rank_full_iff]
    intro w hw
    by_contra h0
    obtain ⟨i, hi⟩ := hcon w h0
    exact hi (hw i)
  have h2 := Matrix.rank_le_card_height (Matrix.of A)
  rw [this, Fintype.card_fin] at h2
  omega

/-! ## The symmetric Latin hypercube -/

/-- The result of `generate_points(lb, ub, int_var)` for the given outcomes of the coins and shuffles of all iterations. -/
noncomputable def slhdResult (lb ub : Pt d) (iv : List (Fin d)) {k : ℕ} (r : Fin k → SlhdDraws n d) : Option (Des n d) :=
  slhdPoints n d (List.ofFn fun i => (drawnCoin (r i), drawnPerm (r i))) (some (lb, ub)) iv

/-- The probability that `SymmetricLatinHypercube(d, n, iterations=k).generate_points(lb, ub, int_var)` raises an error; all
coins and shuffles are fair and independent. -/
noncomputable def slhdFails (n : ℕ) (lb ub : Pt d) (iv : List (Fin d)) (k : ℕ) : ℝ≥0∞ :=
  (PMF.uniformOfFintype (Fin k → SlhdDraws n d)).toOuterMeasure {r | slhdResult lb ub iv r = none}

theorem slhdResult_none {lb ub : Pt d} {iv : List (Fin d)} {k : ℕ} (r : Fin k → SlhdDraws n d) :
    slhdResult lb ub iv r = none ↔ ∀ i, ¬ Qualifies (mapDesign (some (lb, ub)) iv (slhdOf (r i))) := by
  unfold slhdResult slhdPoints
  rw [(C45_select _ _ _).2]
  simp only [List.map_map, List.mem_map, List.mem_ofFn, Function.comp_apply, slhdOf]
  constructor
  · intro h i
    exact h _ ⟨_, ⟨i, rfl⟩, rfl⟩
  · rintro h c ⟨_, ⟨i, rfl⟩, rfl⟩
    exact h i

open Classical in
theorem slhdFails_eq (lb ub : Pt d) (iv : List (Fin d)) (k : ℕ) : slhdFails n lb ub iv k =
    ((Finset.univ.filter fun r : SlhdDraws n d => ¬ Qualifies (mapDesign (some (lb, ub)) iv (slhdOf r))).card /
      (Fintype.card (SlhdDraws n d)) : ℝ≥0∞) ^ k := by
  unfold slhdFails
  rw [PMF.toOuterMeasure_uniformOfFintype_apply]
  have h1 : Fintype.card {r : Fin k → SlhdDraws n d | slhdResult lb ub iv r = none} =
      (Finset.univ.filter fun r : SlhdDraws n d => ¬ Qualifies (mapDesign (some (lb, ub)) iv (slhdOf r))).card ^ k := by
    rw [Fintype.card_subtype]
    have : (Finset.univ.filter fun r : Fin k → SlhdDraws n d => r ∈ {r | slhdResult lb ub iv r = none}) =
        Fintype.piFinset fun _ : Fin k =>
          Finset.univ.filter fun r : SlhdDraws n d => ¬ Qualifies (mapDesign (some (lb, ub)) iv (slhdOf r)) := by
      ext r
      simp only [Finset.mem_filter, Finset.mem_univ, true_and, Set.mem_setOf_eq, Fintype.mem_piFinset]
      exact slhdResult_none r
    rw [this, Fintype.card_piFinset_const]
  rw [h1, Fintype.card_fun, Fintype.card_fin, Nat.cast_pow, Nat.cast_pow, ENNReal.div_eq_inv_mul, ENNReal.div_eq_inv_mul, mul_pow,
    ENNReal.inv_pow]

/-- The design of the existence proof: in variable `j ≥ 1` the points number `j` and `n - 1 - j` change places. -/
noncomputable def swapDesign (n d : ℕ) : Des n d := fun i j =>
  if j.1 ≠ 0 ∧ (i.1 = j.1 ∨ i.1 + j.1 + 1 = n) then ((n : ℝ) - 1 - i) / ((n : ℝ) - 1) else (i : ℝ) / ((n : ℝ) - 1)

theorem swapDesign_sorted : Sorted (swapDesign n d) := by
  intro i j hj
  unfold swapDesign
  rw [if_neg fun h => h.1 hj]

theorem swapDesign_symLatin (hn : 2 ≤ n) : SymLatin (swapDesign n d) := by
  have hp := pred_pos hn
  constructor
  · intro j k
    by_cases h : j.1 ≠ 0 ∧ (k.1 = j.1 ∨ k.1 + j.1 + 1 = n)
    · refine ⟨⟨n - 1 - k.1, by omega⟩, ?_⟩
      unfold swapDesign
      rw [if_pos ⟨h.1, by have := k.2; dsimp only; omega⟩]
      have : ((n - 1 - k.1 : ℕ) : ℝ) = (n : ℝ) - 1 - k := by
        have := k.2
        rw [Nat.sub_sub, Nat.cast_sub (by omega)]
        push_cast
        ring
      dsimp only
      rw [this]
      congr 1
      ring
    · exact ⟨k, by unfold swapDesign; rw [if_neg h]⟩
  · intro i
    refine ⟨⟨n - 1 - i.1, by omega⟩, fun j => ?_⟩
    have hc : ((n - 1 - i.1 : ℕ) : ℝ) = (n : ℝ) - 1 - i := by
      have := i.2
      rw [Nat.sub_sub, Nat.cast_sub (by omega)]
      push_cast
      ring
    unfold swapDesign
    dsimp only
    rw [hc]
    by_cases h : j.1 ≠ 0 ∧ (i.1 = j.1 ∨ i.1 + j.1 + 1 = n)
    · have h' : j.1 ≠ 0 ∧ (n - 1 - i.1 = j.1 ∨ n - 1 - i.1 + j.1 + 1 = n) := ⟨h.1, by have := i.2; omega⟩
      rw [if_pos h, if_pos h', ← add_div, div_eq_one_iff_eq hp.ne']
      ring
    · have h' : ¬ (j.1 ≠ 0 ∧ (n - 1 - i.1 = j.1 ∨ n - 1 - i.1 + j.1 + 1 = n)) := fun h2 => h ⟨h2.1, by have := i.2; omega⟩
      rw [if_neg h, if_neg h', ← add_div, div_eq_one_iff_eq hp.ne']
      ring

/-- With at least `2 d` points it determines every affine function. -/
theorem swapDesign_spread (hd : 1 ≤ d) (hn : d ≤ n / 2) (lb ub : Pt d) (h : ∀ j, lb j < ub j) :
    ¬ Degenerate (mapDesign (some (lb, ub)) [] (swapDesign n d)) := by
  rintro ⟨w, c, hw0, hw⟩
  have hp := pred_pos (n := n) (by omega)
  apply hw0
  set v : Fin d → ℝ := fun j => w j * (ub j - lb j) with hv
  have key : ∀ i, ∑ j, v j * swapDesign n d i j = c - ∑ j, w j * lb j := by
    intro i
    rw [← hw i, ← Finset.sum_sub_distrib]
    refine Finset.sum_congr rfl fun j _ => ?_
    rw [mapDesign_cont, hv]
    ring
  have k0 := key ⟨0, by omega⟩
  have e0 : ∑ j, v j * swapDesign n d ⟨0, by omega⟩ j = 0 := by
    refine Finset.sum_eq_zero fun j _ => ?_
    unfold swapDesign
    rw [if_neg (by have := j.2; dsimp only; omega)]
    simp
  rw [e0] at k0
  have k1 := key ⟨n - 1, by omega⟩
  have e1 : ∑ j, v j * swapDesign n d ⟨n - 1, by omega⟩ j = ∑ j, v j := by
    refine Finset.sum_congr rfl fun j _ => ?_
    unfold swapDesign
    rw [if_neg (by have := j.2; dsimp only; omega)]
    have : (((⟨n - 1, by omega⟩ : Fin n) : ℕ) : ℝ) = (n : ℝ) - 1 := by
      dsimp only
      rw [Nat.cast_sub (by omega)]
      simp
    rw [this, div_self hp.ne', mul_one]
  rw [e1, ← k0] at k1
  have hi : ∀ i : Fin d, i.1 ≠ 0 → v i = 0 := by
    intro i hi0
    have k2 := key ⟨i.1, by have := i.2; omega⟩
    rw [← k0] at k2
    have e2 : ∀ j, v j * swapDesign n d ⟨i.1, by have := i.2; omega⟩ j =
        v j * ((i : ℝ) / ((n : ℝ) - 1)) + if j = i then v i * (((n : ℝ) - 1 - 2 * i) / ((n : ℝ) - 1)) else 0 := by
      intro j
      unfold swapDesign
      by_cases hj : j = i
      · subst hj
        rw [if_pos ⟨hi0, .inl rfl⟩, if_pos rfl, ← mul_add, ← add_div]
        congr 2
        dsimp only
        ring
      · have hne : ¬ (j.1 ≠ 0 ∧ (i.1 = j.1 ∨ i.1 + j.1 + 1 = n)) := by
          rintro ⟨-, h1 | h1⟩
          · exact hj (Fin.ext h1.symm)
          · have := i.2
            have := j.2
            omega
        rw [if_neg hj, if_neg hne, add_zero]
    simp only [e2] at k2
    rw [Finset.sum_add_distrib, ← Finset.sum_mul, k1, zero_mul, zero_add, Finset.sum_ite_eq' Finset.univ i, if_pos (Finset.mem_univ _)] at k2
    rcases mul_eq_zero.mp k2 with h2 | h2
    · exact h2
    · exfalso
      rw [div_eq_zero_iff] at h2
      have h3 : (2 * i.1 + 1 : ℕ) < n := by have := i.2; omega
      have h4 : ((2 * i.1 + 1 : ℕ) : ℝ) < n := by exact_mod_cast h3
      push_cast at h4
      rcases h2 with h2 | h2 <;> linarith
  have h00 : v ⟨0, hd⟩ = 0 := by
    rw [Finset.sum_eq_single ⟨0, hd⟩] at k1
    · exact k1
    · intro j _ hj
      exact hi j fun h => hj (Fin.ext h)
    · simp
  funext j
  have hvj : v j = 0 := by
    by_cases hj : j.1 = 0
    · have : j = ⟨0, hd⟩ := Fin.ext hj
      rw [this]; exact h00
    · exact hi j hj
  rcases mul_eq_zero.mp hvj with h1 | h1
  · exact h1
  · linarith [h j]

/-- The points of a mapped symmetric Latin hypercube are different. -/
theorem slhdOf_distinct (hn : 2 ≤ n) (hd : 1 ≤ d) (lb ub : Pt d) (h : ∀ j, lb j < ub j) (r : SlhdDraws n d) (i k : Fin n) (hik : i ≠ k) :
    mapDesign (some (lb, ub)) [] (slhdOf r) i ≠ mapDesign (some (lb, ub)) [] (slhdOf r) k := by
  intro he
  have h0 := congrFun he ⟨0, hd⟩
  rw [mapDesign_cont, mapDesign_cont, add_right_inj, mul_right_inj' (by linarith [h ⟨0, hd⟩])] at h0
  have hs := ((C129_one_outcome hn hd (slhdOf r)).mpr ⟨r, rfl, fun r' hr' => slhdOf_injective hn hr'⟩).2
  rw [hs _ _ rfl, hs _ _ rfl, div_left_inj' (pred_pos hn).ne'] at h0
  exact hik (Fin.ext (by exact_mod_cast h0))

/-- The iterations of `generate_points` are independent: the probability of an error is a power. -/
theorem C135_iterations (lb ub : Pt d) (iv : List (Fin d)) (k : ℕ) :
    slhdFails n lb ub iv k = slhdFails n lb ub iv 1 ^ k := by
  rw [slhdFails_eq, slhdFails_eq, pow_one]

/-- Full statement: with `num_pts ≥ 2 * dim` points, `SymmetricLatinHypercube.generate_points` returns a design.  False
(`C135_refuted`).  Proved for continuous variables: the probability of an error in one iteration is less than one, by an explicit
amount, and the probability of an error in all iterations tends to zero if `iterations` grows. -/
theorem C135_enough_partial (hd : 1 ≤ d) (hn : 2 * d ≤ n) (lb ub : Pt d) (h : ∀ j, lb j < ub j) :
    (∀ k, slhdFails n lb ub [] k ≤ (1 - (((2 ^ (n / 2) * (n / 2).factorial) ^ (d - 1) : ℕ) : ℝ≥0∞)⁻¹) ^ k) ∧
    Filter.Tendsto (slhdFails n lb ub []) Filter.atTop (nhds 0) := by
  classical
  obtain ⟨r0, hr0, -⟩ := (C129_one_outcome (n := n) (by omega) hd (swapDesign n d)).mp ⟨swapDesign_symLatin (by omega), swapDesign_sorted⟩
  have hq : Qualifies (mapDesign (some (lb, ub)) [] (slhdOf r0)) :=
    ⟨slhdOf_distinct (by omega) hd lb ub h r0, rank_of_not_degenerate (hr0 ▸ swapDesign_spread hd (by omega) lb ub h)⟩
  have hc : (Finset.univ.filter fun r : SlhdDraws n d => ¬ Qualifies (mapDesign (some (lb, ub)) [] (slhdOf r))).card + 1 ≤
      Fintype.card (SlhdDraws n d) := by
    rw [Nat.succ_le_iff, ← Finset.card_univ]
    refine Finset.card_lt_card (Finset.filter_ssubset.mpr ⟨r0, Finset.mem_univ _, fun hh => hh hq⟩)
  have hN : (Fintype.card (SlhdDraws n d) : ℝ≥0∞) ≠ 0 := by exact_mod_cast (by omega : Fintype.card (SlhdDraws n d) ≠ 0)
  have hN' : (Fintype.card (SlhdDraws n d) : ℝ≥0∞) ≠ ⊤ := ENNReal.natCast_ne_top _
  have hle : ((Finset.univ.filter fun r : SlhdDraws n d => ¬ Qualifies (mapDesign (some (lb, ub)) [] (slhdOf r))).card /
      (Fintype.card (SlhdDraws n d)) : ℝ≥0∞) ≤ 1 - ((Fintype.card (SlhdDraws n d) : ℕ) : ℝ≥0∞)⁻¹ := by
    refine ENNReal.le_sub_of_add_le_right (ENNReal.inv_ne_top.mpr hN) ?_
    rw [ENNReal.div_eq_inv_mul]
    calc (Fintype.card (SlhdDraws n d) : ℝ≥0∞)⁻¹ * _ + (Fintype.card (SlhdDraws n d) : ℝ≥0∞)⁻¹
        = (Fintype.card (SlhdDraws n d) : ℝ≥0∞)⁻¹ *
          (((Finset.univ.filter fun r : SlhdDraws n d => ¬ Qualifies (mapDesign (some (lb, ub)) [] (slhdOf r))).card + 1 : ℕ) : ℝ≥0∞) := by
          push_cast
          rw [mul_add, mul_one]
      _ ≤ (Fintype.card (SlhdDraws n d) : ℝ≥0∞)⁻¹ * (Fintype.card (SlhdDraws n d) : ℝ≥0∞) := by
          gcongr
      _ = 1 := ENNReal.inv_mul_cancel hN hN'
  have hpow : ∀ k, slhdFails n lb ub [] k ≤ (1 - (((2 ^ (n / 2) * (n / 2).factorial) ^ (d - 1) : ℕ) : ℝ≥0∞)⁻¹) ^ k := by
    intro k
    rw [slhdFails_eq, ← card_draws (n := n) (d := d)]
    exact pow_le_pow_left₀ (by simp) hle k
  refine ⟨hpow, ?_⟩
  have hlt : (1 - (((2 ^ (n / 2) * (n / 2).factorial) ^ (d - 1) : ℕ) : ℝ≥0∞)⁻¹) < 1 :=
    ENNReal.sub_lt_self ENNReal.one_ne_top one_ne_zero (ENNReal.inv_ne_zero.mpr (ENNReal.natCast_ne_top _))
  exact tendsto_of_tendsto_of_tendsto_of_le_of_le tendsto_const_nhds (ENNReal.tendsto_pow_atTop_nhds_zero_of_lt_one hlt)
    (fun _ => by simp) hpow

/-- The outcome with all columns equal: every point is on the diagonal of the box. -/
theorem exists_diagonal (hn : 2 ≤ n) (hd : 1 ≤ d) : ∃ r : SlhdDraws n d, ∀ i j, slhdOf r i j = (i : ℝ) / ((n : ℝ) - 1) := by
  have hp := pred_pos hn
  have hs : SymLatin (fun i _ => (i : ℝ) / ((n : ℝ) - 1) : Des n d) := by
    constructor
    · exact fun _ k => ⟨k, rfl⟩
    · intro i
      refine ⟨⟨n - 1 - i.1, by omega⟩, fun _ => ?_⟩
      have hc : ((n - 1 - i.1 : ℕ) : ℝ) = (n : ℝ) - 1 - i := by
        have := i.2
        rw [Nat.sub_sub, Nat.cast_sub (by omega)]
        push_cast
        ring
      dsimp only
      rw [hc, ← add_div, div_eq_one_iff_eq hp.ne']
      ring
  obtain ⟨r, hr, -⟩ := (C129_one_outcome (n := n) hn hd _).mp ⟨hs, fun _ _ _ => rfl⟩
  exact ⟨r, fun i j => congrFun (congrFun hr i) j⟩

/-- However many points and iterations are used, there is a positive probability of an error: in three or more variables in every
box, in two in every box with the same bounds for both variables. -/
theorem C135_refuted (hn : 2 ≤ n) (lb ub : Pt d) (hb : 3 ≤ d ∨ (2 ≤ d ∧ ∀ i j, lb i = lb j ∧ ub i = ub j)) (k : ℕ) :
    0 < slhdFails n lb ub [] k := by
  classical
  obtain ⟨r, hr⟩ := exists_diagonal (n := n) (d := d) hn (by omega)
  have hw : ∃ w : Fin d → ℝ, w ≠ 0 ∧ ∑ j, w j * lb j = 0 ∧ ∑ j, w j * ub j = 0 := by
    rcases hb with hb | ⟨hb, he⟩
    · obtain ⟨w, h0, h1⟩ := exists_orthogonal (m := 2) (by omega) ![lb, ub]
      exact ⟨w, h0, h1 0, h1 1⟩
    · obtain ⟨w, h0, h1⟩ := exists_orthogonal (m := 1) (by omega) (fun _ _ => 1 : Fin 1 → Pt d)
      have h2 := h1 0
      simp only [mul_one] at h2
      refine ⟨w, h0, ?_, ?_⟩
      · rw [Finset.sum_congr rfl fun j _ => by rw [(he j ⟨0, by omega⟩).1], ← Finset.sum_mul, h2, zero_mul]
      · rw [Finset.sum_congr rfl fun j _ => by rw [(he j ⟨0, by omega⟩).2], ← Finset.sum_mul, h2, zero_mul]
  obtain ⟨w, h0, h1, h2⟩ := hw
  have hbad : ¬ Qualifies (mapDesign (some (lb, ub)) [] (slhdOf r)) := by
    rintro ⟨-, hq⟩
    refine h0 ((rank_full_iff _).mp hq w fun i => ?_)
    have : ∀ j, w j * mapDesign (some (lb, ub)) [] (slhdOf r) i j =
        (1 - (i : ℝ) / ((n : ℝ) - 1)) * (w j * lb j) + (i : ℝ) / ((n : ℝ) - 1) * (w j * ub j) := by
      intro j
      rw [mapDesign_cont, hr]
      ring
    simp only [this]
    rw [Finset.sum_add_distrib, ← Finset.mul_sum, ← Finset.mul_sum, h1, h2, mul_zero, mul_zero, add_zero]
  rw [slhdFails_eq]
  refine ENNReal.pow_pos (ENNReal.div_pos ?_ (ENNReal.natCast_ne_top _)) k
  have : (Finset.univ.filter fun r : SlhdDraws n d => ¬ Qualifies (mapDesign (some (lb, ub)) [] (slhdOf r))).card ≠ 0 :=
    Finset.card_ne_zero.mpr ⟨r, Finset.mem_filter.mpr ⟨Finset.mem_univ _, hbad⟩⟩
  exact_mod_cast this

/-- With too few points `generate_points` raises an error always: `num_pts < 2 * (dim - 1)`. -/
theorem C135_too_few (hn : 2 ≤ n) (hd : n / 2 + 1 < d) (lb ub : Pt d)
    (rnd : List ((ℕ → ℕ → Bool) × (ℕ → Equiv.Perm (Fin (n / 2))))) : slhdPoints n d rnd (some (lb, ub)) [] = none := by
  unfold slhdPoints
  rw [(C45_select _ _ _).2]
  simp only [List.map_map, List.mem_map, Function.comp_apply]
  rintro c ⟨r, -, rfl⟩ ⟨-, hq⟩
  obtain ⟨w, h0, h1⟩ := exists_orthogonal (m := n / 2 + 1) hd
    (Fin.cons (fun j => lb j + ub j) fun i : Fin (n / 2) => mapDesign (some (lb, ub)) [] (slhd n d r.1 r.2) ⟨i.1, by have := i.2; omega⟩)
  have hc : ∑ j, w j * (lb j + ub j) = 0 := h1 0
  have ht : ∀ i : Fin (n / 2), ∑ j, w j * mapDesign (some (lb, ub)) [] (slhd n d r.1 r.2) ⟨i.1, by have := i.2; omega⟩ j = 0 :=
    fun i => by simpa using h1 i.succ
  have hsym : ∀ i j, mapDesign (some (lb, ub)) [] (slhd n d r.1 r.2) i j =
      (lb j + ub j) - mapDesign (some (lb, ub)) [] (slhd n d r.1 r.2) i.rev j := by
    intro i j
    rw [mapDesign_cont, mapDesign_cont]
    have := C43_symmetric hn r.1 r.2 i j
    have h2 : slhd n d r.1 r.2 i j = 1 - slhd n d r.1 r.2 i.rev j := by linarith
    rw [h2]
    ring
  refine h0 ((rank_full_iff _).mp hq w fun i => ?_)
  have hs : ∑ j, w j * mapDesign (some (lb, ub)) [] (slhd n d r.1 r.2) i j =
      - ∑ j, w j * mapDesign (some (lb, ub)) [] (slhd n d r.1 r.2) i.rev j := by
    rw [← zero_sub, ← hc, ← Finset.sum_sub_distrib]
    refine Finset.sum_congr rfl fun j _ => ?_
    rw [hsym i j]
    ring
  by_cases hi : i.1 < n / 2
  · exact ht ⟨i.1, hi⟩
  · by_cases hi' : i.rev.1 < n / 2
    · rw [hs, neg_eq_zero]
      exact ht ⟨i.rev.1, hi'⟩
    · have : i.rev = i := by
        apply Fin.ext
        rw [Fin.val_rev] at hi' ⊢
        have := i.2
        omega
      rw [this] at hs
      linarith

/-! ## The Latin hypercube -/

/-- The law of the numbers that `k` calls of `pydoe.lhs` draw: independent, uniform on `[0, 1)`. (lhd.py:54-57.) -/
noncomputable def lhdLaw (k n d : ℕ) : Measure (Fin k → Fin n → Fin d → ℝ) :=
  Measure.pi fun _ => Measure.pi fun _ => Measure.pi fun _ => unifLaw

theorem lhdLaw_eq (k n d : ℕ) : lhdLaw k n d = (volume : Measure (Fin k → Fin n → Fin d → ℝ)).restrict
    (Set.univ.pi fun _ => Set.univ.pi fun _ => Set.univ.pi fun _ => Set.Ico 0 1) := by
  unfold lhdLaw unifLaw
  simp only [volume_pi, Measure.restrict_pi_pi]

/-- If a matrix depends continuously on `u` and moving `u` in one direction adds multiples of the unit matrix, then it is almost
surely regular. -/
theorem ae_det_ne_zero {U : Type*} [NormedAddCommGroup U] [NormedSpace ℝ U] [FiniteDimensional ℝ U] [MeasurableSpace U] [BorelSpace U]
    (ν : Measure U) [ν.IsAddHaarMeasure] (F : U → Matrix (Fin d) (Fin d) ℝ) (hF : Continuous F) (V : U)
    (hV : ∀ (u : U) (t : ℝ), F (u + t • V) = F u + t • (1 : Matrix (Fin d) (Fin d) ℝ)) : ∀ᵐ u ∂ν, (F u).det ≠ 0 := by
  have hm : MeasurableSet {u | (F u).det ≠ 0} := (isOpen_ne_fun hF.matrix_det continuous_const).measurableSet
  refine ae_mem_of_ae_add_linearMap_mem (LinearMap.toSpanSingleton ℝ U V) (volume : Measure ℝ) ν hm fun y => ?_
  have hfin : {t : ℝ | (F (y + t • V)).det = 0}.Finite := by
    refine ((-(F y)).charpoly.roots.toFinset.finite_toSet).subset fun t ht => ?_
    rw [Set.mem_setOf_eq, hV] at ht
    rw [Finset.mem_coe, Multiset.mem_toFinset, Polynomial.mem_roots (Matrix.charpoly_monic _).ne_zero, Polynomial.IsRoot.def,
      Matrix.eval_charpoly, ← ht]
    congr 1
    rw [sub_neg_eq_add, add_comm]
    congr 1
    ext a b
    simp [Matrix.scalar_apply, Matrix.diagonal_apply, Matrix.one_apply]
  have h0 : ∀ᵐ t : ℝ, t ∉ {t : ℝ | (F (y + t • V)).det = 0} := hfin.countable.ae_notMem volume
  filter_upwards [h0] with t ht
  exact ht

/-- The design of one iteration, in the box. -/
theorem lhd_apply (lb ub : Pt d) (u : Fin n → Fin d → ℝ) (σ : Fin d → Equiv.Perm (Fin n)) (i : Fin n) (j : Fin d) :
    mapDesign (some (lb, ub)) [] (lhs n d u σ) i j = lb j + (ub j - lb j) * (((σ j i : ℕ) + u (σ j i) j) / (n : ℝ)) := by
  rw [mapDesign_cont]
  rfl

theorem lhd_distinct (hd : 1 ≤ d) (lb ub : Pt d) (h : ∀ j, lb j < ub j) (u : Fin n → Fin d → ℝ) (hu : ∀ i j, u i j ∈ Set.Ico (0 : ℝ) 1)
    (σ : Fin d → Equiv.Perm (Fin n)) (i k : Fin n) (hik : i ≠ k) :
    mapDesign (some (lb, ub)) [] (lhs n d u σ) i ≠ mapDesign (some (lb, ub)) [] (lhs n d u σ) k := by
  intro he
  have h0 := congrFun he ⟨0, hd⟩
  have hn : (0 : ℝ) < n := by exact_mod_cast i.pos
  rw [lhd_apply, lhd_apply, add_right_inj, mul_right_inj' (by linarith [h ⟨0, hd⟩]), div_left_inj' hn.ne'] at h0
  have a := hu (σ ⟨0, hd⟩ i) ⟨0, hd⟩
  have b := hu (σ ⟨0, hd⟩ k) ⟨0, hd⟩
  apply hik
  apply (σ ⟨0, hd⟩).injective
  apply Fin.ext
  generalize σ ⟨0, hd⟩ i = p at *
  generalize σ ⟨0, hd⟩ k = q at *
  have h1 : (p : ℝ) < q + 1 := by linarith [a.1, b.2]
  have h2 : (q : ℝ) < p + 1 := by linarith [b.1, a.2]
  have h1' : p.1 < q.1 + 1 := by exact_mod_cast h1
  have h2' : q.1 < p.1 + 1 := by exact_mod_cast h2
  omega

/-- The direction in which the mapped design of iteration `q` moves by the unit matrix. -/
noncomputable def lhdDir (lb ub : Pt d) {k : ℕ} (σ : Fin k → Fin d → Equiv.Perm (Fin n)) (e : Fin d → Fin n) (q : Fin k) :
    Fin k → Fin n → Fin d → ℝ := fun p a j => if p = q ∧ (σ q j).symm a = e j then (n : ℝ) / (ub j - lb j) else 0

theorem lhd_move (lb ub : Pt d) (h : ∀ j, lb j < ub j) {k : ℕ} (σ : Fin k → Fin d → Equiv.Perm (Fin n)) (e : Fin d → Fin n) (q : Fin k)
    (u : Fin k → Fin n → Fin d → ℝ) (t : ℝ) (i : Fin n) (j : Fin d) :
    mapDesign (some (lb, ub)) [] (lhs n d ((u + t • lhdDir lb ub σ e q) q) (σ q)) i j =
      mapDesign (some (lb, ub)) [] (lhs n d (u q) (σ q)) i j + if i = e j then t else 0 := by
  have hn : (n : ℝ) ≠ 0 := by exact_mod_cast i.pos.ne'
  have hb : ub j - lb j ≠ 0 := by linarith [h j]
  rw [lhd_apply, lhd_apply]
  simp only [Pi.add_apply, Pi.smul_apply, smul_eq_mul, lhdDir, Equiv.symm_apply_apply, true_and]
  split_ifs
  · field_simp
    ring
  · ring

theorem lhd_continuous (lb ub : Pt d) {k : ℕ} (σ : Fin k → Fin d → Equiv.Perm (Fin n)) (q : Fin k) (i : Fin n) (j : Fin d) :
    Continuous fun u : Fin k → Fin n → Fin d → ℝ => mapDesign (some (lb, ub)) [] (lhs n d (u q) (σ q)) i j := by
  simp only [lhd_apply]
  fun_prop

theorem ae_det_cube {k : ℕ} (F : (Fin k → Fin n → Fin d → ℝ) → Matrix (Fin d) (Fin d) ℝ) (hF : Continuous F)
    (V : Fin k → Fin n → Fin d → ℝ)
    (hV : ∀ (u : Fin k → Fin n → Fin d → ℝ) (t : ℝ), F (u + t • V) = F u + t • (1 : Matrix (Fin d) (Fin d) ℝ)) :
    ∀ᵐ u ∂lhdLaw k n d, (F u).det ≠ 0 := by
  rw [lhdLaw_eq]
  haveI h1 : (volume : Measure (Fin n → Fin d → ℝ)).IsAddHaarMeasure := Measure.pi.isAddHaarMeasure fun _ => volume
  haveI h2 : (volume : Measure (Fin k → Fin n → Fin d → ℝ)).IsAddHaarMeasure := Measure.pi.isAddHaarMeasure fun _ => volume
  exact ae_restrict_of_ae (ae_det_ne_zero volume F hF V hV)

theorem lhd_ae_rank {k : ℕ} (lb ub : Pt d) (h : ∀ j, lb j < ub j) (hn : d ≤ n) :
    ∀ᵐ u ∂lhdLaw k n d, ∀ σ : Fin k → Fin d → Equiv.Perm (Fin n), ∀ q,
      (Matrix.of fun a b : Fin d => mapDesign (some (lb, ub)) [] (lhs n d (u q) (σ q)) (Fin.castLE hn a) b).det ≠ 0 := by
  refine ae_all_iff.mpr fun σ => ae_all_iff.mpr fun q => ?_
  refine ae_det_cube (fun u => Matrix.of fun a b : Fin d =>
    mapDesign (some (lb, ub)) [] (lhs n d (u q) (σ q)) (Fin.castLE hn a) b) ?_ (lhdDir lb ub σ (Fin.castLE hn) q) fun u t => ?_
  · exact continuous_matrix fun a b => lhd_continuous lb ub σ q _ b
  · ext a b
    simp only [Matrix.of_apply, Matrix.add_apply, Matrix.smul_apply, Matrix.one_apply, smul_eq_mul, mul_ite, mul_one, mul_zero]
    rw [lhd_move lb ub h]
    congr 1
    simp only [Fin.castLE_inj]

theorem lhd_ae_affine {k : ℕ} (lb ub : Pt d) (h : ∀ j, lb j < ub j) (hn : d < n) (hn' : d ≤ n) :
    ∀ᵐ u ∂lhdLaw k n d, ∀ σ : Fin k → Fin d → Equiv.Perm (Fin n), ∀ q,
      (Matrix.of fun a b : Fin d => mapDesign (some (lb, ub)) [] (lhs n d (u q) (σ q)) (Fin.castLE hn' a) b -
        mapDesign (some (lb, ub)) [] (lhs n d (u q) (σ q)) ⟨d, hn⟩ b).det ≠ 0 := by
  refine ae_all_iff.mpr fun σ => ae_all_iff.mpr fun q => ?_
  refine ae_det_cube (fun u => Matrix.of fun a b : Fin d =>
    mapDesign (some (lb, ub)) [] (lhs n d (u q) (σ q)) (Fin.castLE hn' a) b -
      mapDesign (some (lb, ub)) [] (lhs n d (u q) (σ q)) ⟨d, hn⟩ b) ?_ (lhdDir lb ub σ (Fin.castLE hn') q) fun u t => ?_
  · exact continuous_matrix fun a b => (lhd_continuous lb ub σ q _ b).sub (lhd_continuous lb ub σ q _ b)
  · ext a b
    simp only [Matrix.of_apply, Matrix.add_apply, Matrix.smul_apply, Matrix.one_apply, smul_eq_mul, mul_ite, mul_one, mul_zero]
    rw [lhd_move lb ub h, lhd_move lb ub h]
    have hne : (⟨d, hn⟩ : Fin n) ≠ Fin.castLE hn' b := by
      intro he
      have := congrArg Fin.val he
      simp only [Fin.val_castLE] at this
      exact absurd this b.2.ne'
    rw [if_neg hne, add_zero]
    simp only [Fin.castLE_inj]
    ring

/-- With at least `dim` points `LatinHypercube.generate_points` returns a design of full rank almost surely, with at least
`dim + 1` points one that determines every affine function (the interpolation problem with linear tail has a solution);
whatever permutations are drawn, for every number of iterations.  With fewer than `dim` points it raises an error. -/
theorem C135_lhd (hd : 1 ≤ d) (lb ub : Pt d) (h : ∀ j, lb j < ub j) :
    (d ≤ n → ∀ k, 1 ≤ k → ∀ᵐ u ∂lhdLaw k n d, ∀ σ : Fin k → Fin d → Equiv.Perm (Fin n),
      ∃ X, lhdPoints n d (List.ofFn fun q => (u q, σ q)) (some (lb, ub)) [] = some X) ∧
    (d + 1 ≤ n → ∀ k, 1 ≤ k → ∀ᵐ u ∂lhdLaw k n d, ∀ σ : Fin k → Fin d → Equiv.Perm (Fin n),
      ∃ X, lhdPoints n d (List.ofFn fun q => (u q, σ q)) (some (lb, ub)) [] = some X ∧ ¬ Degenerate X) ∧
    (n < d → ∀ rnd, lhdPoints n d rnd (some (lb, ub)) [] = none) := by
  have hcube : ∀ k, ∀ᵐ u ∂lhdLaw k n d, ∀ q i j, u q i j ∈ Set.Ico (0 : ℝ) 1 := by
    intro k
    rw [lhdLaw_eq]
    have hmeas : MeasurableSet (Set.univ.pi fun _ : Fin k => Set.univ.pi fun _ : Fin n => Set.univ.pi fun _ : Fin d => Set.Ico (0 : ℝ) 1) :=
      MeasurableSet.univ_pi fun _ => MeasurableSet.univ_pi fun _ => MeasurableSet.univ_pi fun _ => measurableSet_Ico
    filter_upwards [ae_restrict_mem hmeas] with u hu q i j
    exact hu q trivial i trivial j trivial
  have hsome : ∀ {k : ℕ} (_ : 1 ≤ k) (u : Fin k → Fin n → Fin d → ℝ) (σ : Fin k → Fin d → Equiv.Perm (Fin n)),
      (∀ q, Qualifies (mapDesign (some (lb, ub)) [] (lhs n d (u q) (σ q)))) →
      ∃ X, lhdPoints n d (List.ofFn fun q => (u q, σ q)) (some (lb, ub)) [] = some X ∧
        ∃ q, X = mapDesign (some (lb, ub)) [] (lhs n d (u q) (σ q)) := by
    intro k hk u σ hq
    cases hX : lhdPoints n d (List.ofFn fun q => (u q, σ q)) (some (lb, ub)) [] with
    | none =>
      exfalso
      unfold lhdPoints at hX
      rw [(C45_select _ _ _).2] at hX
      refine hX _ ?_ (hq ⟨0, hk⟩)
      simp only [List.map_map, List.mem_map, Function.comp_apply]
      exact ⟨_, (List.mem_ofFn' _ _).mpr ⟨⟨0, hk⟩, rfl⟩, rfl⟩
    | some X =>
      refine ⟨X, rfl, ?_⟩
      have := ((C45_select _ _ _).1 X hX).1
      simp only [List.map_map, List.mem_map, Function.comp_apply] at this
      obtain ⟨_, hm, rfl⟩ := this
      obtain ⟨q, rfl⟩ := (List.mem_ofFn' _ _).mp hm
      exact ⟨q, rfl⟩
  refine ⟨fun hn k hk => ?_, fun hn k hk => ?_, fun hn rnd => ?_⟩
  · have hreg := lhd_ae_rank (k := k) lb ub h hn
    filter_upwards [hcube k, hreg] with u hu hr σ
    obtain ⟨X, hX, -⟩ := hsome hk u σ fun q => ⟨lhd_distinct hd lb ub h (u q) (hu q) (σ q), (rank_full_iff _).mpr fun w hw => by
      refine Matrix.eq_zero_of_mulVec_eq_zero (hr σ q) (funext fun a => ?_)
      simp only [Matrix.mulVec, dotProduct, Matrix.of_apply, Pi.zero_apply]
      rw [← hw (Fin.castLE hn a)]
      exact Finset.sum_congr rfl fun j _ => mul_comm _ _⟩
    exact ⟨X, hX⟩
  · have hn' : d ≤ n := by omega
    have hreg := lhd_ae_affine (k := k) lb ub h hn hn'
    filter_upwards [hcube k, hreg] with u hu hr σ
    have hnd : ∀ q, ¬ Degenerate (mapDesign (some (lb, ub)) [] (lhs n d (u q) (σ q))) := by
      rintro q ⟨w, c, hw0, hw⟩
      refine hw0 (Matrix.eq_zero_of_mulVec_eq_zero (hr σ q) (funext fun a => ?_))
      simp only [Matrix.mulVec, dotProduct, Matrix.of_apply, Pi.zero_apply]
      have h1 := hw (Fin.castLE hn' a)
      have h2 := hw ⟨d, hn⟩
      rw [← sub_self c]
      nth_rw 1 [← h1]
      rw [← h2, ← Finset.sum_sub_distrib]
      exact Finset.sum_congr rfl fun j _ => by ring
    obtain ⟨X, hX, q, rfl⟩ := hsome hk u σ fun q =>
      ⟨lhd_distinct hd lb ub h (u q) (hu q) (σ q), rank_of_not_degenerate (hnd q)⟩
    exact ⟨_, hX, hnd q⟩
  · unfold lhdPoints
    rw [(C45_select _ _ _).2]
    rintro c - ⟨-, hq⟩
    have h2 := Matrix.rank_le_card_height (Matrix.of c)
    rw [hq, Fintype.card_fin] at h2
    omega

/-! ## Integer variables -/

/-- If all variables are integers and the box has fewer points than the design, an error is raised always: the points of a design
must be different. -/
theorem C135_grid (hn : 2 ≤ n) (lb ub : Fin d → ℤ) (h : ∀ j, lb j < ub j) (hc : ∏ j, (ub j - lb j + 1) < n) (iv : List (Fin d))
    (hiv : ∀ j, j ∈ iv) :
    (∀ rnd, slhdPoints n d rnd (some (fun j => (lb j : ℝ), fun j => (ub j : ℝ))) iv = none) ∧
    (∀ rnd, (∀ r ∈ rnd, ∀ i j, 0 ≤ r.1 i j ∧ r.1 i j < 1) →
      lhdPoints n d rnd (some (fun j => (lb j : ℝ), fun j => (ub j : ℝ))) iv = none) := by
  have key : ∀ X : Des n d, (∀ i, InBox (fun j => (lb j : ℝ)) (fun j => (ub j : ℝ)) (X i) ∧ IntegerOn iv (X i)) → ¬ Qualifies X := by
    rintro X hX ⟨hinj, -⟩
    choose y hy using fun i j => (hX i).2 j (hiv j)
    have hmem : ∀ i, y i ∈ Fintype.piFinset fun j => Finset.Icc (lb j) (ub j) := by
      intro i
      rw [Fintype.mem_piFinset]
      intro j
      have := (hX i).1 j
      rw [hy] at this
      beta_reduce at this
      rw [Finset.mem_Icc]
      exact ⟨by exact_mod_cast this.1, by exact_mod_cast this.2⟩
    have hcard : (Fintype.piFinset fun j => Finset.Icc (lb j) (ub j)).card < Fintype.card (Fin n) := by
      rw [Fintype.card_piFinset, Fintype.card_fin]
      have : ((∏ j, (Finset.Icc (lb j) (ub j)).card : ℕ) : ℤ) < n := by
        push_cast
        refine lt_of_eq_of_lt (Finset.prod_congr rfl fun j _ => ?_) hc
        rw [Int.card_Icc, Int.toNat_of_nonneg (by linarith [h j])]
        ring
      exact_mod_cast this
    obtain ⟨i, -, k, -, hik, he⟩ := Finset.exists_ne_map_eq_of_card_lt_of_maps_to (s := Finset.univ) (by simpa using hcard)
      (fun i _ => hmem i)
    refine hinj i k hik (funext fun j => ?_)
    rw [hy, hy, he]
  have hlt : ∀ j, (lb j : ℝ) < ub j := fun j => by exact_mod_cast h j
  have hint : ∀ j ∈ iv, ∃ l u : ℤ, (lb j : ℝ) = l ∧ (ub j : ℝ) = u := fun j _ => ⟨_, _, rfl, rfl⟩
  refine ⟨fun rnd => Option.eq_none_iff_forall_ne_some.mpr fun X hX => ?_, fun rnd hu => Option.eq_none_iff_forall_ne_some.mpr fun X hX => ?_⟩
  · exact key X (C45_slhd hn _ _ iv hlt hint rnd X hX) ((C45_select _ _ _).1 X hX).2.1
  · exact key X (C45_lhd _ _ iv hlt hint rnd hu X hX) ((C45_select _ _ _).1 X hX).2.1

/-- The recommended number of points, `2 * dim + 1`, is too large for two binary variables: an error always. -/
theorem C135_binary_refuted (rnd : List ((ℕ → ℕ → Bool) × (ℕ → Equiv.Perm (Fin ((2 * 2 + 1) / 2))))) :
    slhdPoints (2 * 2 + 1) 2 rnd (some (fun _ => 0, fun _ => 1)) [0, 1] = none := by
  have := (C135_grid (n := 2 * 2 + 1) (d := 2) (by norm_num) (fun _ => 0) (fun _ => 1) (by simp) (by simp) [0, 1]
    (fun j => by fin_cases j <;> simp)).1 rnd
  simpa using this

/-! ## Cases that meet the hypotheses -/

/-- Three variables, seven points, one iteration: the error has positive probability, and the probability of an error is at most
`(1 - 1/2304) ^ k` with `k` iterations. -/
example (k : ℕ) : 0 < slhdFails 7 (fun _ => 0 : Pt 3) (fun _ => 1) [] k ∧
    slhdFails 7 (fun _ => 0 : Pt 3) (fun _ => 1) [] k ≤ (1 - (2304 : ℝ≥0∞)⁻¹) ^ k := by
  refine ⟨C135_refuted (by norm_num) _ _ (.inl le_rfl) k, ?_⟩
  have := (C135_enough_partial (n := 7) (d := 3) (by norm_num) (by norm_num) (fun _ => 0) (fun _ => 1) (by simp)).1 k
  norm_num [Nat.factorial] at this
  exact this

/-- Six variables and seven points: always an error. -/
example (rnd) : slhdPoints 7 6 rnd (some (fun _ => 0, fun _ => 1)) [] = none := C135_too_few (by norm_num) (by norm_num) _ _ rnd

end Verif.Props
