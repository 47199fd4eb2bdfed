import Verif.Props.Enough
import Mathlib.MeasureTheory.Integral.Lebesgue.Countable
import Mathlib.MeasureTheory.Measure.Lebesgue.Basic

/-! # Property C138: a Latin hypercube is an unbiased sample -/

namespace Verif.Props

open Verif.Num Verif.Spec Verif.Utils Verif.Design Verif.Loop MeasureTheory
open scoped ENNReal

variable {n d : ℕ}

/-! ## Specification -/

/-- The result of `LatinHypercube(dim, num_pts, iterations).generate_points(lb, ub)` for continuous variables; `u` and `σ` are
the numbers and permutations drawn in each iteration. -/
noncomputable def lhdResult (lb ub : Pt d) {k : ℕ} (u : Fin k → Fin n → Fin d → ℝ) (σ : Fin k → Fin d → Equiv.Perm (Fin n)) :
    Option (Des n d) := lhdPoints n d (List.ofFn fun q => (u q, σ q)) (some (lb, ub)) []

/-- The expected value of a nonnegative function of the draws: the numbers are independent and uniform on `[0, 1)`, all
permutations are equally likely and independent. -/
noncomputable def lhdExpect {k : ℕ} (F : (Fin k → Fin n → Fin d → ℝ) → (Fin k → Fin d → Equiv.Perm (Fin n)) → ℝ≥0∞) : ℝ≥0∞ :=
  (∑ σ, ∫⁻ u, F u σ ∂lhdLaw k n d) / (Fintype.card (Fin k → Fin d → Equiv.Perm (Fin n)) : ℝ≥0∞)

/-- The value of `f` at the `i`-th point of a design (0 if there is none). -/
noncomputable def valueAt (f : Pt d → ℝ≥0∞) (i : Fin n) (X : Option (Des n d)) : ℝ≥0∞ := (X.map fun X => f (X i)).getD 0

/-- The mean value of `f` in the box. -/
noncomputable def boxMean (lb ub : Pt d) (f : Pt d → ℝ≥0∞) : ℝ≥0∞ := (∫⁻ x in Set.Icc lb ub, f x) / volume (Set.Icc lb ub)

/-! ## One variable -/

/-- The intervals of a subdivision add up. -/
theorem sum_cells (a : ℕ → ℝ) (ha : Monotone a) (s : Set ℝ) (m : ℕ) :
    ∑ k ∈ Finset.range m, volume (s ∩ Set.Ico (a k) (a (k + 1))) = volume (s ∩ Set.Ico (a 0) (a m)) := by
  induction m with
  | zero => simp
  | succ m ih =>
    rw [Finset.sum_range_succ, ih, ← Set.Ico_union_Ico_eq_Ico (ha (Nat.zero_le m)) (ha (Nat.le_succ m)), Set.inter_union_distrib_left]
    have h1 : s ∩ Set.Ico (a 0) (a m) = (s ∩ Set.Ico (a 0) (a (m + 1))) ∩ Set.Iio (a m) := by
      ext x
      have := ha (Nat.le_succ m)
      simp only [Set.mem_inter_iff, Set.mem_Ico, Set.mem_Iio]
      constructor
      · rintro ⟨p, q, r⟩; exact ⟨⟨p, q, r.trans_le this⟩, r⟩
      · rintro ⟨⟨p, q, -⟩, r⟩; exact ⟨p, q, r⟩
    have h2 : s ∩ Set.Ico (a m) (a (m + 1)) = (s ∩ Set.Ico (a 0) (a (m + 1))) \ Set.Iio (a m) := by
      ext x
      have := ha (Nat.zero_le m)
      simp only [Set.mem_inter_iff, Set.mem_Ico, Set.mem_diff, Set.mem_Iio, not_lt]
      constructor
      · rintro ⟨p, q, r⟩; exact ⟨⟨p, this.trans q, r⟩, q⟩
      · rintro ⟨⟨p, -, r⟩, q⟩; exact ⟨p, q, r⟩
    rw [h1, h2, measure_inter_add_diff _ measurableSet_Iio, ← h1, ← h2, ← Set.inter_union_distrib_left,
      Set.Ico_union_Ico_eq_Ico (ha (Nat.zero_le m)) (ha (Nat.le_succ m))]

/-- One coordinate of a point in the `k`-th interval. -/
noncomputable def cellMap (n : ℕ) (l u : ℝ) (k : ℕ) (v : ℝ) : ℝ := l + (u - l) * (((k : ℝ) + v) / n)

theorem cell_measure (hn : 0 < n) {l u : ℝ} (h : l < u) (k : ℕ) (s : Set ℝ) :
    unifLaw (cellMap n l u k ⁻¹' s) =
      ENNReal.ofReal (n / (u - l)) * volume (s ∩ Set.Ico (l + (u - l) * ((k : ℝ) / n)) (l + (u - l) * (((k + 1 : ℕ) : ℝ) / n))) := by
  have hn' : (0 : ℝ) < n := by exact_mod_cast hn
  have hw : 0 < u - l := by linarith
  have hc : 0 < (u - l) / n := by positivity
  set b := l + (u - l) * ((k : ℝ) / n) with hb
  have e : cellMap n l u k ⁻¹' s ∩ Set.Ico 0 1 =
      (fun v => (u - l) / n * v) ⁻¹' ((fun y => b + y) ⁻¹' (s ∩ Set.Ico b (l + (u - l) * (((k + 1 : ℕ) : ℝ) / n)))) := by
    ext v
    have e1 : cellMap n l u k v = b + (u - l) / n * v := by rw [hb]; unfold cellMap; field_simp; ring
    have e2 : l + (u - l) * (((k + 1 : ℕ) : ℝ) / n) = b + (u - l) / n := by rw [hb]; push_cast; field_simp; ring
    simp only [Set.mem_inter_iff, Set.mem_preimage, Set.mem_Ico, e1, e2]
    refine and_congr_right fun _ => and_congr ?_ ?_
    · constructor
      · intro hv; nlinarith
      · intro hv
        by_contra hlt
        push Not at hlt
        nlinarith
    · constructor
      · intro hv; nlinarith
      · intro hv
        by_contra hlt
        push Not at hlt
        nlinarith
  unfold unifLaw
  rw [Measure.restrict_apply' measurableSet_Ico, e, Real.volume_preimage_mul_left hc.ne', measure_preimage_add]
  congr 2
  rw [abs_of_pos (inv_pos.mpr hc), inv_div]

/-- A coordinate in a random interval is uniformly distributed. -/
theorem cells_uniform (hn : 0 < n) {l u : ℝ} (h : l < u) (s : Set ℝ) :
    ∑ k : Fin n, unifLaw (cellMap n l u k ⁻¹' s) = ENNReal.ofReal (n / (u - l)) * volume (s ∩ Set.Ico l u) := by
  have hn' : (0 : ℝ) < n := by exact_mod_cast hn
  have hw : 0 < u - l := by linarith
  rw [Finset.sum_congr rfl fun (k : Fin n) _ => cell_measure hn h k.1 s, ← Finset.mul_sum]
  congr 1
  have := sum_cells (fun k => l + (u - l) * ((k : ℝ) / n)) (fun a b hab => by
    have : (a : ℝ) ≤ b := by exact_mod_cast hab
    beta_reduce
    gcongr) s n
  rw [Fin.sum_univ_eq_sum_range (fun k => volume (s ∩ Set.Ico (l + (u - l) * ((k : ℝ) / n)) (l + (u - l) * (((k + 1 : ℕ) : ℝ) / n)))) n,
    this]
  simp only [Nat.cast_zero, zero_div, mul_zero, add_zero]
  rw [div_self hn'.ne']
  congr 3
  ring

/-- The image of one index under a random permutation is uniformly distributed. -/
theorem sum_perm (i : Fin n) (g : Fin n → ℝ≥0∞) :
    (n : ℝ≥0∞) * ∑ τ : Equiv.Perm (Fin n), g (τ i) = (n.factorial : ℝ≥0∞) * ∑ k, g k := by
  have h1 : ∀ i', ∑ τ : Equiv.Perm (Fin n), g (τ i') = ∑ τ : Equiv.Perm (Fin n), g (τ i) := by
    intro i'
    refine Fintype.sum_equiv (Equiv.mulRight (Equiv.swap i' i)) _ _ fun τ => ?_
    simp [Equiv.mulRight]
  calc (n : ℝ≥0∞) * ∑ τ : Equiv.Perm (Fin n), g (τ i) = ∑ _i' : Fin n, ∑ τ : Equiv.Perm (Fin n), g (τ i) := by
        rw [Finset.sum_const, Finset.card_univ, Fintype.card_fin, nsmul_eq_mul]
    _ = ∑ i' : Fin n, ∑ τ : Equiv.Perm (Fin n), g (τ i') := Finset.sum_congr rfl fun i' _ => (h1 i').symm
    _ = ∑ τ : Equiv.Perm (Fin n), ∑ i' : Fin n, g (τ i') := Finset.sum_comm
    _ = ∑ _τ : Equiv.Perm (Fin n), ∑ k, g k := Finset.sum_congr rfl fun τ _ => Equiv.sum_comp τ g
    _ = (n.factorial : ℝ≥0∞) * ∑ k, g k := by
        rw [Finset.sum_const, Finset.card_univ, Fintype.card_perm, Fintype.card_fin, nsmul_eq_mul]

/-! ## The law of a point -/

/-- The law of a point whose coordinates are taken from different rows: independent coordinates. -/
theorem picked_law (e : Fin d → Fin n) (g : Fin d → ℝ → ℝ) (hg : ∀ j, Measurable (g j)) (s : Fin d → Set ℝ) (hs : ∀ j, MeasurableSet (s j)) :
    (Measure.pi fun _ : Fin n => Measure.pi fun _ : Fin d => unifLaw) {u | ∀ j, g j (u (e j) j) ∈ s j} =
      ∏ j, unifLaw (g j ⁻¹' s j) := by
  have hset : {u : Fin n → Fin d → ℝ | ∀ j, g j (u (e j) j) ∈ s j} =
      Set.univ.pi fun i => Set.univ.pi fun j => if i = e j then g j ⁻¹' s j else Set.univ := by
    ext u
    simp only [Set.mem_setOf_eq, Set.mem_pi, Set.mem_univ, true_implies]
    constructor
    · intro hu i j
      split_ifs with hi
      · subst hi; exact hu j
      · trivial
    · intro hu j
      have := hu (e j) j
      rwa [if_pos rfl] at this
  rw [hset, Measure.pi_pi]
  simp only [Measure.pi_pi]
  rw [Finset.prod_comm]
  refine Finset.prod_congr rfl fun j _ => ?_
  rw [Finset.prod_eq_single (e j)]
  · rw [if_pos rfl]
  · intro i _ hi
    rw [if_neg hi, measure_univ]
  · simp

/-- The law of the `i`-th point, averaged over the permutations: uniform. -/
theorem average_law (lb ub : Pt d) (h : ∀ j, lb j < ub j) (i : Fin n) :
    ∑ σ : Fin d → Equiv.Perm (Fin n),
      (Measure.pi fun _ : Fin n => Measure.pi fun _ : Fin d => unifLaw).map
        (fun u => fun j => cellMap n (lb j) (ub j) (σ j i) (u (σ j i) j)) =
      ((n.factorial : ℝ≥0∞) ^ d * ∏ j, ENNReal.ofReal (ub j - lb j)⁻¹) • volume.restrict (Set.univ.pi fun j => Set.Ico (lb j) (ub j)) := by
  have hn : 0 < n := i.pos
  have hn' : (0 : ℝ) < n := by exact_mod_cast hn
  have hg : ∀ j (k : ℕ), Measurable (cellMap n (lb j) (ub j) k) := by
    intro j k
    unfold cellMap
    fun_prop
  have hc0 : (n.factorial : ℝ≥0∞) ^ d * ∏ j, ENNReal.ofReal (ub j - lb j)⁻¹ ≠ 0 := by
    refine mul_ne_zero (pow_ne_zero _ (by exact_mod_cast n.factorial_ne_zero)) (Finset.prod_ne_zero_iff.mpr fun j _ => ?_)
    rw [Ne, ENNReal.ofReal_eq_zero, not_le]
    exact inv_pos.mpr (by linarith [h j])
  have hct : (n.factorial : ℝ≥0∞) ^ d * ∏ j, ENNReal.ofReal (ub j - lb j)⁻¹ ≠ ⊤ :=
    ENNReal.mul_ne_top (ENNReal.pow_ne_top (ENNReal.natCast_ne_top _)) (ENNReal.prod_ne_top fun j _ => ENNReal.ofReal_ne_top)
  set c := (n.factorial : ℝ≥0∞) ^ d * ∏ j, ENNReal.ofReal (ub j - lb j)⁻¹ with hc
  set ν := ∑ σ : Fin d → Equiv.Perm (Fin n),
      (Measure.pi fun _ : Fin n => Measure.pi fun _ : Fin d => unifLaw).map
        (fun u => fun j => cellMap n (lb j) (ub j) (σ j i) (u (σ j i) j)) with hν
  have key : Measure.pi (fun j => (volume : Measure ℝ).restrict (Set.Ico (lb j) (ub j))) = c⁻¹ • ν := by
    refine Measure.pi_eq fun s hs => ?_
    have h1 : ν (Set.univ.pi s) = c * ∏ j, volume.restrict (Set.Ico (lb j) (ub j)) (s j) := by
      rw [hν, Measure.finset_sum_apply]
      have h2 : ∀ σ : Fin d → Equiv.Perm (Fin n),
          ((Measure.pi fun _ : Fin n => Measure.pi fun _ : Fin d => unifLaw).map
            (fun u => fun j => cellMap n (lb j) (ub j) (σ j i) (u (σ j i) j))) (Set.univ.pi s) =
          ∏ j, unifLaw (cellMap n (lb j) (ub j) (σ j i) ⁻¹' s j) := by
        intro σ
        rw [Measure.map_apply ?_ (MeasurableSet.univ_pi hs)]
        · rw [← picked_law (fun j => σ j i) (fun j => cellMap n (lb j) (ub j) (σ j i)) (fun j => hg j _) s hs]
          congr 1
          ext u
          simp
        · refine measurable_pi_lambda _ fun j => (hg j _).comp ?_
          exact (measurable_pi_apply j).comp (measurable_pi_apply _)
      rw [Finset.sum_congr rfl fun σ _ => h2 σ]
      have h3 := Finset.prod_univ_sum (fun _ : Fin d => (Finset.univ : Finset (Equiv.Perm (Fin n))))
        (fun j τ => unifLaw (cellMap n (lb j) (ub j) (τ i) ⁻¹' s j))
      rw [Fintype.piFinset_univ] at h3
      rw [← h3]
      have h4 : ∀ j, ∑ τ : Equiv.Perm (Fin n), unifLaw (cellMap n (lb j) (ub j) (τ i) ⁻¹' s j) =
          (n.factorial : ℝ≥0∞) * (ENNReal.ofReal (ub j - lb j)⁻¹ * volume.restrict (Set.Ico (lb j) (ub j)) (s j)) := by
        intro j
        have h5 := sum_perm i fun k => unifLaw (cellMap n (lb j) (ub j) k ⁻¹' s j)
        rw [cells_uniform hn (h j), div_eq_mul_inv, ENNReal.ofReal_mul hn'.le, ENNReal.ofReal_natCast] at h5
        rw [Measure.restrict_apply' measurableSet_Ico]
        have hn0 : (n : ℝ≥0∞) ≠ 0 := by exact_mod_cast hn.ne'
        refine (ENNReal.mul_right_inj hn0 (ENNReal.natCast_ne_top n)).mp ?_
        rw [h5]
        ring
      rw [Finset.prod_congr rfl fun j _ => h4 j, Finset.prod_mul_distrib, Finset.prod_mul_distrib, Finset.prod_const,
        Finset.card_univ, Fintype.card_fin, hc, mul_assoc]
    rw [Measure.smul_apply, smul_eq_mul, h1, ← mul_assoc, ENNReal.inv_mul_cancel hc0 hct, one_mul]
  rw [volume_pi, Measure.restrict_pi_pi, key, smul_smul, ENNReal.mul_inv_cancel hc0 hct, one_smul]

/-! ## One iteration -/

theorem lhd_cube (k n d : ℕ) : ∀ᵐ u ∂lhdLaw k n d, ∀ q i j, u q i j ∈ Set.Ico (0 : ℝ) 1 := by
  rw [lhdLaw_eq]
  have hmeas : MeasurableSet (Set.univ.pi fun _ : Fin k => Set.univ.pi fun _ : Fin n => Set.univ.pi fun _ : Fin d => Set.Ico (0 : ℝ) 1) :=
    MeasurableSet.univ_pi fun _ => MeasurableSet.univ_pi fun _ => MeasurableSet.univ_pi fun _ => measurableSet_Ico
  filter_upwards [ae_restrict_mem hmeas] with u hu q i j
  exact hu q trivial i trivial j trivial

theorem lhd_qualifies {k : ℕ} (hd : 1 ≤ d) (hn : d ≤ n) (lb ub : Pt d) (h : ∀ j, lb j < ub j) :
    ∀ᵐ u ∂lhdLaw k n d, ∀ (σ : Fin k → Fin d → Equiv.Perm (Fin n)) q, Qualifies (mapDesign (some (lb, ub)) [] (lhs n d (u q) (σ q))) := by
  filter_upwards [lhd_cube k n d, lhd_ae_rank (k := k) lb ub h hn] with u hu hr σ q
  refine ⟨lhd_distinct hd lb ub h (u q) (hu q) (σ q), (rank_full_iff _).mpr fun w hw => ?_⟩
  refine Matrix.eq_zero_of_mulVec_eq_zero (hr σ q) (funext fun a => ?_)
  simp only [Matrix.mulVec, dotProduct, Matrix.of_apply, Pi.zero_apply]
  rw [← hw (Fin.castLE hn a)]
  exact Finset.sum_congr rfl fun j _ => mul_comm _ _

theorem lhdResult_one (lb ub : Pt d) (u : Fin 1 → Fin n → Fin d → ℝ) (σ : Fin 1 → Fin d → Equiv.Perm (Fin n))
    (hq : Qualifies (mapDesign (some (lb, ub)) [] (lhs n d (u 0) (σ 0)))) :
    lhdResult lb ub u σ = some (mapDesign (some (lb, ub)) [] (lhs n d (u 0) (σ 0))) := by
  unfold lhdResult lhdPoints
  cases hX : expdesDist ((List.ofFn fun q => (u q, σ q)).map fun r => lhs n d r.1 r.2) (some (lb, ub)) [] with
  | none =>
    rw [(C45_select _ _ _).2] at hX
    exact absurd hq (hX _ (by simp))
  | some X =>
    have := ((C45_select _ _ _).1 X hX).1
    simp only [List.ofFn_succ, List.ofFn_zero, List.map_cons, List.map_nil, List.mem_singleton] at this
    rw [this]

/-- Full statement: each point of the design is uniformly distributed in the box, so that the average of any function over the
design is an unbiased estimate of its mean value.  False for two or more iterations (`C138_refuted`).  Proved for one
iteration, all dimensions, all numbers of points not below the dimension, all boxes and all measurable functions. -/
theorem C138_unbiased_partial (hd : 1 ≤ d) (hn : d ≤ n) (lb ub : Pt d) (h : ∀ j, lb j < ub j) (i : Fin n) (f : Pt d → ℝ≥0∞)
    (hf : Measurable f) : lhdExpect (k := 1) (fun u σ => valueAt f i (lhdResult lb ub u σ)) = boxMean lb ub f := by
  have hn0 : 0 < n := i.pos
  -- one iteration
  have e1 : ∀ σ : Fin 1 → Fin d → Equiv.Perm (Fin n), ∫⁻ u, valueAt f i (lhdResult lb ub u σ) ∂lhdLaw 1 n d =
      ∫⁻ x, f x ∂((Measure.pi fun _ : Fin n => Measure.pi fun _ : Fin d => unifLaw).map
        (fun u => fun j => cellMap n (lb j) (ub j) (σ 0 j i) (u (σ 0 j i) j))) := by
    intro σ
    have hm : Measurable (fun (u : Fin n → Fin d → ℝ) => fun j => cellMap n (lb j) (ub j) (σ 0 j i) (u (σ 0 j i) j)) := by
      refine measurable_pi_lambda _ fun j => ?_
      have : Measurable (cellMap n (lb j) (ub j) (σ 0 j i)) := by unfold cellMap; fun_prop
      exact this.comp ((measurable_pi_apply j).comp (measurable_pi_apply _))
    rw [lintegral_map hf hm]
    have hmp : MeasurePreserving (fun u : Fin 1 → Fin n → Fin d → ℝ => u 0) (lhdLaw 1 n d)
        (Measure.pi fun _ : Fin n => Measure.pi fun _ : Fin d => unifLaw) := by
      unfold lhdLaw
      exact measurePreserving_eval (fun _ : Fin 1 => Measure.pi fun _ : Fin n => Measure.pi fun _ : Fin d => unifLaw) 0
    refine Eq.trans ?_ (hmp.lintegral_comp (hf.comp hm))
    refine lintegral_congr_ae ?_
    filter_upwards [lhd_qualifies (k := 1) hd hn lb ub h] with u hu
    rw [lhdResult_one lb ub u σ (hu σ 0)]
    simp only [valueAt, Option.map_some, Option.getD_some, Function.comp_apply]
    congr 1
  unfold lhdExpect
  rw [Finset.sum_congr rfl fun σ _ => e1 σ]
  have e2 : ∑ σ : Fin 1 → Fin d → Equiv.Perm (Fin n), ∫⁻ x, f x ∂((Measure.pi fun _ : Fin n => Measure.pi fun _ : Fin d => unifLaw).map
        (fun u => fun j => cellMap n (lb j) (ub j) (σ 0 j i) (u (σ 0 j i) j))) =
      ∑ σ : Fin d → Equiv.Perm (Fin n), ∫⁻ x, f x ∂((Measure.pi fun _ : Fin n => Measure.pi fun _ : Fin d => unifLaw).map
        (fun u => fun j => cellMap n (lb j) (ub j) (σ j i) (u (σ j i) j))) :=
    Fintype.sum_equiv (Equiv.funUnique (Fin 1) _) _ _ fun σ => rfl
  rw [e2, ← lintegral_finset_sum_measure, average_law lb ub h i, lintegral_smul_measure, smul_eq_mul]
  have e3 : Fintype.card (Fin 1 → Fin d → Equiv.Perm (Fin n)) = n.factorial ^ d := by
    rw [Fintype.card_fun, Fintype.card_fun, Fintype.card_perm, Fintype.card_fin, Fintype.card_fin, Fintype.card_fin, pow_one]
  have e4 : ∫⁻ x in Set.univ.pi fun j => Set.Ico (lb j) (ub j), f x = ∫⁻ x in Set.Icc lb ub, f x := by
    rw [Measure.restrict_congr_set]
    exact Measure.univ_pi_Ico_ae_eq_Icc
  have e5 : volume (Set.Icc lb ub) = ∏ j, ENNReal.ofReal (ub j - lb j) := Real.volume_Icc_pi
  rw [e3, e4, boxMean, e5, ENNReal.div_eq_inv_mul, ENNReal.div_eq_inv_mul, Nat.cast_pow, ← mul_assoc, ← mul_assoc]
  congr 1
  have g0 : (n.factorial : ℝ≥0∞) ^ d ≠ 0 := pow_ne_zero _ (by exact_mod_cast n.factorial_ne_zero)
  have gt : (n.factorial : ℝ≥0∞) ^ d ≠ ⊤ := ENNReal.pow_ne_top (ENNReal.natCast_ne_top _)
  rw [ENNReal.inv_mul_cancel g0 gt, one_mul]
  rw [ENNReal.prod_inv_distrib]
  · exact Finset.prod_congr rfl fun j _ => ENNReal.ofReal_inv_of_pos (by linarith [h j])
  · intro a _ b _ _
    exact Or.inr ENNReal.ofReal_ne_top

/-! ## Any number of iterations -/

/-- The expected value does not change if the draws are transformed by a symmetry. -/
theorem expect_symm {k : ℕ} (T : (Fin k → Fin n → Fin d → ℝ) ≃ᵐ (Fin k → Fin n → Fin d → ℝ))
    (hT : MeasurePreserving T (lhdLaw k n d) (lhdLaw k n d)) (S : (Fin k → Fin d → Equiv.Perm (Fin n)) ≃ (Fin k → Fin d → Equiv.Perm (Fin n)))
    (F : (Fin k → Fin n → Fin d → ℝ) → (Fin k → Fin d → Equiv.Perm (Fin n)) → ℝ≥0∞) :
    lhdExpect F = lhdExpect fun u σ => F (T u) (S σ) := by
  unfold lhdExpect
  congr 1
  rw [← Equiv.sum_comp S]
  refine Finset.sum_congr rfl fun σ _ => ?_
  conv_lhs => rw [← hT.map_eq]
  exact lintegral_map_equiv _ T

theorem score_le_of {D E : Des n d} (π : Equiv.Perm (Fin n)) (h : ∀ i j, eucl (D (π i)) (D (π j)) = eucl (E i) (E j)) :
    score D ≤ score E := by
  unfold score
  refine Finset.le_inf fun p _ => ?_
  refine (Finset.inf_le (Finset.mem_univ (π p.1, π p.2))).trans (le_of_eq ?_)
  simp only [EmbeddingLike.apply_eq_iff_eq, h]

theorem score_congr {D E : Des n d} (π : Equiv.Perm (Fin n)) (h : ∀ i j, eucl (D (π i)) (D (π j)) = eucl (E i) (E j)) :
    score D = score E :=
  le_antisymm (score_le_of π h) (score_le_of π⁻¹ fun i j => by rw [← h]; simp)

/-- The selection commutes with a map that keeps scores and ranks. -/
theorem pick_map (G : Des n d → Des n d) (l : List (Des n d))
    (hG : ∀ c ∈ l, score (G c) = score c ∧ ((Matrix.of (G c)).rank = d ↔ (Matrix.of c).rank = d)) (s : Option (Des n d) × WithTop ℝ) :
    ((l.map G).foldl pickStep (s.1.map G, s.2)).1 = (l.foldl pickStep s).1.map G := by
  induction l generalizing s with
  | nil => rfl
  | cons c l ih =>
    have h1 := hG c (by simp)
    rw [List.map_cons, List.foldl_cons, List.foldl_cons, ← ih (fun c hc => hG c (by simp [hc]))]
    congr 2
    unfold pickStep
    rw [h1.1]
    simp only [h1.2]
    split_ifs <;> rfl

theorem lhdResult_map {lb ub : Pt d} {k : ℕ} (G : Des n d → Des n d) (u u' : Fin k → Fin n → Fin d → ℝ)
    (σ σ' : Fin k → Fin d → Equiv.Perm (Fin n))
    (hG : ∀ q, mapDesign (some (lb, ub)) [] (lhs n d (u' q) (σ' q)) = G (mapDesign (some (lb, ub)) [] (lhs n d (u q) (σ q))))
    (hS : ∀ q, score (G (mapDesign (some (lb, ub)) [] (lhs n d (u q) (σ q)))) = score (mapDesign (some (lb, ub)) [] (lhs n d (u q) (σ q))))
    (hR : ∀ q, (Matrix.of (G (mapDesign (some (lb, ub)) [] (lhs n d (u q) (σ q))))).rank = d ↔
      (Matrix.of (mapDesign (some (lb, ub)) [] (lhs n d (u q) (σ q)))).rank = d) :
    lhdResult lb ub u' σ' = (lhdResult lb ub u σ).map G := by
  unfold lhdResult lhdPoints expdesDist
  have e : ∀ (v : Fin k → Fin n → Fin d → ℝ) (τ : Fin k → Fin d → Equiv.Perm (Fin n)),
      (((List.ofFn fun q => (v q, τ q)).map fun r => lhs n d r.1 r.2).map (mapDesign (some (lb, ub)) [])) =
        List.ofFn fun q => mapDesign (some (lb, ub)) [] (lhs n d (v q) (τ q)) := by
    intro v τ
    simp only [List.map_ofFn]
    rfl
  rw [e, e]
  have e2 : (List.ofFn fun q => mapDesign (some (lb, ub)) [] (lhs n d (u' q) (σ' q))) =
      (List.ofFn fun q => mapDesign (some (lb, ub)) [] (lhs n d (u q) (σ q))).map G := by
    rw [List.map_ofFn]
    congr 1
    funext q
    exact hG q
  rw [e2]
  refine pick_map G _ (fun c hc => ?_) (none, 0)
  obtain ⟨q, rfl⟩ := (List.mem_ofFn' _ _).mp hc
  exact ⟨hS q, hR q⟩

/-- For any number of iterations: the points are exchangeable, that is, the design and the design with its points listed in
another order have the same distribution. -/
theorem C138_exchangeable (lb ub : Pt d) (k : ℕ) (π : Equiv.Perm (Fin n)) (F : Option (Des n d) → ℝ≥0∞) :
    lhdExpect (k := k) (fun u σ => F ((lhdResult lb ub u σ).map fun X i => X (π i))) = lhdExpect (k := k) fun u σ => F (lhdResult lb ub u σ) := by
  rw [expect_symm (MeasurableEquiv.refl _) (MeasurePreserving.id _)
    (Equiv.piCongrRight fun _ => Equiv.piCongrRight fun _ => Equiv.mulRight π) (fun u σ => F (lhdResult lb ub u σ))]
  congr 1
  funext u σ
  congr 1
  symm
  refine lhdResult_map (fun X i => X (π i)) u _ σ _ (fun q => ?_) (fun q => ?_) (fun q => ?_)
  · funext i j
    simp only [lhd_apply]
    rfl
  · exact (score_congr π fun i j => rfl).symm
  · rw [rank_full_iff, rank_full_iff]
    refine forall_congr' fun w => imp_congr_left ?_
    exact ⟨fun hw i => by simpa using hw (π⁻¹ i), fun hw i => hw (π i)⟩

/-- The mirror image of a design in the box. -/
def mirror (lb ub : Pt d) (X : Des n d) : Des n d := fun i j => lb j + ub j - X i j

theorem unif_mirror : MeasurePreserving (fun x : ℝ => 1 - x) unifLaw unifLaw := by
  have h := (Measure.measurePreserving_sub_left (volume : Measure ℝ) 1).restrict_preimage (measurableSet_Ico (a := (0 : ℝ)) (b := 1))
  have e : (fun x : ℝ => 1 - x) ⁻¹' Set.Ico 0 1 = Set.Ioc 0 1 := by
    ext x
    simp only [Set.mem_preimage, Set.mem_Ico, Set.mem_Ioc]
    constructor <;> rintro ⟨a, b⟩ <;> constructor <;> linarith
  rw [e, Measure.restrict_congr_set (Ico_ae_eq_Ioc (a := (0 : ℝ)) (b := 1)).symm] at h
  exact h

/-- The symmetry of the draws that mirrors the design. -/
def flipDraws (k n d : ℕ) : (Fin k → Fin n → Fin d → ℝ) ≃ᵐ (Fin k → Fin n → Fin d → ℝ) where
  toFun u q i j := 1 - u q (Fin.rev i) j
  invFun u q i j := 1 - u q (Fin.rev i) j
  left_inv u := by funext q i j; simp
  right_inv u := by funext q i j; simp
  measurable_toFun := by
    refine measurable_pi_lambda _ fun q => measurable_pi_lambda _ fun i => measurable_pi_lambda _ fun j => ?_
    exact measurable_const.sub ((measurable_pi_apply j).comp ((measurable_pi_apply _).comp (measurable_pi_apply q)))
  measurable_invFun := by
    refine measurable_pi_lambda _ fun q => measurable_pi_lambda _ fun i => measurable_pi_lambda _ fun j => ?_
    exact measurable_const.sub ((measurable_pi_apply j).comp ((measurable_pi_apply _).comp (measurable_pi_apply q)))

theorem flip_preserves (k n d : ℕ) : MeasurePreserving (flipDraws k n d) (lhdLaw k n d) (lhdLaw k n d) := by
  have h0 : MeasurePreserving (fun (v : Fin d → ℝ) j => 1 - v j) (Measure.pi fun _ => unifLaw) (Measure.pi fun _ => unifLaw) :=
    measurePreserving_pi _ _ fun _ => unif_mirror
  have h1 : MeasurePreserving (fun (v : Fin n → Fin d → ℝ) i j => 1 - v (Fin.rev i) j)
      (Measure.pi fun _ => Measure.pi fun _ => unifLaw) (Measure.pi fun _ => Measure.pi fun _ => unifLaw) := by
    have hm : Measurable (fun (v : Fin n → Fin d → ℝ) i j => 1 - v (Fin.rev i) j) := by
      refine measurable_pi_lambda _ fun i => measurable_pi_lambda _ fun j => ?_
      exact measurable_const.sub ((measurable_pi_apply j).comp (measurable_pi_apply _))
    refine ⟨hm, (Measure.pi_eq fun s hs => ?_).symm⟩
    rw [Measure.map_apply hm (MeasurableSet.univ_pi hs)]
    have e : (fun (v : Fin n → Fin d → ℝ) i j => 1 - v (Fin.rev i) j) ⁻¹' Set.univ.pi s =
        Set.univ.pi fun i => (fun (v : Fin d → ℝ) j => 1 - v j) ⁻¹' s (Fin.rev i) := by
      ext v
      simp only [Set.mem_preimage, Set.mem_pi, Set.mem_univ, true_implies]
      exact ⟨fun hv i => by simpa using hv (Fin.rev i), fun hv i => by simpa using hv (Fin.rev i)⟩
    rw [e, Measure.pi_pi]
    rw [Finset.prod_congr rfl fun i _ => h0.measure_preimage (hs _).nullMeasurableSet]
    exact Equiv.prod_comp Fin.revPerm fun i => (Measure.pi fun _ => unifLaw) (s i)
  exact measurePreserving_pi _ _ fun _ => h1

/-- For any number of iterations: the design and its mirror image have the same distribution.  In particular the expected
value of each coordinate is the middle of its range. -/
theorem C138_mirror (hd : 1 ≤ d) (hn : d ≤ n) (lb ub : Pt d) (h : ∀ j, lb j < ub j) (k : ℕ) (F : Option (Des n d) → ℝ≥0∞) :
    lhdExpect (k := k) (fun u σ => F ((lhdResult lb ub u σ).map (mirror lb ub))) = lhdExpect (k := k) fun u σ => F (lhdResult lb ub u σ) := by
  rw [expect_symm (flipDraws k n d) (flip_preserves k n d)
    (Equiv.piCongrRight fun _ => Equiv.piCongrRight fun _ => Equiv.mulLeft Fin.revPerm) (fun u σ => F (lhdResult lb ub u σ))]
  unfold lhdExpect
  congr 1
  refine Finset.sum_congr rfl fun σ _ => lintegral_congr_ae ?_
  have q1 := lhd_qualifies (k := k) hd hn lb ub h
  have q2 := (flip_preserves k n d).quasiMeasurePreserving.ae q1
  filter_upwards [q1, q2] with u hu hu'
  congr 1
  have hG : ∀ q, mapDesign (some (lb, ub)) [] (lhs n d (flipDraws k n d u q) (fun j => Fin.revPerm * σ q j)) =
      mirror lb ub (mapDesign (some (lb, ub)) [] (lhs n d (u q) (σ q))) := by
    intro q
    funext i j
    have hn' : (0 : ℝ) < n := by exact_mod_cast i.pos
    simp only [mirror, lhd_apply, flipDraws, MeasurableEquiv.coe_mk, Equiv.coe_fn_mk, Equiv.Perm.coe_mul, Function.comp_apply,
      Fin.revPerm_apply, Fin.rev_rev]
    have hr : ((Fin.rev ((σ q j) i) : ℕ) : ℝ) = n - 1 - ((σ q j i : ℕ) : ℝ) := by
      rw [Fin.val_rev]
      have := (σ q j i).2
      push_cast [Nat.cast_sub (show (σ q j i : ℕ) + 1 ≤ n by omega)]
      ring
    rw [hr]
    field_simp
    ring
  symm
  refine lhdResult_map (mirror lb ub) u _ σ _ hG (fun q => ?_) (fun q => ?_)
  · refine score_congr 1 fun i j => ?_
    unfold eucl
    congr 1
    refine Finset.sum_congr rfl fun a _ => ?_
    simp only [mirror, Equiv.Perm.coe_one, id]
    ring
  · rw [← hG]
    exact iff_of_true (hu' (fun q j => Fin.revPerm * σ q j) q).2 (hu σ q).2

/-! ## Two or more iterations -/

/-- The distance to the middle of the unit interval. -/
noncomputable def offCentre (x : Pt 1) : ℝ≥0∞ := ENNReal.ofReal |x 0 - 1 / 2|

theorem offCentre_measurable : Measurable offCentre := by
  unfold offCentre
  fun_prop

/-- Half the distance of the two points of a design with the draws `v`. -/
noncomputable def spread (v : Fin 2 → Fin 1 → ℝ) : ℝ := (1 + v 1 0 - v 0 0) / 4

theorem two_points (v : Fin 2 → Fin 1 → ℝ) (hv : ∀ i j, v i j ∈ Set.Ico (0 : ℝ) 1) (τ : Fin 1 → Equiv.Perm (Fin 2)) :
    let X := mapDesign (some ((fun _ => 0 : Pt 1), fun _ => 1)) [] (lhs 2 1 v τ)
    (|X 0 0 - 1 / 2| + |X 1 0 - 1 / 2|) / 2 = spread v ∧ eucl (X 0) (X 1) = 2 * spread v ∧ 0 ≤ spread v := by
  intro X
  have hX : ∀ i, X i 0 = ((τ 0 i : ℕ) + v (τ 0 i) 0) / 2 := by
    intro i
    simp only [X, lhd_apply]
    norm_num
  have hE : eucl (X 0) (X 1) = |X 0 0 - X 1 0| := by
    simp only [eucl, Fin.sum_univ_one, Real.sqrt_sq_eq_abs]
  have a := hv 0 0
  have b := hv 1 0
  have hs : 0 ≤ spread v := by unfold spread; linarith [a.2, b.1]
  rw [hE, hX, hX]
  have hτ : (τ 0 0 = 0 ∧ τ 0 1 = 1) ∨ (τ 0 0 = 1 ∧ τ 0 1 = 0) := by
    have hne : τ 0 0 ≠ τ 0 1 := fun he => by simpa using (τ 0).injective he
    generalize τ 0 0 = p at *
    generalize τ 0 1 = q at *
    revert p q
    decide
  refine ⟨?_, ?_, hs⟩
  · rcases hτ with ⟨e1, e2⟩ | ⟨e1, e2⟩ <;> rw [e1, e2] <;> simp only [Fin.val_zero, Fin.val_one, Nat.cast_zero, Nat.cast_one]
    · rw [abs_of_nonpos (by linarith [a.2]), abs_of_nonneg (by linarith [b.1])]
      unfold spread; ring
    · rw [abs_of_nonneg (by linarith [b.1]), abs_of_nonpos (by linarith [a.2])]
      unfold spread; ring
  · rcases hτ with ⟨e1, e2⟩ | ⟨e1, e2⟩ <;> rw [e1, e2] <;> simp only [Fin.val_zero, Fin.val_one, Nat.cast_zero, Nat.cast_one]
    · rw [abs_of_nonpos (by linarith [a.2, b.1])]
      unfold spread; ring
    · rw [abs_of_nonneg (by linarith [a.2, b.1])]
      unfold spread; ring

/-- The average of `offCentre` over the two points of the returned design. -/
noncomputable def meanOff (X : Option (Des 2 1)) : ℝ≥0∞ := (valueAt offCentre 0 X + valueAt offCentre 1 X) / 2

theorem meanOff_some (v : Fin 2 → Fin 1 → ℝ) (hv : ∀ i j, v i j ∈ Set.Ico (0 : ℝ) 1) (τ : Fin 1 → Equiv.Perm (Fin 2)) :
    meanOff (some (mapDesign (some ((fun _ => 0 : Pt 1), fun _ => 1)) [] (lhs 2 1 v τ))) = ENNReal.ofReal (spread v) := by
  rw [← (two_points v hv τ).1, meanOff, ENNReal.ofReal_div_of_pos (by norm_num), ENNReal.ofReal_add (abs_nonneg _) (abs_nonneg _)]
  simp [valueAt, offCentre]

theorem spread_measurable : Measurable fun v : Fin 2 → Fin 1 → ℝ => ENNReal.ofReal (spread v) := by
  unfold spread
  refine ENNReal.measurable_ofReal.comp ?_
  have h : ∀ i : Fin 2, Measurable fun v : Fin 2 → Fin 1 → ℝ => v i 0 := fun i => (measurable_pi_apply 0).comp (measurable_pi_apply i)
  exact ((measurable_const.add (h 1)).sub (h 0)).div_const 4

theorem expect_const {k : ℕ} (F : (Fin k → Fin n → Fin d → ℝ) → (Fin k → Fin d → Equiv.Perm (Fin n)) → ℝ≥0∞) (c : ℝ≥0∞)
    (h : ∀ σ, ∫⁻ u, F u σ ∂lhdLaw k n d = c) : lhdExpect F = c := by
  unfold lhdExpect
  rw [Finset.sum_congr rfl fun σ _ => h σ, Finset.sum_const, Finset.card_univ, nsmul_eq_mul, mul_comm]
  exact ENNReal.mul_div_cancel_right (by exact_mod_cast Fintype.card_ne_zero) (ENNReal.natCast_ne_top _)

theorem expect_mono {k : ℕ} (F : (Fin k → Fin n → Fin d → ℝ) → (Fin k → Fin d → Equiv.Perm (Fin n)) → ℝ≥0∞) (c : ℝ≥0∞)
    (h : ∀ σ, c ≤ ∫⁻ u, F u σ ∂lhdLaw k n d) : c ≤ lhdExpect F := by
  have := expect_const (n := n) (d := d) (k := k) (fun _ _ => c) c (fun σ => by
    haveI : IsProbabilityMeasure (lhdLaw k n d) := by unfold lhdLaw; infer_instance
    rw [lintegral_const, measure_univ, mul_one])
  rw [← this]
  unfold lhdExpect
  refine ENNReal.div_le_div_right (Finset.sum_le_sum fun σ _ => ?_) _
  refine le_trans (le_of_eq ?_) (h σ)
  haveI : IsProbabilityMeasure (lhdLaw k n d) := by unfold lhdLaw; infer_instance
  rw [lintegral_const, measure_univ, mul_one]

theorem unit_lt (j : Fin 1) : (fun _ => 0 : Pt 1) j < (fun _ => 1 : Pt 1) j := zero_lt_one

/-- With one iteration, the expected average is the expected spread. -/
theorem mean_eq_spread : boxMean (fun _ => 0) (fun _ => 1) offCentre =
    ∫⁻ v, ENNReal.ofReal (spread v) ∂(Measure.pi fun _ : Fin 2 => Measure.pi fun _ : Fin 1 => unifLaw) := by
  have h0 := C138_unbiased_partial (n := 2) le_rfl (by norm_num) (fun _ => 0) (fun _ => 1) unit_lt 0 offCentre offCentre_measurable
  have h1 := C138_unbiased_partial (n := 2) le_rfl (by norm_num) (fun _ => 0) (fun _ => 1) unit_lt 1 offCentre offCentre_measurable
  have hmp : MeasurePreserving (fun u : Fin 1 → Fin 2 → Fin 1 → ℝ => u 0) (lhdLaw 1 2 1)
      (Measure.pi fun _ : Fin 2 => Measure.pi fun _ : Fin 1 => unifLaw) := by
    unfold lhdLaw
    exact measurePreserving_eval (fun _ : Fin 1 => Measure.pi fun _ : Fin 2 => Measure.pi fun _ : Fin 1 => unifLaw) 0
  have hq := lhd_qualifies (k := 1) (n := 2) le_rfl (by norm_num) (fun _ => 0) (fun _ => 1) unit_lt
  have hA : lhdExpect (k := 1) (fun u σ => meanOff (lhdResult (fun _ => 0) (fun _ => 1) u σ)) =
      ∫⁻ v, ENNReal.ofReal (spread v) ∂(Measure.pi fun _ : Fin 2 => Measure.pi fun _ : Fin 1 => unifLaw) := by
    refine expect_const _ _ fun σ => ?_
    rw [← hmp.lintegral_comp spread_measurable]
    refine lintegral_congr_ae ?_
    filter_upwards [hq, lhd_cube 1 2 1] with u hu hc
    rw [lhdResult_one _ _ u σ (hu σ 0)]
    exact meanOff_some (u 0) (hc 0) (σ 0)
  have hB : lhdExpect (k := 1) (fun u σ => meanOff (lhdResult (fun _ => 0) (fun _ => 1) u σ)) =
      (lhdExpect (k := 1) (fun u σ => valueAt offCentre 0 (lhdResult (n := 2) (fun _ => 0) (fun _ => 1) u σ)) +
        lhdExpect (k := 1) (fun u σ => valueAt offCentre 1 (lhdResult (n := 2) (fun _ => 0) (fun _ => 1) u σ))) / 2 := by
    unfold lhdExpect
    rw [← ENNReal.add_div, ← Finset.sum_add_distrib, ENNReal.div_right_comm]
    congr 1
    rw [div_eq_mul_inv, Finset.sum_mul]
    refine Finset.sum_congr rfl fun σ _ => ?_
    have hm : AEMeasurable (fun u => valueAt offCentre 0 (lhdResult (n := 2) (fun _ => 0) (fun _ => 1) u σ)) (lhdLaw 1 2 1) := by
      refine ⟨fun u => offCentre (fun j => cellMap 2 0 1 (σ 0 j 0) (u 0 (σ 0 j 0) j)), offCentre_measurable.comp ?_, ?_⟩
      · refine measurable_pi_lambda _ fun j => ?_
        have : Measurable (cellMap 2 0 1 (σ 0 j 0)) := by unfold cellMap; fun_prop
        exact this.comp ((measurable_pi_apply j).comp ((measurable_pi_apply _).comp (measurable_pi_apply 0)))
      · filter_upwards [hq] with u hu
        rw [lhdResult_one _ _ u σ (hu σ 0)]
        simp only [valueAt, Option.map_some, Option.getD_some]
        rfl
    rw [← lintegral_add_left' hm, ← lintegral_mul_const' _ _ (by simp)]
    rfl
  rw [← hA, hB, h0, h1, ← two_mul, mul_comm]
  exact (ENNReal.mul_div_cancel_right (by norm_num) (by norm_num)).symm

/-- With two or more iterations (the default is 1000) the sample is biased: for two points in the unit interval the expected
average distance to the centre is larger than the mean distance. -/
theorem C138_refuted {k : ℕ} (hk : 2 ≤ k) :
    boxMean (fun _ => 0) (fun _ => 1) offCentre < lhdExpect (k := k) (fun u σ => meanOff (lhdResult (fun _ => 0) (fun _ => 1) u σ)) := by
  set q0 : Fin k := ⟨0, by omega⟩ with hq0
  set q1 : Fin k := ⟨1, by omega⟩ with hq1
  -- draws for which the second design is much better than the first
  let S : Fin k → Fin 2 → Set ℝ := fun q i => open Classical in if q = q0 ↔ i = 0 then Set.Ico (3 / 4) 1 else Set.Ico 0 (1 / 4)
  have hS : ∀ q i, MeasurableSet (S q i) := by
    intro q i
    simp only [S]
    split_ifs <;> exact measurableSet_Ico
  let B : Set (Fin k → Fin 2 → Fin 1 → ℝ) := Set.univ.pi fun q => Set.univ.pi fun i => Set.univ.pi fun _ => S q i
  have hB : MeasurableSet B := MeasurableSet.univ_pi fun q => MeasurableSet.univ_pi fun i => MeasurableSet.univ_pi fun _ => hS q i
  have hpos : lhdLaw k 2 1 B ≠ 0 := by
    simp only [B, lhdLaw, Measure.pi_pi]
    refine Finset.prod_ne_zero_iff.mpr fun q _ => Finset.prod_ne_zero_iff.mpr fun i _ => Finset.prod_ne_zero_iff.mpr fun j _ => ?_
    simp only [S, unifLaw]
    split_ifs
    · rw [Measure.restrict_apply measurableSet_Ico, Set.inter_eq_left.mpr (Set.Ico_subset_Ico (by norm_num) le_rfl), Real.volume_Ico]
      norm_num
    · rw [Measure.restrict_apply measurableSet_Ico, Set.inter_eq_left.mpr (Set.Ico_subset_Ico le_rfl (by norm_num)), Real.volume_Ico]
      norm_num
  have hmp : MeasurePreserving (fun u : Fin k → Fin 2 → Fin 1 → ℝ => u q0) (lhdLaw k 2 1)
      (Measure.pi fun _ : Fin 2 => Measure.pi fun _ : Fin 1 => unifLaw) := by
    unfold lhdLaw
    exact measurePreserving_eval (fun _ : Fin k => Measure.pi fun _ : Fin 2 => Measure.pi fun _ : Fin 1 => unifLaw) q0
  have hfin : boxMean (fun _ => 0) (fun _ => 1) offCentre ≠ ⊤ := by
    rw [mean_eq_spread]
    have : ∫⁻ v, ENNReal.ofReal (spread v) ∂(Measure.pi fun _ : Fin 2 => Measure.pi fun _ : Fin 1 => unifLaw) ≤
        ∫⁻ _, 1 ∂(Measure.pi fun _ : Fin 2 => Measure.pi fun _ : Fin 1 => unifLaw) := by
      rw [← hmp.lintegral_comp spread_measurable, ← hmp.lintegral_comp measurable_const]
      refine lintegral_mono_ae ?_
      filter_upwards [lhd_cube k 2 1] with u hu
      have a := hu q0 0 0
      have b := hu q0 1 0
      rw [← ENNReal.ofReal_one]
      refine ENNReal.ofReal_le_ofReal ?_
      unfold spread
      linarith [a.1, b.2]
    refine ne_top_of_le_ne_top ?_ this
    simp
  refine lt_of_lt_of_le (ENNReal.lt_add_right hfin (mul_ne_zero (a := ENNReal.ofReal (1 / 4)) (by norm_num) hpos)) ?_
  refine expect_mono _ _ fun σ => ?_
  rw [mean_eq_spread, ← hmp.lintegral_comp spread_measurable, ← lintegral_indicator_const hB,
    ← lintegral_add_left (f := fun a : Fin k → Fin 2 → Fin 1 → ℝ => ENNReal.ofReal (spread (a q0))) (spread_measurable.comp hmp.measurable)]
  refine lintegral_mono_ae ?_
  filter_upwards [lhd_qualifies (k := k) (n := 2) le_rfl (by norm_num) (fun _ => 0) (fun _ => 1) unit_lt, lhd_cube k 2 1] with u hu hc
  -- the returned design is one with the largest spread
  have hres : ∃ q, lhdResult (fun _ => 0) (fun _ => 1) u σ =
      some (mapDesign (some ((fun _ => 0 : Pt 1), fun _ => 1)) [] (lhs 2 1 (u q) (σ q))) ∧ ∀ p, spread (u p) ≤ spread (u q) := by
    unfold lhdResult lhdPoints
    have hmem : ∀ p, mapDesign (some ((fun _ => 0 : Pt 1), fun _ => 1)) [] (lhs 2 1 (u p) (σ p)) ∈
        (((List.ofFn fun q => (u q, σ q)).map fun r => lhs 2 1 r.1 r.2).map (mapDesign (some ((fun _ => 0 : Pt 1), fun _ => 1)) [])) := by
      intro p
      simp only [List.map_map, List.mem_map, Function.comp_apply]
      exact ⟨_, (List.mem_ofFn' _ _).mpr ⟨p, rfl⟩, rfl⟩
    cases hX : expdesDist ((List.ofFn fun q => (u q, σ q)).map fun r => lhs 2 1 r.1 r.2) (some ((fun _ => 0 : Pt 1), fun _ => 1)) [] with
    | none =>
      rw [(C45_select _ _ _).2] at hX
      exact absurd (hu σ q0) (hX _ (hmem q0))
    | some X =>
      obtain ⟨m1, -, m2⟩ := (C45_select _ _ _).1 X hX
      simp only [List.map_map, List.mem_map, Function.comp_apply] at m1
      obtain ⟨_, hm, rfl⟩ := m1
      obtain ⟨q, rfl⟩ := (List.mem_ofFn' _ _).mp hm
      refine ⟨q, rfl, fun p => ?_⟩
      have h1 := m2 _ (hmem p) (hu σ p).2 (2 * spread (u p)) ?_ 0 1 (by decide)
      · have h2 := (two_points (u q) (hc q) (σ q)).2.1
        dsimp only at h1 h2
        rw [h2] at h1
        linarith
      · have h2 := (two_points (u p) (hc p) (σ p)).2.1
        intro i j hij
        fin_cases i <;> fin_cases j
        · exact absurd rfl hij
        · exact h2.symm.le
        · rw [eucl_comm]; exact h2.symm.le
        · exact absurd rfl hij
  obtain ⟨q, hq, hmax⟩ := hres
  rw [hq, meanOff_some (u q) (hc q) (σ q)]
  by_cases huB : u ∈ B
  · rw [Set.indicator_of_mem huB, ← ENNReal.ofReal_add (two_points (u q0) (hc q0) (σ q0)).2.2 (by norm_num)]
    refine ENNReal.ofReal_le_ofReal ?_
    have hB' : ∀ q i, u q i 0 ∈ S q i := fun q i => huB q trivial i trivial 0 trivial
    have hne : q1 ≠ q0 := by simp [hq0, hq1]
    have a0 := hB' q0 0
    have a1 := hB' q0 1
    have b0 := hB' q1 0
    have b1 := hB' q1 1
    simp only [S, hne, false_iff, true_iff, not_true_eq_false, if_false, if_true, one_ne_zero, not_false_eq_true] at a0 a1 b0 b1
    have h1 := hmax q1
    unfold spread at h1 ⊢
    linarith [a0.1, a1.2, b0.2, b1.1]
  · rw [Set.indicator_of_notMem huB, add_zero]
    exact ENNReal.ofReal_le_ofReal (hmax q0)

/-- The hypotheses are met: five points in a rectangle. -/
example (f : Pt 2 → ℝ≥0∞) (hf : Measurable f) : lhdExpect (k := 1) (fun u σ => valueAt f (3 : Fin 5)
    (lhdResult (fun _ => -1) (fun j => if j = 0 then 2 else 7) u σ)) = boxMean (fun _ => -1) (fun j => if j = 0 then 2 else 7) f :=
  C138_unbiased_partial (by norm_num) (by norm_num) _ _ (fun j => by split_ifs <;> norm_num) 3 f hf

example (F : Option (Des 5 2) → ℝ≥0∞) : lhdExpect (k := 1000) (fun u σ => F ((lhdResult (fun _ => 0) (fun _ => 1) u σ).map
    (mirror (fun _ => 0) fun _ => 1))) = lhdExpect (k := 1000) fun u σ => F (lhdResult (fun _ => 0) (fun _ => 1) u σ) :=
  C138_mirror (by norm_num) (by norm_num) _ _ (fun _ => by norm_num) 1000 F

end Verif.Props
