import Verif.Props.Global
import Verif.Props.Random
import Verif.Props.GA
import Verif.Loop.GAPlay

/-! # Properties C125 (uniform candidates), C126 (which variables DYCORS changes), C127 (random search) and C128 (genetic algorithm) -/

namespace Verif.Props

open Verif.Num Verif.Utils Verif.Cand Verif.Spec Verif.Loop MeasureTheory ProbabilityTheory
open scoped ENNReal

variable {d m n : ℕ}

/-- The initial individuals are evaluated. -/
theorem evaluated_initial {α : Type} [LinearOrder α] {h : ℕ} (cfg : GAConfig d) (f : Pt d → α) (pop : Pop d h) (rs : List (Draws d h))
    (k : Fin (popSize h)) : initialRound cfg (pop k) ∈ (optimizeFrom cfg f pop rs).evaluated := by
  unfold optimizeFrom
  have h0 : initialRound cfg (pop k) ∈ (gaInit cfg f pop).evaluated := by
    simp only [gaInit, evaluate, List.nil_append]
    exact (List.mem_ofFn' _ _).mpr ⟨k, rfl⟩
  suffices H : ∀ s : GAState d h α, ∀ x ∈ s.evaluated, x ∈ (rs.foldl (generation cfg f) s).evaluated from H _ _ h0
  intro s x hx
  induction rs generalizing s with
  | nil => exact hx
  | cons r rs ih =>
    refine ih _ ?_
    simp only [generation, evaluate]
    exact List.mem_append_left _ hx

theorem unifLaw_Icc {a b : ℝ} (ha : 0 ≤ a) (hb : b ≤ 1) : unifLaw (Set.Icc a b) = ENNReal.ofReal (b - a) := by
  unfold unifLaw
  rw [Measure.restrict_congr_set Ico_ae_eq_Icc, Measure.restrict_apply measurableSet_Icc,
    Set.inter_eq_self_of_subset_left (Set.Icc_subset_Icc ha hb), Real.volume_Icc]

/-! ## candidate_uniform -/

/-- The joint law of the draws of `candidate_uniform`, as numbers in `[0, 1)`: a candidate is `lb + u (ub - lb)`. -/
noncomputable def unitLaw (m d : ℕ) : Measure (Fin (m + 1) → Pt d) := Measure.pi fun _ => Measure.pi fun _ => unifLaw

/-- `candidate_uniform`: for every feasible point `y` the chance that all selected points are within `ε` of `y` is at least some
`κ > 0` that depends only on the problem, `ε` and the number of candidates. -/
theorem C125_uniform {p : OptProb d} (ok : ProbOk p) (m : ℕ) {ε : ℝ} (hε : 0 < ε) :
    ∃ κ : ℝ≥0∞, 0 < κ ∧ ∀ (y : Pt d), Feasible p y → ∀ (n : ℕ) (X : Fin (n + 1) → Pt d) (fX : Fin (n + 1) → ℝ)
      (pred : Pt d → ℝ) (weights : List ℝ) (Xpend : List (Pt d)) (dtol : ℝ),
      κ ≤ unitLaw m d {u | ∀ x ∈ candidateUniform p pred X fX weights Xpend (List.finRange d) dtol
        (fun j i => p.lb i + u j i * (p.ub i - p.lb i)), ∀ i, |x i - y i| ≤ ε} := by
  set e := min ε (1 / 4) with he
  have he0 : 0 < e := lt_min hε (by norm_num)
  refine ⟨(∏ i, ENNReal.ofReal (min e (p.ub i - p.lb i) / (p.ub i - p.lb i))) ^ (m + 1), ?_, ?_⟩
  · refine pos_iff_ne_zero.mpr (pow_ne_zero _ (Finset.prod_ne_zero_iff.mpr fun i _ => ?_))
    have hw := sub_pos.mpr (ok.lt i)
    rw [ne_eq, ENNReal.ofReal_eq_zero, not_le]
    exact div_pos (lt_min he0 hw) hw
  intro y hy n X fX pred weights Xpend dtol
  let lo : Fin d → ℝ := fun i => (max (p.lb i) (y i - e) - p.lb i) / (p.ub i - p.lb i)
  let hi : Fin d → ℝ := fun i => (min (p.ub i) (y i + e) - p.lb i) / (p.ub i - p.lb i)
  refine le_trans ?_ (measure_mono (s := Set.pi Set.univ fun _ => Set.pi Set.univ fun i => Set.Icc (lo i) (hi i)) ?_)
  · unfold unitLaw
    rw [Measure.pi_pi]
    simp only [Measure.pi_pi, Finset.prod_const, Finset.card_univ, Fintype.card_fin]
    refine pow_le_pow_left' (Finset.prod_le_prod' fun i _ => ?_) _
    have hw := sub_pos.mpr (ok.lt i)
    have hyi := hy.1 i
    rw [unifLaw_Icc (div_nonneg (by linarith [le_max_left (p.lb i) (y i - e)]) hw.le)
      (by rw [div_le_one hw]; linarith [min_le_left (p.ub i) (y i + e)])]
    apply ENNReal.ofReal_le_ofReal
    rw [← sub_div]
    refine div_le_div_of_nonneg_right ?_ hw.le
    rcases le_total (p.ub i) (y i + e) with c1 | c1 <;> rcases le_total (p.lb i) (y i - e) with c2 | c2 <;>
      simp only [min_eq_left, min_eq_right, max_eq_left, max_eq_right, c1, c2]
    · exact (min_le_left _ _).trans (by linarith)
    · exact (min_le_right _ _).trans (by linarith)
    · exact (min_le_left _ _).trans (by linarith)
    · exact (min_le_left _ _).trans (by linarith)
  · intro u hu x hx i
    unfold candidateUniform weightedDistanceMerit at hx
    obtain ⟨j, _, rfl⟩ := List.mem_map.mp hx
    refine (near_round hy (ε := e) ((min_le_right _ _).trans_lt (by norm_num)) i ?_).trans (min_le_left _ _)
    unfold uniformCand
    rw [if_pos (List.mem_finRange i)]
    have hw := sub_pos.mpr (ok.lt i)
    obtain ⟨h1, h2⟩ := hu j trivial i trivial
    simp only [lo, hi] at h1 h2
    rw [div_le_iff₀ hw] at h1
    rw [le_div_iff₀ hw] at h2
    have a1 := le_max_right (p.lb i) (y i - e)
    have a2 := min_le_right (p.ub i) (y i + e)
    rw [abs_le]
    constructor <;> linarith

/-! ## Which variables DYCORS changes -/

/-- The law of the draws that decide which variables of one candidate are changed: one uniform number per variable, and a
uniformly distributed column among the first `dim - 1`. (candidate_dycors.py:76-78.) -/
noncomputable def maskLaw (k : ℕ) : Measure (Pt (k + 2) × Fin (k + 1)) :=
  (Measure.pi fun _ => unifLaw).prod (((k + 1 : ℕ) : ℝ≥0∞)⁻¹ • Measure.count)

instance (k : ℕ) : IsProbabilityMeasure (((k + 1 : ℕ) : ℝ≥0∞)⁻¹ • (Measure.count : Measure (Fin (k + 1)))) :=
  ⟨by rw [Measure.smul_apply, Measure.count_apply MeasurableSet.univ]
      simp only [Set.encard_univ, ENat.card_eq_coe_fintype_card, Fintype.card_fin, smul_eq_mul]
      exact ENNReal.inv_mul_cancel (by simp) (by simp)⟩

instance (k : ℕ) : IsProbabilityMeasure (maskLaw k) := by unfold maskLaw; infer_instance

/-- Is variable `i` of the candidate changed? -/
noncomputable def changed {k : ℕ} (prob : ℝ) (z : Pt (k + 2) × Fin (k + 1)) (i : Fin (k + 2)) : Prop :=
  dycorsMask (k + 2) prob (fun c => if h : c < k + 2 then z.1 ⟨c, h⟩ else 0) z.2 i = true

theorem changed_iff {k : ℕ} (prob : ℝ) (z : Pt (k + 2) × Fin (k + 1)) (i : Fin (k + 2)) :
    changed prob z i ↔ z.1 i < prob ∨ ((∀ c, ¬ z.1 c < prob) ∧ i.1 = z.2.1) := by
  have hall : (∀ c < k + 2, ¬ (fun c => if h : c < k + 2 then z.1 ⟨c, h⟩ else 0) c < prob) ↔ ∀ c, ¬ z.1 c < prob := by
    constructor
    · intro h c
      have := h c c.2
      simpa using this
    · intro h c hc
      simpa [hc] using h ⟨c, hc⟩
  unfold changed dycorsMask
  rw [if_neg (by omega)]
  by_cases h : ∀ c, ¬ z.1 c < prob
  · rw [if_pos (hall.mpr h)]
    simp [h i, h]
  · rw [if_neg (fun h' => h (hall.mp h'))]
    simp only [decide_eq_true_eq, i.2, dite_true]
    exact ⟨.inl, fun h' => h'.resolve_right fun h'' => h h''.1⟩

/-- A candidate is the best point with the `changed` variables replaced: some variable always is. -/
theorem C126_some {k : ℕ} (prob : ℝ) (z : Pt (k + 2) × Fin (k + 1)) : ∃ i, changed prob z i := by
  by_cases h : ∀ c, ¬ z.1 c < prob
  · exact ⟨⟨z.2.1, by omega⟩, (changed_iff _ _ _).mpr (.inr ⟨h, rfl⟩)⟩
  · push Not at h
    obtain ⟨c, hc⟩ := h
    exact ⟨c, (changed_iff _ _ _).mpr (.inl hc)⟩

/-- The candidate is the best point, but for the changed variables. -/
theorem C126_candidate {k : ℕ} (xbest σ y : Pt (k + 2)) (prob : ℝ) (z : Pt (k + 2) × Fin (k + 1)) :
    ∃ x, dycorsCand xbest σ (List.finRange (k + 2))
        (dycorsMask (k + 2) prob (fun c => if h : c < k + 2 then z.1 ⟨c, h⟩ else 0) z.2) y = some x ∧
      ∀ i, (changed prob z i → x i = truncnorm (xbest i) (σ i) (y i)) ∧ (¬ changed prob z i → x i = xbest i) := by
  refine ⟨_, dycorsCand_full xbest σ _ y, fun i => ⟨fun h => if_pos h, fun h => if_neg h⟩⟩

theorem unifLaw_Iio {q : ℝ} (h1 : q ≤ 1) : unifLaw (Set.Iio q) = ENNReal.ofReal q := by
  unfold unifLaw
  rw [Measure.restrict_apply measurableSet_Iio]
  have : Set.Iio q ∩ Set.Ico 0 1 = Set.Ico 0 q := by
    ext x
    simp only [Set.mem_inter_iff, Set.mem_Iio, Set.mem_Ico]
    constructor
    · rintro ⟨a, b, _⟩; exact ⟨b, a⟩
    · rintro ⟨a, b⟩; exact ⟨b, a, b.trans_le h1⟩
  rw [this, Real.volume_Ico, sub_zero]

theorem unifLaw_Ici {q : ℝ} (h0 : 0 ≤ q) : unifLaw (Set.Ici q) = ENNReal.ofReal (1 - q) := by
  unfold unifLaw
  rw [Measure.restrict_apply measurableSet_Ici]
  have : Set.Ici q ∩ Set.Ico 0 1 = Set.Ico q 1 := by
    ext x
    simp only [Set.mem_inter_iff, Set.mem_Ici, Set.mem_Ico]
    constructor
    · rintro ⟨a, _, b⟩; exact ⟨a, b⟩
    · rintro ⟨a, b⟩; exact ⟨a, h0.trans a, b⟩
  rw [this, Real.volume_Ico]

open Classical in
theorem changed_chance {k : ℕ} {prob : ℝ} (h0 : 0 ≤ prob) (h1 : prob ≤ 1) (i : Fin (k + 2)) :
    maskLaw k {z | changed prob z i} =
      ENNReal.ofReal prob + ENNReal.ofReal (1 - prob) ^ (k + 2) * if i.1 < k + 1 then ((k + 1 : ℕ) : ℝ≥0∞)⁻¹ else 0 := by
  have hset : {z : Pt (k + 2) × Fin (k + 1) | changed prob z i} =
      ((Function.eval i ⁻¹' Set.Iio prob) ×ˢ Set.univ) ∪ ((Set.pi Set.univ fun _ => Set.Ici prob) ×ˢ {c | i.1 = c.1}) := by
    ext z
    simp only [Set.mem_setOf_eq, changed_iff, Set.mem_union, Set.mem_prod, Set.mem_preimage, Function.eval, Set.mem_Iio, Set.mem_univ,
      and_true, Set.mem_pi, Set.mem_Ici, true_implies, not_lt]
  have hm1 : MeasurableSet (Function.eval i ⁻¹' Set.Iio prob : Set (Pt (k + 2))) := measurable_pi_apply i measurableSet_Iio
  have hm2 : MeasurableSet (Set.pi Set.univ fun _ => Set.Ici prob : Set (Pt (k + 2))) := MeasurableSet.univ_pi fun _ => measurableSet_Ici
  rw [hset, measure_union ?_ (hm2.prod (Set.toFinite _).measurableSet)]
  · unfold maskLaw
    rw [Measure.prod_prod, Measure.prod_prod, measure_univ, mul_one,
      (measurePreserving_eval (fun _ : Fin (k + 2) => unifLaw) i).measure_preimage measurableSet_Iio.nullMeasurableSet, unifLaw_Iio h1,
      Measure.pi_pi]
    simp only [unifLaw_Ici h0, Finset.prod_const, Finset.card_univ, Fintype.card_fin]
    congr 2
    rw [Measure.smul_apply, smul_eq_mul]
    split_ifs with h
    · have : {c : Fin (k + 1) | i.1 = c.1} = {⟨i.1, h⟩} := by
        ext c
        simp only [Set.mem_setOf_eq, Set.mem_singleton_iff, Fin.ext_iff]
        exact eq_comm
      rw [this, Measure.count_singleton, mul_one]
    · have : {c : Fin (k + 1) | i.1 = c.1} = ∅ := by
        ext c
        simp only [Set.mem_setOf_eq, Set.mem_empty_iff_false, iff_false]
        omega
      rw [this, measure_empty, mul_zero]
  · rw [Set.disjoint_left]
    rintro z ⟨ha, _⟩ ⟨hb, _⟩
    have h3 : prob ≤ z.1 i := hb i trivial
    have h4 : z.1 i < prob := ha
    linarith

/-- Each variable is changed at least with the perturbation probability; all but the last one with probability
`p + (1 - p) ^ dim / (dim - 1)`. -/
theorem C126_chance_partial {k : ℕ} {prob : ℝ} (h0 : 0 ≤ prob) (h1 : prob ≤ 1) (i : Fin (k + 2)) :
    ENNReal.ofReal prob ≤ maskLaw k {z | changed prob z i} ∧
    (i.1 < k + 1 → maskLaw k {z | changed prob z i} = ENNReal.ofReal (prob + (1 - prob) ^ (k + 2) / (k + 1))) := by
  rw [changed_chance h0 h1]
  refine ⟨le_self_add, fun h => ?_⟩
  rw [if_pos h, ENNReal.ofReal_add h0 (by have := sub_nonneg.mpr h1; positivity), div_eq_mul_inv,
    ENNReal.ofReal_mul (pow_nonneg (sub_nonneg.mpr h1) _), ENNReal.ofReal_pow (sub_nonneg.mpr h1),
    ENNReal.ofReal_inv_of_pos (by positivity)]
  congr 3
  rw [show ((k : ℝ) + 1) = ((k + 1 : ℕ) : ℝ) by push_cast; rfl, ENNReal.ofReal_natCast]

/-- Full statement: all variables are changed equally often.  Not so: the last variable is changed with probability `p` only,
less often than the others whenever `p < 1`. -/
theorem C126_last_refuted {k : ℕ} {prob : ℝ} (h0 : 0 ≤ prob) (h1 : prob < 1) (i : Fin (k + 2)) (hi : i.1 < k + 1) :
    maskLaw k {z | changed prob z (Fin.last (k + 1))} = ENNReal.ofReal prob ∧
    maskLaw k {z | changed prob z (Fin.last (k + 1))} < maskLaw k {z | changed prob z i} := by
  have hlast : maskLaw k {z | changed prob z (Fin.last (k + 1))} = ENNReal.ofReal prob := by
    rw [changed_chance h0 h1.le, if_neg (by simp), mul_zero, add_zero]
  refine ⟨hlast, ?_⟩
  rw [hlast, (C126_chance_partial h0 h1.le i).2 hi, ENNReal.ofReal_lt_ofReal_iff_of_nonneg h0]
  have := sub_pos.mpr h1
  have : 0 < (1 - prob) ^ (k + 2) / (k + 1 : ℝ) := by positivity
  linarith

open Classical in
/-- The expected number of changed variables: `dim * p + (1 - p) ^ dim`. -/
theorem C126_expected {k : ℕ} {prob : ℝ} (h0 : 0 ≤ prob) (h1 : prob ≤ 1) :
    ∫⁻ z, ((Finset.univ.filter fun i => changed prob z i).card : ℝ≥0∞) ∂maskLaw k =
      (k + 2 : ℕ) * ENNReal.ofReal prob + ENNReal.ofReal (1 - prob) ^ (k + 2) := by
  have hmeas : ∀ i : Fin (k + 2), MeasurableSet {z : Pt (k + 2) × Fin (k + 1) | changed prob z i} := by
    intro i
    have hset : {z : Pt (k + 2) × Fin (k + 1) | changed prob z i} =
        ((Function.eval i ⁻¹' Set.Iio prob) ×ˢ Set.univ) ∪ ((Set.pi Set.univ fun _ => Set.Ici prob) ×ˢ {c | i.1 = c.1}) := by
      ext z
      simp only [Set.mem_setOf_eq, changed_iff, Set.mem_union, Set.mem_prod, Set.mem_preimage, Function.eval, Set.mem_Iio, Set.mem_univ,
        and_true, Set.mem_pi, Set.mem_Ici, true_implies, not_lt]
    rw [hset]
    exact ((measurable_pi_apply i measurableSet_Iio).prod MeasurableSet.univ).union
      ((MeasurableSet.univ_pi fun _ => measurableSet_Ici).prod (Set.toFinite _).measurableSet)
  have hsum : ∀ z : Pt (k + 2) × Fin (k + 1), ((Finset.univ.filter fun i => changed prob z i).card : ℝ≥0∞) =
      ∑ i, {z | changed prob z i}.indicator 1 z := by
    intro z
    rw [Finset.card_filter]
    push_cast
    refine Finset.sum_congr rfl fun i _ => ?_
    simp only [Set.indicator, Set.mem_setOf_eq, Pi.one_apply]
  simp only [hsum]
  rw [lintegral_finset_sum _ fun i _ => measurable_one.indicator (hmeas i)]
  simp only [lintegral_indicator_one (hmeas _), changed_chance h0 h1]
  rw [Finset.sum_add_distrib, Finset.sum_const, Finset.card_univ, Fintype.card_fin, nsmul_eq_mul, ← Finset.mul_sum]
  congr 1
  rw [Fin.sum_univ_castSucc]
  simp only [Fin.val_castSucc, Fin.is_lt, if_true, Fin.val_last, lt_irrefl, if_false, add_zero, Finset.sum_const, Finset.card_univ,
    Fintype.card_fin, nsmul_eq_mul]
  rw [ENNReal.mul_inv_cancel (by simp) (by simp), mul_one]

/-! ## Random search -/

/-- The joint law of the unit draws of `RandomStrategy` with `n` points: independent and uniform. (random_strategy.py:33-34.) -/
noncomputable def randomLaw (n d : ℕ) : Measure (Fin n → Pt d) := Measure.pi fun _ => Measure.pi fun _ => unifLaw

/-- With `n` evaluations the probability that a run can end without having evaluated a point in the box `[a, b]` is exactly
`(1 - q) ^ n`, where `q` is the fraction of the volume of the domain in the box; whatever the schedule and the failures, even if
they depend on the points. -/
theorem C127_exact {lb ub a b : Pt d} (hlt : ∀ i, lb i < ub i) (ha : ∀ i, lb i ≤ a i) (hab : ∀ i, a i ≤ b i) (hb : ∀ i, b i ≤ ub i)
    (n : ℕ) :
    randomLaw n d {u | ∃ w, Random.Reach n w ∧ w.proposeAction.1 = .terminate ∧
      ∀ k ∈ completedIn w.log, ¬ ∀ i, a i ≤ Random.uniform lb ub (u k) i ∧ Random.uniform lb ub (u k) i ≤ b i} =
    (1 - ENNReal.ofReal (∏ i, (b i - a i) / (ub i - lb i))) ^ n := by
  obtain ⟨w0, hl0, ht0⟩ := C60_can_finish (Random.Reach.init (n := n))
  have hw0 := later_reach (Random.Reach.init (n := n)) hl0
  let B : Set (Pt d) := Set.pi Set.univ fun i => Set.Icc ((a i - lb i) / (ub i - lb i)) ((b i - lb i) / (ub i - lb i))
  have hB : ∀ u : Pt d, u ∈ B ↔ ∀ i, a i ≤ Random.uniform lb ub u i ∧ Random.uniform lb ub u i ≤ b i := by
    intro u
    simp only [B, Set.mem_pi, Set.mem_univ, true_implies, Set.mem_Icc]
    refine forall_congr' fun i => ?_
    have hw := sub_pos.mpr (hlt i)
    rw [div_le_iff₀ hw, le_div_iff₀ hw]
    unfold Random.uniform
    constructor <;> rintro ⟨h1, h2⟩ <;> constructor <;> linarith
  have hset : {u : Fin n → Pt d | ∃ w, Random.Reach n w ∧ w.proposeAction.1 = .terminate ∧
      ∀ k ∈ completedIn w.log, ¬ ∀ i, a i ≤ Random.uniform lb ub (u k) i ∧ Random.uniform lb ub (u k) i ≤ b i} =
      Set.pi Set.univ fun _ => Bᶜ := by
    ext u
    simp only [Set.mem_setOf_eq, Set.mem_pi, Set.mem_univ, true_implies, Set.mem_compl_iff, hB]
    constructor
    · rintro ⟨w, h1, h2, h3⟩ k
      exact h3 k (((C60_terminates_exactly h1).2.1).mp h2 k)
    · intro h
      exact ⟨w0, hw0, ht0, fun k _ => h k⟩
  have hBm : MeasurableSet B := MeasurableSet.univ_pi fun _ => measurableSet_Icc
  rw [hset]
  unfold randomLaw
  rw [Measure.pi_pi]
  simp only [Finset.prod_const, Finset.card_univ, Fintype.card_fin]
  rw [prob_compl_eq_one_sub hBm]
  congr 2
  simp only [B]
  rw [Measure.pi_pi, ENNReal.ofReal_prod_of_nonneg (fun i _ => div_nonneg (sub_nonneg.mpr (hab i)) (sub_pos.mpr (hlt i)).le)]
  refine Finset.prod_congr rfl fun i _ => ?_
  have hw := sub_pos.mpr (hlt i)
  rw [unifLaw_Icc (div_nonneg (sub_nonneg.mpr (ha i)) hw.le) (by rw [div_le_one hw]; linarith [hb i]), ← sub_div]
  congr 2
  ring

/-! ## The genetic algorithm with a random initial population -/

/-- The genetic algorithm started with `start="Random"`: the probability that the result is worse than `t` is at most
`P(f(x) > t) ^ N`, where `x` is one random individual and `N` the size of the population -- for every objective (measurable or
not), with integer variables, and whatever happens in the generations, which may depend on the initial population. -/
theorem C128_random {α : Type} [LinearOrder α] {h : ℕ} (cfg : GAConfig d) (f : Pt d → α) (t : α) (rs : Pop d h → List (Draws d h)) :
    randomLaw (popSize h) d {unit | t < (optimize cfg f unit (rs unit)).bestValue} ≤
      ((Measure.pi fun _ => unifLaw) {u | t < f (initialRound cfg fun i => cfg.lb i + u i * (cfg.ub i - cfg.lb i))}) ^ (2 * (h + 1)) := by
  refine (measure_mono (t := Set.pi Set.univ fun _ => {u : Pt d | t < f (initialRound cfg fun i => cfg.lb i + u i * (cfg.ub i - cfg.lb i))}) ?_).trans ?_
  · intro unit hu k _
    have h1 := (C34_elitist cfg f (initialPop cfg unit) (rs unit)).2.2 (initialRound cfg (initialPop cfg unit k)) ?_
    · exact lt_of_lt_of_le hu h1
    · exact evaluated_initial cfg f (initialPop cfg unit) (rs unit) k
  · unfold randomLaw
    rw [Measure.pi_pi]
    simp only [Finset.prod_const, Finset.card_univ, Fintype.card_fin]
    rw [show popSize h = 2 * (h + 1) by unfold popSize; omega]

/-- A lower bound for the chance that a mutated individual is in variable `i` within `ε` of a given point. -/
noncomputable def mutChance (cfg : GAConfig d) (ε : ℝ) (i : Fin d) : ℝ :=
  gaussianPDFReal 0 1 5 * (min ε (cfg.ub i - cfg.lb i) / (0.2 * (cfg.ub i - cfg.lb i)))

theorem crossover_inBox {cfg : GAConfig d} {h : ℕ} {pop : Pop d h} (hp : ∀ k, InBox cfg.lb cfg.ub (pop k))
    (w : Fin (popSize h) → Fin (popSize h)) (r : Draws d h) (hr : r.Valid) (k : Fin (popSize h)) :
    InBox cfg.lb cfg.ub (crossover pop w r k) := by
  intro i
  unfold crossover
  have conv : ∀ a x y l u : ℝ, 0 ≤ a → a < 1 → l ≤ x → x ≤ u → l ≤ y → y ≤ u → l ≤ a * x + (1 - a) * y ∧ a * x + (1 - a) * y ≤ u := by
    intro a x y l u h1 h2 h3 h4 h5 h6
    constructor <;> nlinarith
  have hq := fun q => hp q i
  dsimp only
  split_ifs
  · exact conv _ _ _ _ _ (hr _).1 (hr _).2 (hq _).1 (hq _).2 (hq _).1 (hq _).2
  · exact hq _
  · exact conv _ _ _ _ _ (hr _).1 (hr _).2 (hq _).1 (hq _).2 (hq _).1 (hq _).2
  · exact hq _

/-- The mutations that move an individual `x` close to `y` in variable `i`. -/
def mutTarget (cfg : GAConfig d) (x y : Pt d) (ε : ℝ) (i : Fin d) : Set ℝ :=
  Set.Icc ((max (cfg.lb i) (y i - ε) - x i) / (0.2 * (cfg.ub i - cfg.lb i))) ((min (cfg.ub i) (y i + ε) - x i) / (0.2 * (cfg.ub i - cfg.lb i)))

theorem mutTarget_chance {cfg : GAConfig d} (hlt : ∀ i, cfg.lb i < cfg.ub i) {x y : Pt d} (hx : InBox cfg.lb cfg.ub x)
    (hy : InBox cfg.lb cfg.ub y) {ε : ℝ} (hε : 0 < ε) (i : Fin d) :
    ENNReal.ofReal (mutChance cfg ε i) ≤ gaussianReal 0 1 (mutTarget cfg x y ε i) := by
  have hw := sub_pos.mpr (hlt i)
  have hσ : 0 < 0.2 * (cfg.ub i - cfg.lb i) := by positivity
  have hxi := hx i
  have hyi := hy i
  have a1 := le_max_left (cfg.lb i) (y i - ε)
  have a2 := min_le_left (cfg.ub i) (y i + ε)
  refine le_trans ?_ (gauss_ge (s := mutTarget cfg x y ε i) measurableSet_Icc (K := 5) ?_)
  · unfold mutTarget
    rw [Real.volume_Icc, ← ENNReal.ofReal_mul (gaussianPDFReal_nonneg 0 1 5)]
    apply ENNReal.ofReal_le_ofReal
    unfold mutChance
    refine mul_le_mul_of_nonneg_left ?_ (gaussianPDFReal_nonneg 0 1 _)
    rw [← sub_div]
    refine div_le_div_of_nonneg_right ?_ hσ.le
    rcases le_total (cfg.ub i) (y i + ε) with c1 | c1 <;> rcases le_total (cfg.lb i) (y i - ε) with c2 | c2 <;>
      simp only [min_eq_left, min_eq_right, max_eq_left, max_eq_right, c1, c2]
    · exact (min_le_left _ _).trans (by linarith)
    · exact (min_le_right _ _).trans (by linarith)
    · exact (min_le_left _ _).trans (by linarith)
    · exact (min_le_left _ _).trans (by linarith)
  · rintro z ⟨h1, h2⟩
    rw [div_le_iff₀ hσ] at h1
    rw [le_div_iff₀ hσ] at h2
    have h3 : |z * (0.2 * (cfg.ub i - cfg.lb i))| ≤ cfg.ub i - cfg.lb i := by
      rw [abs_le]; constructor <;> linarith
    rw [abs_mul, abs_of_pos hσ] at h3
    have h4 : (|z| * 0.2) * (cfg.ub i - cfg.lb i) ≤ 1 * (cfg.ub i - cfg.lb i) := by linarith
    have := le_of_mul_le_mul_right h4 hw
    norm_num at this
    linarith

/-- A lower bound for the chance that one given individual is moved close to a given point. -/
noncomputable def genChance (cfg : GAConfig d) (ε : ℝ) : ℝ≥0∞ :=
  ENNReal.ofReal (1 / d) ^ d * ∏ i, ENNReal.ofReal (mutChance cfg ε i)

theorem genChance_pos {cfg : GAConfig d} (hlt : ∀ i, cfg.lb i < cfg.ub i) {ε : ℝ} (hε : 0 < ε) : 0 < genChance cfg ε := by
  refine ENNReal.mul_pos ?_ (Finset.prod_ne_zero_iff.mpr fun i _ => ?_)
  · rcases Nat.eq_zero_or_pos d with rfl | hd
    · simp
    · have : (0 : ℝ) < d := by exact_mod_cast hd
      refine pow_ne_zero _ ?_
      rw [ne_eq, ENNReal.ofReal_eq_zero, not_le]; positivity
  · have hw := sub_pos.mpr (hlt i)
    rw [ne_eq, ENNReal.ofReal_eq_zero, not_le]
    exact mul_pos (gaussianPDFReal_pos 0 1 _ one_ne_zero) (div_pos (lt_min hε hw) (by positivity))

theorem round_near {l : List (Fin d)} {lb ub x y : Pt d} (hy : InBox lb ub y) (hyi : IntegerOn l y) {ε : ℝ} (hε : ε < 1 / 2) (i : Fin d)
    (h : |x i - y i| ≤ ε) : |roundVars x l lb ub i - y i| ≤ ε := by
  rw [roundVars_apply]
  split_ifs with hi
  · obtain ⟨z, hz⟩ := hyi i hi
    have hr : rint (x i) = z := by
      have h1 := abs_sub_rint_le (x i)
      rw [hz] at h
      have h2 : |((rint (x i) : ℤ) : ℝ) - z| < 1 := by
        rw [abs_le] at h h1
        rw [abs_lt]
        constructor <;> linarith
      have h3 : |rint (x i) - z| < 1 := by exact_mod_cast h2
      rw [Int.abs_lt_one_iff] at h3
      omega
    rw [hr, ← hz, clip, max_eq_left (hy i).1, min_eq_left (hy i).2, sub_self, abs_zero]
    exact (abs_nonneg _).trans h
  · exact h

/-- The genetic algorithm searches globally: if all feasible points within `ε` of some feasible point `y` have values of at most
`t`, the probability that after `n` generations the best value is greater than `t` is at most `(1 - κ) ^ n`, with a constant `κ > 0`
that depends only on the box and `ε` -- for every objective, initial population in the box, and whatever the outcomes of the
tournaments and crossovers, which may be chosen by an adversary depending on the outcomes so far. -/
theorem C128_generations {cfg : GAConfig d} (ok : cfg.Ok) (hlt : ∀ i, cfg.lb i < cfg.ub i) {ε : ℝ} (hε : 0 < ε) :
    ∃ κ : ℝ≥0∞, 0 < κ ∧ ∀ (α : Type) [LinearOrder α] (h : ℕ) (f : Pt d → α) (t : α) (y : Pt d), InBox cfg.lb cfg.ub y →
      IntegerOn cfg.intVar y →
      (∀ x, InBox cfg.lb cfg.ub x → IntegerOn cfg.intVar x → (∀ i, |x i - y i| ≤ ε) → f x ≤ t) →
      ∀ (P : GAPlan d h) (n : ℕ) (pop : Pop d h), (∀ k, InBox cfg.lb cfg.ub (pop k)) →
      worseChance cfg f t P n (gaInit cfg f pop) ≤ (1 - κ) ^ n := by
  set e := min ε (1 / 4) with he
  have he0 : 0 < e := lt_min hε (by norm_num)
  refine ⟨genChance cfg e, genChance_pos hlt he0, ?_⟩
  intro α _ h f t y hy hyi hnear P n pop hpop
  have he1 : e < 1 / 2 := (min_le_right _ _).trans_lt (by norm_num)
  have key : ∀ (P : GAPlan d h) (n : ℕ) (s : GAState d h α), GABox cfg s → GAElite f s →
      worseChance cfg f t P n s ≤ (1 - genChance cfg e) ^ n ∧ (s.bestValue ≤ t → worseChance cfg f t P n s = 0) := by
    intro P
    induction P with
    | stop =>
      intro n s _ _
      unfold worseChance
      refine ⟨?_, fun ht => if_neg fun h' => absurd h'.2 (not_lt.mpr ht)⟩
      split_ifs with h0
      · rw [h0.1, pow_zero]
      · exact zero_le
    | gen c cr al hal next ih =>
      intro n s hbox hel
      unfold worseChance
      rcases Nat.eq_zero_or_pos n with rfl | hn
      · simp only [if_true, pow_zero]
        refine ⟨?_, fun ht => if_neg (not_lt.mpr ht)⟩
        split_ifs
        · exact le_rfl
        · exact zero_le
      have hn0 : n ≠ 0 := by omega
      rw [if_neg hn0]
      have hstep : ∀ z : Pop d h × Pop d h, GABox cfg (generation cfg f s (genDraws c cr al z)) ∧
          GAElite f (generation cfg f s (genDraws c cr al z)) := fun z =>
        ⟨generation_box ok f s hel.bestMem hbox, generation_elite cfg f s _ hel⟩
      have hdown : ∀ z : Pop d h × Pop d h, (generation cfg f s (genDraws c cr al z)).bestValue ≤ s.bestValue := by
        intro z
        rw [hel.bestVal]
        refine (hstep z).2.le _ ?_
        exact List.mem_append_left _ hel.bestMem
      constructor
      · have hx := crossover_inBox hbox.popBox (winner s.vals c) (genDraws c cr al (0, 0)) hal (1 : Fin (popSize h))
        set X := crossover s.pop (winner s.vals c) (genDraws c cr al ((0, 0) : Pop d h × Pop d h)) 1 with hX
        let B1 : Set (Pop d h) := Set.pi Set.univ fun k => if k = 1 then Set.pi Set.univ fun _ => Set.Ico 0 (1 / (d : ℝ)) else Set.univ
        let B2 : Set (Pop d h) := Set.pi Set.univ fun k => if k = 1 then Set.pi Set.univ fun i => mutTarget cfg X y e i else Set.univ
        have hB1 : MeasurableSet B1 := by
          refine MeasurableSet.univ_pi fun k => ?_
          split_ifs
          · exact MeasurableSet.univ_pi fun _ => measurableSet_Ico
          · exact MeasurableSet.univ
        have hB2 : MeasurableSet B2 := by
          refine MeasurableSet.univ_pi fun k => ?_
          split_ifs
          · exact MeasurableSet.univ_pi fun _ => measurableSet_Icc
          · exact MeasurableSet.univ
        have hm : genChance cfg e ≤ mutationLaw d h (B1 ×ˢ B2) := by
          unfold mutationLaw genChance
          rw [Measure.prod_prod]
          refine mul_le_mul' ?_ ?_
          · rw [Measure.pi_pi, Finset.prod_eq_single (1 : Fin (popSize h))]
            · rw [if_pos rfl, Measure.pi_pi]
              simp only [Finset.prod_const, Finset.card_univ, Fintype.card_fin]
              rcases Nat.eq_zero_or_pos d with rfl | hd
              · simp
              · have h1 : (1 : ℝ) ≤ d := by exact_mod_cast hd
                rw [unifLaw_Ico (by rw [div_le_one (by linarith)]; exact h1)]
            · intro k _ hk
              rw [if_neg hk, measure_univ]
            · exact fun h' => absurd (Finset.mem_univ _) h'
          · rw [Measure.pi_pi, Finset.prod_eq_single (1 : Fin (popSize h))]
            · rw [if_pos rfl, Measure.pi_pi]
              exact Finset.prod_le_prod' fun i _ => mutTarget_chance hlt hx hy he0 i
            · intro k _ hk
              rw [if_neg hk, measure_univ]
            · exact fun h' => absurd (Finset.mem_univ _) h'
        have hp : IsProbabilityMeasure (mutationLaw d h) := by unfold mutationLaw; infer_instance
        refine (upperInt_bound (hB1.prod hB2) MeasurableSet.univ measure_univ hm (c := (1 - genChance cfg e) ^ (n - 1)) ?_ ?_).trans ?_
        · rintro ⟨z1, z2⟩ ⟨h1, h2⟩ _
          refine (ih _ _ _ (hstep _).1 (hstep _).2).2 ?_
          have g1 : ∀ i, z1 1 i < 1 / (d : ℝ) := fun i => by
            have := h1 1 trivial
            beta_reduce at this
            rw [if_pos rfl] at this
            exact (this i trivial).2
          have g2 : ∀ i, z2 1 i ∈ mutTarget cfg X y e i := fun i => by
            have := h2 1 trivial
            beta_reduce at this
            rw [if_pos rfl] at this
            exact this i trivial
          have g3 : ∀ i, |mutation cfg (crossover s.pop (winner s.vals c) (genDraws c cr al (z1, z2))) (genDraws c cr al (z1, z2)) 1 i - y i| ≤ e := by
            intro i
            have hw := sub_pos.mpr (hlt i)
            have hσ : 0 < 0.2 * (cfg.ub i - cfg.lb i) := by positivity
            obtain ⟨q1, q2⟩ := g2 i
            rw [div_le_iff₀ hσ] at q1
            rw [le_div_iff₀ hσ] at q2
            have a1 := le_max_left (cfg.lb i) (y i - e)
            have a2 := le_max_right (cfg.lb i) (y i - e)
            have a3 := min_le_left (cfg.ub i) (y i + e)
            have a4 := min_le_right (cfg.ub i) (y i + e)
            have hmut : mutation cfg (crossover s.pop (winner s.vals c) (genDraws c cr al (z1, z2))) (genDraws c cr al (z1, z2)) 1 i =
                min (cfg.ub i) (max (cfg.lb i) (X i + z2 1 i * (0.2 * (cfg.ub i - cfg.lb i)) * (if z1 1 i < 1 / (d : ℝ) then 1 else 0))) := rfl
            rw [hmut, if_pos (g1 i), mul_one, max_eq_right (by linarith), min_eq_right (by linarith), abs_le]
            constructor <;> linarith
          have g4 : ((1 : Fin (popSize h)) : Fin (popSize h)) ≠ 0 := by
            intro h'
            have := congrArg Fin.val h'
            simp [popSize] at this
          have hfe := (hstep (z1, z2)).1.feasible
            (roundVars (mutation cfg (crossover s.pop (winner s.vals c) (genDraws c cr al (z1, z2))) (genDraws c cr al (z1, z2)) 1) cfg.intVar cfg.lb cfg.ub)
            (List.mem_append_right _ ((List.mem_ofFn' _ _).mpr ⟨1, if_neg g4⟩))
          refine ((hstep (z1, z2)).2.le _ (List.mem_append_right _ ((List.mem_ofFn' _ _).mpr ⟨1, if_neg g4⟩))).trans
            (hnear _ hfe.1 hfe.2 fun i => ?_)
          exact (round_near hy hyi he1 i (g3 i)).trans (min_le_left _ _)
        · intro z _
          exact (ih z _ _ (hstep z).1 (hstep z).2).1
        · rw [← pow_succ', Nat.sub_add_cancel hn]
      · intro ht
        refine le_antisymm ((upperInt_le (g := fun _ => 0) measurable_const fun z => ?_).trans (by simp)) zero_le
        rw [(ih z _ _ (hstep z).1 (hstep z).2).2 ((hdown z).trans ht)]
  exact (key P n _ (gaInit_box ok f hpop) (gaInit_elite cfg f pop)).1

/-- So the best value reaches every such level with a probability as close to one as wanted, in a number of generations that does
not depend on the objective, the level, the size of the population or its initial positions. -/
theorem C128_limit {cfg : GAConfig d} (ok : cfg.Ok) (hlt : ∀ i, cfg.lb i < cfg.ub i) {ε : ℝ} (hε : 0 < ε) {δ : ℝ≥0∞} (hδ : 0 < δ) :
    ∃ N : ℕ, ∀ (α : Type) [LinearOrder α] (h : ℕ) (f : Pt d → α) (t : α) (y : Pt d), InBox cfg.lb cfg.ub y → IntegerOn cfg.intVar y →
      (∀ x, InBox cfg.lb cfg.ub x → IntegerOn cfg.intVar x → (∀ i, |x i - y i| ≤ ε) → f x ≤ t) →
      ∀ (P : GAPlan d h) (pop : Pop d h), (∀ k, InBox cfg.lb cfg.ub (pop k)) → worseChance cfg f t P N (gaInit cfg f pop) ≤ δ := by
  obtain ⟨κ, hκ, H⟩ := C128_generations ok hlt hε
  have hlt1 : 1 - κ < 1 := ENNReal.sub_lt_self ENNReal.one_ne_top one_ne_zero hκ.ne'
  obtain ⟨N, hN⟩ := ((ENNReal.tendsto_pow_atTop_nhds_zero_iff.mpr hlt1).eventually (gt_mem_nhds hδ)).exists
  exact ⟨N, fun α _ h f t y hy hyi hn P pop hp => (H α h f t y hy hyi hn P N pop hp).trans hN.le⟩

/-- Example: minimising `x 0 + x 1` on `[0, 3]²`, the first variable an integer; the value 1/5 is reached. -/
def gaSquare : GAConfig 2 := { lb := fun _ => 0, ub := fun _ => 3, intVar := [0] }

example (h : ℕ) (P : GAPlan 2 h) : ∃ N, worseChance gaSquare (fun x => x 0 + x 1) (1 / 5 : ℝ) P N
    (gaInit gaSquare (fun x => x 0 + x 1) fun _ _ => 3) ≤ 1 / 100 := by
  have ok : gaSquare.Ok :=
    ⟨fun _ => by norm_num [gaSquare], fun _ _ => ⟨0, by norm_num [gaSquare]⟩, fun _ _ => ⟨3, by norm_num [gaSquare]⟩⟩
  obtain ⟨N, hN⟩ := C128_limit ok (fun _ => by norm_num [gaSquare]) (ε := 1 / 10) (by norm_num) (δ := 1 / 100)
    (ENNReal.div_pos one_ne_zero (by norm_num))
  refine ⟨N, hN ℝ h _ _ (fun _ => 0) (fun _ => ⟨le_rfl, by norm_num [gaSquare]⟩) (fun _ _ => ⟨0, by norm_num⟩) ?_ P _ fun _ _ => ⟨by norm_num [gaSquare], le_rfl⟩⟩
  intro x _ _ hx
  have h0 := abs_le.mp (hx 0)
  have h1 := abs_le.mp (hx 1)
  simp only [sub_zero] at h0 h1
  linarith [h0.2, h1.2]

/-- In the unit interval, half of it is missed by three points with probability 1/8. -/
example : randomLaw 3 1 {u | ∃ w, Random.Reach 3 w ∧ w.proposeAction.1 = .terminate ∧
      ∀ k ∈ completedIn w.log, ¬ ∀ i, (0 : ℝ) ≤ Random.uniform (fun _ => 0) (fun _ => 1) (u k) i ∧
        Random.uniform (fun _ => 0) (fun _ => 1) (u k) i ≤ 1 / 2} = 1 / 8 := by
  have := C127_exact (d := 1) (lb := fun _ => 0) (ub := fun _ => 1) (a := fun _ => 0) (b := fun _ => 1 / 2) (fun _ => by norm_num)
    (fun _ => le_rfl) (fun _ => by norm_num) (fun _ => by norm_num) 3
  rw [this]
  simp only [Finset.univ_unique, Finset.prod_singleton, sub_zero, div_one]
  rw [show (1 : ℝ≥0∞) = ENNReal.ofReal 1 by simp, ← ENNReal.ofReal_sub _ (by norm_num), ← ENNReal.ofReal_pow (by norm_num),
    show (8 : ℝ≥0∞) = ENNReal.ofReal 8 by simp, ← ENNReal.ofReal_div_of_pos (by norm_num)]
  norm_num

/-- With two variables and `p = 1/2` the first one is changed with probability 3/4, the second one with probability 1/2. -/
example : maskLaw 0 {z | changed (1 / 2) z 0} = ENNReal.ofReal (3 / 4) ∧ maskLaw 0 {z | changed (1 / 2) z 1} = ENNReal.ofReal (1 / 2) := by
  refine ⟨?_, (C126_last_refuted (k := 0) (by norm_num) (by norm_num) 0 (by norm_num)).1⟩
  rw [(C126_chance_partial (k := 0) (by norm_num) (by norm_num) 0).2 (by norm_num)]
  norm_num

end Verif.Props
