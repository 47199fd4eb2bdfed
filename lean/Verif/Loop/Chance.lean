import Verif.Cand.Candidates
import Mathlib.Probability.Distributions.Gaussian.Real
import Mathlib.Probability.ConditionalProbability
import Mathlib.MeasureTheory.Constructions.Pi

/-!
# The distribution of the candidates

Elsewhere a random draw is an arbitrary number in the range of its distribution.  Here the draws of `candidate_srbf` get their
distribution.
-/

namespace Verif.Loop

open Verif.Num Verif.Utils Verif.Cand MeasureTheory ProbabilityTheory
open scoped ENNReal

variable {d m n : ℕ}

/-- The law of `stats.truncnorm(a, b)`: a standard normal variable under the condition that it lies between `a` and `b`.
(candidate_srbf.py:110-113, candidate_dycors.py:82-86.) -/
noncomputable def truncLaw (a b : ℝ) : Measure ℝ := (gaussianReal 0 1)[|Set.Icc a b]

/-- The joint law of the draws for all candidates and variables: independent. (candidate_srbf.py:108-113.) -/
noncomputable def drawLaw (m : ℕ) (p : OptProb d) (xbest σ : Pt d) : Measure (Fin (m + 1) → Pt d) :=
  Measure.pi fun _ => Measure.pi fun i => truncLaw ((p.lb i - xbest i) / σ i) ((p.ub i - xbest i) / σ i)

/-- The law of `np.random.rand()`: uniform on `[0, 1)`. (candidate_dycors.py:76.) -/
noncomputable def unifLaw : Measure ℝ := volume.restrict (Set.Ico 0 1)

/-- The joint law of the draws of `candidate_dycors`: the uniform ones, which decide which variables are changed, and the
truncated normal ones; all independent. (candidate_dycors.py:76-86.) -/
noncomputable def dycorsLaw (m : ℕ) (p : OptProb d) (xbest σ : Pt d) : Measure ((Fin (m + 1) → Pt d) × (Fin (m + 1) → Pt d)) :=
  (Measure.pi fun _ => Measure.pi fun _ => unifLaw).prod (drawLaw m p xbest σ)

instance : IsProbabilityMeasure unifLaw := ⟨by simp [unifLaw]⟩

theorem unifLaw_Ico {q : ℝ} (h1 : q ≤ 1) : unifLaw (Set.Ico 0 q) = ENNReal.ofReal q := by
  unfold unifLaw
  rw [Measure.restrict_apply measurableSet_Ico, Set.inter_eq_self_of_subset_left (Set.Ico_subset_Ico_right h1), Real.volume_Ico, sub_zero]

theorem gauss_ge {s : Set ℝ} (hs : MeasurableSet s) {K : ℝ} (hK : ∀ z ∈ s, |z| ≤ K) :
    ENNReal.ofReal (gaussianPDFReal 0 1 K) * volume s ≤ gaussianReal 0 1 s := by
  rw [gaussianReal_apply _ one_ne_zero, ← setLIntegral_const]
  refine setLIntegral_mono' hs fun z hz => ?_
  unfold gaussianPDF
  apply ENNReal.ofReal_le_ofReal
  simp only [gaussianPDFReal]
  refine mul_le_mul_of_nonneg_left (Real.exp_le_exp.mpr ?_) (by positivity)
  have h1 : z ^ 2 ≤ K ^ 2 := sq_le_sq' (by linarith [neg_abs_le z, hK z hz]) ((le_abs_self z).trans (hK z hz))
  simp only [sub_zero, NNReal.coe_one, mul_one]
  linarith

theorem gauss_Icc_ne_zero {a b : ℝ} (h : a < b) : gaussianReal 0 1 (Set.Icc a b) ≠ 0 := by
  have := gauss_ge (s := Set.Icc a b) measurableSet_Icc (K := max |a| |b|) (fun z hz => abs_le_max_abs_abs hz.1 hz.2)
  refine (lt_of_lt_of_le ?_ this).ne'
  rw [Real.volume_Icc]
  exact ENNReal.mul_pos (by simpa using gaussianPDFReal_pos 0 1 _ one_ne_zero) (by simpa using h)

theorem truncLaw_prob {a b : ℝ} (h : a < b) : IsProbabilityMeasure (truncLaw a b) :=
  cond_isProbabilityMeasure (gauss_Icc_ne_zero h)

theorem truncLaw_support {a b : ℝ} (h : a < b) : truncLaw a b (Set.Icc a b) = 1 := by
  unfold truncLaw
  rw [cond_apply measurableSet_Icc, Set.inter_self, ENNReal.inv_mul_cancel (gauss_Icc_ne_zero h) (measure_ne_top _ _)]

theorem truncLaw_ge {a b α β K : ℝ} (h1 : a ≤ α) (h2 : β ≤ b) (hK : ∀ z, a ≤ z → z ≤ b → |z| ≤ K) :
    ENNReal.ofReal (gaussianPDFReal 0 1 K * (β - α)) ≤ truncLaw a b (Set.Icc α β) := by
  have hsub : Set.Icc α β ⊆ Set.Icc a b := Set.Icc_subset_Icc h1 h2
  have h := gauss_ge (s := Set.Icc α β) measurableSet_Icc (K := K) (fun z hz => hK z (h1.trans hz.1) (hz.2.trans h2))
  rw [Real.volume_Icc, ← ENNReal.ofReal_mul (gaussianPDFReal_nonneg 0 1 K)] at h
  refine h.trans ?_
  unfold truncLaw
  rw [cond_apply measurableSet_Icc, Set.inter_eq_self_of_subset_right hsub]
  have : 1 ≤ (gaussianReal 0 1 (Set.Icc a b))⁻¹ := by
    rw [ENNReal.one_le_inv]; exact prob_le_one
  calc gaussianReal 0 1 (Set.Icc α β) = 1 * gaussianReal 0 1 (Set.Icc α β) := (one_mul _).symm
    _ ≤ _ := mul_le_mul' this le_rfl

/-! ## Upper integrals -/

/-- The upper integral of a function that need not be measurable: the expectation of the smallest measurable functions above
it. -/
noncomputable def upperInt {Ω : Type} [MeasurableSpace Ω] (μ : Measure Ω) (f : Ω → ℝ≥0∞) : ℝ≥0∞ :=
  ⨅ (g : Ω → ℝ≥0∞) (_ : Measurable g) (_ : ∀ ω, f ω ≤ g ω), ∫⁻ ω, g ω ∂μ

theorem upperInt_le {Ω : Type} [MeasurableSpace Ω] {μ : Measure Ω} {f g : Ω → ℝ≥0∞} (hg : Measurable g) (h : ∀ ω, f ω ≤ g ω) :
    upperInt μ f ≤ ∫⁻ ω, g ω ∂μ := iInf_le_of_le g (iInf_le_of_le hg (iInf_le_of_le h le_rfl))

/-- Of a measurable function it is the expectation. -/
theorem upperInt_of_measurable {Ω : Type} [MeasurableSpace Ω] (μ : Measure Ω) {f : Ω → ℝ≥0∞} (hf : Measurable f) :
    upperInt μ f = ∫⁻ ω, f ω ∂μ :=
  le_antisymm (upperInt_le hf fun _ => le_rfl) (le_iInf fun _ => le_iInf fun _ => le_iInf fun h => lintegral_mono h)

/-- Of an indicator function it is the (outer) measure. -/
theorem upperInt_indicator {Ω : Type} [MeasurableSpace Ω] (μ : Measure Ω) (s : Set Ω) :
    upperInt μ (s.indicator 1) = μ s := by
  apply le_antisymm
  · refine (upperInt_le (g := (toMeasurable μ s).indicator 1) (measurable_one.indicator (measurableSet_toMeasurable μ s)) ?_).trans ?_
    · exact fun ω => Set.indicator_le_indicator_of_subset (subset_toMeasurable μ s) (fun _ => zero_le) ω
    · rw [lintegral_indicator_one (measurableSet_toMeasurable μ s), measure_toMeasurable]
  · refine le_iInf fun g => le_iInf fun hg => le_iInf fun h => ?_
    have h1 : s ⊆ {ω | 1 ≤ g ω} := fun ω hω => by have := h ω; rwa [Set.indicator_of_mem hω] at this
    calc μ s ≤ μ {ω | 1 ≤ g ω} := measure_mono h1
      _ = 1 * μ {ω | 1 ≤ g ω} := (one_mul _).symm
      _ ≤ _ := mul_meas_ge_le_lintegral hg 1

/-- Vanishing on `B`, at most `c` on the support: at most `c (1 - μ B)`. -/
theorem upperInt_bound {Ω : Type} [MeasurableSpace Ω] {μ : Measure Ω} [IsProbabilityMeasure μ] {f : Ω → ℝ≥0∞} {c κ : ℝ≥0∞}
    {B T : Set Ω} (hB : MeasurableSet B) (hT : MeasurableSet T) (hT1 : μ T = 1) (hκ : κ ≤ μ B)
    (h1 : ∀ ω ∈ B, ω ∈ T → f ω = 0) (h2 : ∀ ω ∈ T, f ω ≤ c) : upperInt μ f ≤ (1 - κ) * c := by
  classical
  let g : Ω → ℝ≥0∞ := fun ω => (Bᶜ).indicator (fun _ => c) ω + (Tᶜ).indicator (fun _ => ⊤) ω
  have hg : Measurable g := (measurable_const.indicator hB.compl).add (measurable_const.indicator hT.compl)
  refine (upperInt_le hg fun ω => ?_).trans ?_
  · by_cases hω : ω ∈ T
    · by_cases hb : ω ∈ B
      · rw [h1 ω hb hω]; exact zero_le
      · have : g ω = c + 0 := by simp only [g, Set.indicator, Set.mem_compl_iff, hb, hω, not_true, not_false_iff, if_true, if_false]
        rw [this, add_zero]; exact h2 ω hω
    · have : g ω = ⊤ := by simp [g, hω]
      rw [this]; exact le_top
  · rw [lintegral_add_left (measurable_const.indicator hB.compl), lintegral_indicator_const hB.compl,
      lintegral_indicator_const hT.compl, (prob_compl_eq_zero_iff hT).mpr hT1, mul_zero, add_zero, mul_comm]
    refine mul_le_mul' ?_ le_rfl
    rw [prob_compl_eq_one_sub hB]
    exact tsub_le_tsub_left hκ 1

end Verif.Loop
