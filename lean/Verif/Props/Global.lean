import Verif.Loop.Play
import Verif.Props.Budget
import Verif.Props.Renumber
import Verif.Props.Dycors

/-! # Property C125: the search is global -/

namespace Verif.Props

open Verif.Num Verif.Utils Verif.Cand Verif.Design Verif.Strategy Verif.Spec Verif.Loop MeasureTheory ProbabilityTheory
open scoped ENNReal

variable {d m n : ℕ}

/-! ## One call of `candidate_srbf` -/

theorem near_round {p : OptProb d} {x y : Pt d} (hy : Feasible p y) {ε : ℝ} (hε : ε < 1 / 2) (i : Fin d) (h : |x i - y i| ≤ ε) :
    |roundVars x p.intVar p.lb p.ub i - y i| ≤ ε := by
  rw [roundVars_apply]
  split_ifs with hi
  · obtain ⟨z, hz⟩ := hy.2 i hi
    have hr : rint (x i) = z := by
      have h1 := abs_sub_rint_le (x i)
      rw [hz] at h
      have h2 : |((rint (x i) : ℤ) : ℝ) - z| < 1 := by
        rw [abs_le] at h h1
        rw [abs_lt]
        constructor <;> linarith
      have h3 : |rint (x i) - z| < 1 := by exact_mod_cast h2
      rw [Int.abs_lt_one_iff] at h3
      omega
    rw [hr, ← hz, clip, max_eq_left (hy.1 i).1, min_eq_left (hy.1 i).2, sub_self, abs_zero]
    exact (abs_nonneg _).trans h
  · exact h

/-- A lower bound for the chance that a candidate is in variable `i` within `ε` of a given feasible point, for all radii
between `ρ` and `R`. -/
noncomputable def coordChance (p : OptProb d) (ε ρ R : ℝ) (i : Fin d) : ℝ :=
  gaussianPDFReal 0 1 (1 / ρ) * (min ε (p.ub i - p.lb i) / max (R * (p.ub i - p.lb i)) 1)

theorem coordChance_pos {p : OptProb d} (ok : ProbOk p) {ε ρ R : ℝ} (hε : 0 < ε) (i : Fin d) : 0 < coordChance p ε ρ R i :=
  mul_pos (gaussianPDFReal_pos 0 1 _ one_ne_zero) (div_pos (lt_min hε (sub_pos.mpr (ok.lt i))) (lt_max_of_lt_right one_pos))

/-- The draws for which candidate `j` is within `ε` of `y` in variable `i`, before rounding. -/
def target (p : OptProb d) (xbest σ y : Pt d) (ε : ℝ) (i : Fin d) : Set ℝ :=
  Set.Icc ((max (p.lb i) (y i - ε) - xbest i) / σ i) ((min (p.ub i) (y i + ε) - xbest i) / σ i)

theorem target_near {p : OptProb d} {xbest σ y : Pt d} {ε : ℝ} {i : Fin d} (hσ : 0 < σ i) {z : ℝ} (hz : z ∈ target p xbest σ y ε i) :
    |truncnorm (xbest i) (σ i) z - y i| ≤ ε := by
  obtain ⟨h1, h2⟩ := hz
  rw [div_le_iff₀ hσ] at h1
  rw [le_div_iff₀ hσ] at h2
  have a1 := le_max_right (p.lb i) (y i - ε)
  have a2 := min_le_right (p.ub i) (y i + ε)
  unfold truncnorm
  rw [abs_le]
  constructor <;> linarith

theorem target_chance {p : OptProb d} (ok : ProbOk p) {xbest y : Pt d} (hb : InBox p.lb p.ub xbest) (hy : InBox p.lb p.ub y)
    {ε ρ R r : ℝ} (hε : 0 < ε) (hρ : 0 < ρ) (h1 : ρ ≤ r) (h2 : r ≤ R) (i : Fin d) :
    ENNReal.ofReal (coordChance p ε ρ R i) ≤
      truncLaw ((p.lb i - xbest i) / scalefactors p r (List.finRange d) i) ((p.ub i - xbest i) / scalefactors p r (List.finRange d) i)
        (target p xbest (scalefactors p r (List.finRange d)) y ε i) := by
  set σ := scalefactors p r (List.finRange d) i with hσd
  have hr := hρ.trans_le h1
  have hσ : 0 < σ := scale_pos ok hr _ i
  have hw := sub_pos.mpr (ok.lt i)
  have hσl : ρ * (p.ub i - p.lb i) ≤ σ := by
    refine (mul_le_mul_of_nonneg_right h1 hw.le).trans ?_
    rw [hσd]; unfold scalefactors
    split_ifs
    · exact le_max_left _ _
    · exact le_rfl
  have hσu : σ ≤ max (R * (p.ub i - p.lb i)) 1 := by
    have hR := mul_le_mul_of_nonneg_right h2 hw.le
    rw [hσd]; unfold scalefactors
    split_ifs
    · exact max_le_max hR le_rfl
    · exact hR.trans (le_max_left _ _)
  have hyi := hy i
  have hbi := hb i
  refine le_trans ?_ (truncLaw_ge (K := 1 / ρ) (div_le_div_of_nonneg_right (sub_le_sub_right (le_max_left _ _) _) hσ.le)
    (div_le_div_of_nonneg_right (sub_le_sub_right (min_le_left _ _) _) hσ.le) ?_)
  · apply ENNReal.ofReal_le_ofReal
    unfold coordChance
    refine mul_le_mul_of_nonneg_left ?_ (gaussianPDFReal_nonneg 0 1 _)
    rw [← sub_div]
    have hlen : min ε (p.ub i - p.lb i) ≤ min (p.ub i) (y i + ε) - xbest i - (max (p.lb i) (y i - ε) - xbest i) := by
      rcases le_total (p.ub i) (y i + ε) with c1 | c1 <;> rcases le_total (p.lb i) (y i - ε) with c2 | c2 <;>
        simp only [min_eq_left, min_eq_right, max_eq_left, max_eq_right, c1, c2]
      · exact (min_le_left _ _).trans (by linarith)
      · exact (min_le_right _ _).trans (by linarith)
      · exact (min_le_left _ _).trans (by linarith)
      · exact (min_le_left _ _).trans (by linarith)
    exact (div_le_div_of_nonneg_right hlen (hσ.trans_le hσu).le).trans
      (div_le_div_of_nonneg_left ((lt_min hε hw).le.trans hlen) hσ hσu)
  · intro z hz1 hz2
    rw [div_le_iff₀ hσ] at hz1
    rw [le_div_iff₀ hσ] at hz2
    rw [le_div_iff₀ hρ]
    have h3 : |z| * σ ≤ p.ub i - p.lb i := by
      rw [← abs_of_pos hσ, ← abs_mul, abs_le]
      constructor <;> linarith
    have h4 : |z| * (ρ * (p.ub i - p.lb i)) ≤ p.ub i - p.lb i := (mul_le_mul_of_nonneg_left hσl (abs_nonneg z)).trans h3
    have h5 : (|z| * ρ) * (p.ub i - p.lb i) ≤ 1 * (p.ub i - p.lb i) := by linarith
    exact le_of_mul_le_mul_right h5 hw

/-- A lower bound for the chance that all `m + 1` candidates are within `ε` of a given feasible point. -/
noncomputable def stepChance (p : OptProb d) (m : ℕ) (ε ρ R : ℝ) : ℝ≥0∞ :=
  (∏ i, ENNReal.ofReal (coordChance p ε ρ R i)) ^ (m + 1)

theorem stepChance_pos {p : OptProb d} (ok : ProbOk p) (m : ℕ) {ε ρ R : ℝ} (hε : 0 < ε) : 0 < stepChance p m ε ρ R :=
  pos_iff_ne_zero.mpr (pow_ne_zero _ (Finset.prod_ne_zero_iff.mpr fun i _ => by
    rw [ne_eq, ENNReal.ofReal_eq_zero, not_le]; exact coordChance_pos ok hε i))

/-- The draws for which all candidates are close to `y`. -/
def hits (p : OptProb d) (m : ℕ) (xbest σ y : Pt d) (ε : ℝ) : Set (Fin (m + 1) → Pt d) :=
  Set.pi Set.univ fun _ => Set.pi Set.univ fun i => target p xbest σ y ε i

/-- The range of the draws. -/
def ranges (p : OptProb d) (m : ℕ) (xbest σ : Pt d) : Set (Fin (m + 1) → Pt d) :=
  Set.pi Set.univ fun _ => Set.pi Set.univ fun i => Set.Icc ((p.lb i - xbest i) / σ i) ((p.ub i - xbest i) / σ i)

theorem hits_measurable (p : OptProb d) (m : ℕ) (xbest σ y : Pt d) (ε : ℝ) : MeasurableSet (hits p m xbest σ y ε) :=
  MeasurableSet.univ_pi fun _ => MeasurableSet.univ_pi fun _ => measurableSet_Icc

theorem ranges_measurable (p : OptProb d) (m : ℕ) (xbest σ : Pt d) : MeasurableSet (ranges p m xbest σ) :=
  MeasurableSet.univ_pi fun _ => MeasurableSet.univ_pi fun _ => measurableSet_Icc

theorem range_lt {p : OptProb d} (ok : ProbOk p) {xbest σ : Pt d} (hσ : ∀ i, 0 < σ i) (i : Fin d) :
    (p.lb i - xbest i) / σ i < (p.ub i - xbest i) / σ i := div_lt_div_of_pos_right (by linarith [ok.lt i]) (hσ i)

theorem drawLaw_prob {p : OptProb d} (ok : ProbOk p) {xbest σ : Pt d} (hσ : ∀ i, 0 < σ i) (m : ℕ) :
    IsProbabilityMeasure (drawLaw m p xbest σ) := by
  have : ∀ i, IsProbabilityMeasure (truncLaw ((p.lb i - xbest i) / σ i) ((p.ub i - xbest i) / σ i)) :=
    fun i => truncLaw_prob (range_lt ok hσ i)
  unfold drawLaw
  infer_instance

theorem drawLaw_ranges {p : OptProb d} (ok : ProbOk p) {xbest σ : Pt d} (hσ : ∀ i, 0 < σ i) (m : ℕ) :
    drawLaw m p xbest σ (ranges p m xbest σ) = 1 := by
  have : ∀ i, IsProbabilityMeasure (truncLaw ((p.lb i - xbest i) / σ i) ((p.ub i - xbest i) / σ i)) :=
    fun i => truncLaw_prob (range_lt ok hσ i)
  unfold drawLaw ranges
  rw [Measure.pi_pi]
  simp only [Measure.pi_pi, truncLaw_support (range_lt ok hσ _), Finset.prod_const_one]

theorem drawLaw_hits {p : OptProb d} (ok : ProbOk p) {xbest y : Pt d} (hb : InBox p.lb p.ub xbest) (hy : InBox p.lb p.ub y)
    {ε ρ R r : ℝ} (hε : 0 < ε) (hρ : 0 < ρ) (h1 : ρ ≤ r) (h2 : r ≤ R) (m : ℕ) :
    stepChance p m ε ρ R ≤ drawLaw m p xbest (scalefactors p r (List.finRange d))
      (hits p m xbest (scalefactors p r (List.finRange d)) y ε) := by
  have hσ := scale_pos ok (hρ.trans_le h1) (List.finRange d)
  have : ∀ i, IsProbabilityMeasure (truncLaw ((p.lb i - xbest i) / scalefactors p r (List.finRange d) i)
      ((p.ub i - xbest i) / scalefactors p r (List.finRange d) i)) :=
    fun i => truncLaw_prob (range_lt ok hσ i)
  unfold drawLaw hits
  rw [Measure.pi_pi]
  simp only [Measure.pi_pi, Finset.prod_const, Finset.card_univ, Fintype.card_fin]
  exact pow_le_pow_left' (Finset.prod_le_prod' fun i _ => target_chance ok hb hy hε hρ h1 h2 i) _

theorem hits_near {p : OptProb d} {xbest σ y : Pt d} (hσ : ∀ i, 0 < σ i) (hy : Feasible p y) {ε : ℝ} (hε : ε < 1 / 2)
    {z : Fin (m + 1) → Pt d} (hz : z ∈ hits p m xbest σ y ε) (j : Fin (m + 1)) (i : Fin d) :
    |roundVars (srbfCand xbest σ (List.finRange d) (z j)) p.intVar p.lb p.ub i - y i| ≤ ε := by
  refine near_round hy hε i ?_
  unfold srbfCand
  rw [if_pos (List.mem_finRange i)]
  exact target_near (hσ i) (hz j trivial i trivial)

/-- `candidate_srbf`: for every feasible point `y` the chance that all selected points are within `ε` of `y` is at least some
`κ > 0` that depends only on the problem, `ε`, the number of candidates and the range of the sampling radius -- not on `y`, the
evaluated points, the surrogate, the weights or the pending points. -/
theorem C125_step {p : OptProb d} (ok : ProbOk p) (m : ℕ) {ε ρ : ℝ} (R : ℝ) (hε : 0 < ε) (hρ : 0 < ρ) :
    ∃ κ : ℝ≥0∞, 0 < κ ∧ ∀ (y : Pt d), Feasible p y → ∀ (n : ℕ) (X : Fin (n + 1) → Pt d) (fX : Fin (n + 1) → ℝ),
      (∀ k, Feasible p (X k)) → ∀ (r : ℝ), ρ ≤ r → r ≤ R → ∀ (pred : Pt d → ℝ) (weights : List ℝ) (Xpend : List (Pt d)) (dtol : ℝ),
      κ ≤ drawLaw m p (xbestOf X fX) (scalefactors p r (List.finRange d))
        {z | ∀ x ∈ candidateSrbf p pred X fX weights Xpend r (List.finRange d) dtol z, ∀ i, |x i - y i| ≤ ε} := by
  refine ⟨stepChance p m (min ε (1 / 4)) ρ R, stepChance_pos ok m (lt_min hε (by norm_num)), ?_⟩
  intro y hy n X fX hX r h1 h2 pred weights Xpend dtol
  have hb : InBox p.lb p.ub (xbestOf X fX) := (hX (argmin fX)).1
  refine (drawLaw_hits ok hb hy.1 (lt_min hε (by norm_num)) hρ h1 h2 m).trans (measure_mono ?_)
  intro z hz x hx i
  unfold candidateSrbf weightedDistanceMerit at hx
  obtain ⟨j, _, rfl⟩ := List.mem_map.mp hx
  exact (hits_near (scale_pos ok (hρ.trans_le h1) _) hy ((min_le_right _ _).trans_lt (by norm_num)) hz j i).trans (min_le_left _ _)

/-- In particular every feasible point can be the next one, whatever has been evaluated: there are draws in their ranges for
which exactly this point is selected. -/
theorem C125_any {p : OptProb d} (ok : ProbOk p) (m : ℕ) {y : Pt d} (hy : Feasible p y) {r : ℝ} (hr : 0 < r)
    (X : Fin (n + 1) → Pt d) (fX : Fin (n + 1) → ℝ) (pred : Pt d → ℝ) (weights : List ℝ) (Xpend : List (Pt d)) (dtol : ℝ) :
    ∃ z : Fin (m + 1) → Pt d, (∀ j i, DrawOk p (xbestOf X fX) (scalefactors p r (List.finRange d)) i (z j i)) ∧
      ∀ x ∈ candidateSrbf p pred X fX weights Xpend r (List.finRange d) dtol z, x = y := by
  have hσ := scale_pos ok hr (List.finRange d)
  refine ⟨fun _ i => (y i - xbestOf X fX i) / scalefactors p r (List.finRange d) i, fun j i => ?_, fun x hx => ?_⟩
  · exact ⟨div_le_div_of_nonneg_right (by linarith [(hy.1 i).1]) (hσ i).le, div_le_div_of_nonneg_right (by linarith [(hy.1 i).2]) (hσ i).le⟩
  · unfold candidateSrbf weightedDistanceMerit at hx
    obtain ⟨j, _, rfl⟩ := List.mem_map.mp hx
    have : srbfCand (xbestOf X fX) (scalefactors p r (List.finRange d)) (List.finRange d)
        (fun i => (y i - xbestOf X fX i) / scalefactors p r (List.finRange d) i) = y := by
      funext i
      unfold srbfCand truncnorm
      rw [if_pos (List.mem_finRange i), mul_div_cancel₀ _ (hσ i).ne']
      ring
    beta_reduce
    rw [this]
    funext i
    exact roundVars_of_feasible (hy.1 i) (fun hi => hy.2 i hi)

/-! ## One call of `candidate_dycors` -/

/-- The uniform draws for which every variable of every candidate is changed, for probabilities of at least `q`. -/
def allIn (m d : ℕ) (q : ℝ) : Set (Fin (m + 1) → Pt d) :=
  Set.pi Set.univ fun _ => Set.pi Set.univ fun _ => Set.Ico 0 q

theorem allIn_measurable (m d : ℕ) (q : ℝ) : MeasurableSet (allIn m d q) :=
  MeasurableSet.univ_pi fun _ => MeasurableSet.univ_pi fun _ => measurableSet_Ico

theorem allIn_chance (m d : ℕ) {q : ℝ} (h1 : q ≤ 1) :
    (Measure.pi fun _ : Fin (m + 1) => Measure.pi fun _ : Fin d => unifLaw) (allIn m d q) = (ENNReal.ofReal q ^ d) ^ (m + 1) := by
  unfold allIn
  rw [Measure.pi_pi]
  simp only [Measure.pi_pi, unifLaw_Ico h1, Finset.prod_const, Finset.card_univ, Fintype.card_fin]

/-- If all variables are changed, the candidates are those of SRBF around the given point. -/
theorem dycors_all (p : OptProb d) (pred : Pt d → ℝ) (X : Fin (n + 1) → Pt d) (xbest : Pt d) (weights : List ℝ) (prob : ℝ)
    (Xpend : List (Pt d)) (r dtol : ℝ) (u : Fin (m + 1) → ℕ → ℝ) (forced : Fin (m + 1) → ℕ) (z : Fin (m + 1) → Pt d)
    (hu : ∀ j, ∀ i : Fin d, u j i < prob) :
    candidateDycors p pred X weights prob Xpend r (List.finRange d) dtol xbest u forced z =
      some (weightedDistanceMerit pred X Xpend
        (fun j => roundVars (srbfCand xbest (scalefactors p r (List.finRange d)) (List.finRange d) (z j)) p.intVar p.lb p.ub) weights dtol) := by
  unfold candidateDycors
  simp only [dycorsCand_full, Option.isSome_some, implies_true, dite_true, Option.get_some, List.length_finRange]
  congr 2
  funext j
  congr 1
  funext i
  have hmask : dycorsMask d prob (u j) (forced j) i = true := by
    unfold dycorsMask
    have hne : ¬ ∀ c < d, ¬ u j c < prob := fun h => h i i.2 (hu j i)
    split_ifs
    · rfl
    · exact decide_eq_true (hu j i)
  rw [if_pos hmask]
  unfold srbfCand
  rw [if_pos (List.mem_finRange i)]

/-- `candidate_dycors`, around any feasible point (DYCORS: the best one, SOP: a center): full statement as for `candidate_srbf`.
Proved for perturbation probabilities of at least some `q > 0` (the default rule gives at least `1 / dim` if the budget allows
two adaptive evaluations and nothing is lost, C25); for other values see `C125_dycors_refuted`. -/
theorem C125_dycors_partial {p : OptProb d} (ok : ProbOk p) (m : ℕ) {ε ρ q : ℝ} (R : ℝ) (hε : 0 < ε) (hρ : 0 < ρ) (hq : 0 < q) :
    ∃ κ : ℝ≥0∞, 0 < κ ∧ ∀ (y xbest : Pt d), Feasible p y → Feasible p xbest → ∀ (n : ℕ) (X : Fin (n + 1) → Pt d)
      (r : ℝ), ρ ≤ r → r ≤ R → ∀ (prob : ℝ), q ≤ prob →
      ∀ (pred : Pt d → ℝ) (weights : List ℝ) (Xpend : List (Pt d)) (dtol : ℝ) (forced : Fin (m + 1) → ℕ),
      κ ≤ dycorsLaw m p xbest (scalefactors p r (List.finRange d))
        {z | ∃ l, candidateDycors p pred X weights prob Xpend r (List.finRange d) dtol xbest
          (fun j c => if h : c < d then z.1 j ⟨c, h⟩ else 0) forced z.2 = some l ∧ ∀ x ∈ l, ∀ i, |x i - y i| ≤ ε} := by
  have hε' : 0 < min ε (1 / 4) := lt_min hε (by norm_num)
  refine ⟨(ENNReal.ofReal (min q 1) ^ d) ^ (m + 1) * stepChance p m (min ε (1 / 4)) ρ R,
    ENNReal.mul_pos (pow_ne_zero _ (pow_ne_zero _ ?_)) (stepChance_pos ok m hε').ne', ?_⟩
  · rw [ne_eq, ENNReal.ofReal_eq_zero, not_le]; exact lt_min hq one_pos
  intro y xbest hy hb n X r h1 h2 prob hp pred weights Xpend dtol forced
  have hr := hρ.trans_le h1
  have := drawLaw_prob ok (scale_pos ok hr (List.finRange d)) m (xbest := xbest)
  refine le_trans ?_ (measure_mono (s := allIn m d (min q 1) ×ˢ
    hits p m xbest (scalefactors p r (List.finRange d)) y (min ε (1 / 4))) ?_)
  · unfold dycorsLaw
    rw [Measure.prod_prod, allIn_chance m d (min_le_right _ _)]
    exact mul_le_mul' le_rfl (drawLaw_hits ok hb.1 hy.1 hε' hρ h1 h2 m)
  · rintro ⟨u, z⟩ ⟨hu, hz⟩
    refine ⟨_, dycors_all p pred X xbest weights prob Xpend r dtol _ forced z ?_, fun x hx i => ?_⟩
    · intro j i
      simp only [i.2, dite_true]
      exact ((hu j trivial i trivial).2.trans_le (min_le_left _ _)).trans_le hp
    · unfold weightedDistanceMerit at hx
      obtain ⟨j, _, rfl⟩ := List.mem_map.mp hx
      exact (hits_near (scale_pos ok hr _) hy ((min_le_right _ _).trans_lt (by norm_num)) hz j i).trans (min_le_left _ _)

/-! ## Whole runs -/

theorem bestAt_eq {s : State (Pt d)} {k : ℕ} {X : Fin (k + 1) → Pt d} {fX : Fin (k + 1) → ℝ} (h1 : s.curX = List.ofFn X)
    (h2 : s.curFX.map (fun v => ((v : ℚ) : ℝ)) = List.ofFn fX) : bestAt s = xbestOf X fX := by
  unfold bestAt
  rw [h1]
  rw [List.ofFn_succ] at h1 ⊢
  simp only
  generalize hxs : (List.ofFn fun i : Fin k => X i.succ) = xs at h1 ⊢
  obtain rfl : k = xs.length := by rw [← hxs, List.length_ofFn]
  congr 1
  · funext i
    refine Fin.cases ?_ (fun j => ?_) i
    · rfl
    · simp only [Fin.getElem_fin, Fin.val_succ, List.getElem_cons_succ]
      have : xs[j] = (List.ofFn fun i : Fin xs.length => X i.succ)[(j : ℕ)]'(by simp) := by
        congr 1
        exact hxs.symm
      rw [show xs[(j : ℕ)] = xs[j] from rfl, this]
      simp
  · funext i
    have hl : s.curFX.length = xs.length + 1 := by simpa using congrArg List.length h2
    have := congrArg (fun l => l[(i : ℕ)]?) h2
    simp only [List.getElem?_map, List.getElem?_ofFn, i.2, dite_true] at this
    rw [List.getElem?_eq_getElem (by rw [hl]; exact i.2)] at this
    rw [List.getD_eq_getElem _ _ (by rw [hl]; exact i.2)]
    simpa using this

theorem gen_srbf {L : Setup d} (hm : L.method = .srbf) {S : Surr d} {s : State (Pt d)} {n : ℕ} {r : Rnd d}
    {g : Option (List (Pt d))} (h : gen L S s n r = some g) :
    ∃ (k : ℕ) (X : Fin (k + 1) → Pt d) (fX : Fin (k + 1) → ℝ) (z : Srbf) (ws : List ℝ) (pred : Pt d → ℝ), s.curX = List.ofFn X ∧
      s.curFX.map (fun v => ((v : ℚ) : ℝ)) = List.ofFn fX ∧ s.srbf = some z ∧ ws.length = n ∧
      g = some (candidateSrbf L.prob pred X fX ws s.Xpend ((z.radius : ℚ) : ℝ) (List.finRange d) 1e-3 r.draws) := by
  unfold gen at h
  cases hX : s.curX with
  | nil => rw [hX] at h; cases h
  | cons x0 xs =>
    rw [hX] at h
    simp only at h
    split_ifs at h with hc
    have e1 : x0 :: xs = List.ofFn fun i : Fin (xs.length + 1) => (x0 :: xs)[i] := (List.ofFn_getElem (xs := x0 :: xs)).symm
    have e2 : s.curFX.map (fun v => ((v : ℚ) : ℝ)) =
        List.ofFn fun i : Fin (xs.length + 1) => ((s.curFX[i]'(by rw [hc.1]; exact i.2) : ℚ) : ℝ) := by
      apply List.ext_getElem
      · simp [hc.1]
      · intro i h1 h2; simp only [List.getElem_map, List.getElem_ofFn]; rfl
    unfold genWith at h
    rw [hm] at h
    simp only at h
    split at h
    · rename_i sc z pred hsc hz hp
      rw [Option.map_eq_some_iff] at h
      obtain ⟨⟨ws, next⟩, hw, rfl⟩ := h
      exact ⟨xs.length, _, _, z, _, pred, e1, e2, hz, by rw [List.length_map]; exact getWeights_length hw, rfl⟩
    · cases h

theorem gen_dycors {L : Setup d} (hm : L.method = .dycors) {S : Surr d} {s : State (Pt d)} {n : ℕ} {r : Rnd d}
    {g : Option (List (Pt d))} (h : gen L S s n r = some g) :
    ∃ (k : ℕ) (X : Fin (k + 1) → Pt d) (fX : Fin (k + 1) → ℝ) (z : Srbf) (ws : List ℝ) (pred : Pt d → ℝ), s.curX = List.ofFn X ∧
      s.curFX.map (fun v => ((v : ℚ) : ℝ)) = List.ofFn fX ∧ s.srbf = some z ∧ ws.length = n ∧
      (candidateDycors L.prob pred X ws (probOf (State.perturbProb L.cfg d s)) s.Xpend ((z.radius : ℚ) : ℝ) (List.finRange d) 1e-3
        (xbestOf X fX) r.u r.forced r.draws).map some = some g := by
  unfold gen at h
  cases hX : s.curX with
  | nil => rw [hX] at h; cases h
  | cons x0 xs =>
    rw [hX] at h
    simp only at h
    split_ifs at h with hc
    have e1 : x0 :: xs = List.ofFn fun i : Fin (xs.length + 1) => (x0 :: xs)[i] := (List.ofFn_getElem (xs := x0 :: xs)).symm
    have e2 : s.curFX.map (fun v => ((v : ℚ) : ℝ)) =
        List.ofFn fun i : Fin (xs.length + 1) => ((s.curFX[i]'(by rw [hc.1]; exact i.2) : ℚ) : ℝ) := by
      apply List.ext_getElem
      · simp [hc.1]
      · intro i h1 h2; simp only [List.getElem_map, List.getElem_ofFn]; rfl
    unfold genWith at h
    rw [hm] at h
    simp only at h
    split at h
    · rename_i sc z pred hsc hz hp
      rw [Option.bind_eq_some_iff] at h
      obtain ⟨⟨ws, next⟩, hw, h⟩ := h
      exact ⟨xs.length, _, _, z, _, pred, e1, e2, hz, by rw [List.length_map]; exact getWeights_length hw, h⟩
    · cases h

theorem srbf_proposes {L : Setup d} (hb : BatchOk L.cfg) (hsc : L.cfg.srbf ≠ none) {w w' : Sys (Pt d)} (h : Reach L.cfg w)
    (hw : wantsPoints L.cfg w.st) {o : Oracle (Pt d)} (hs : w.step L.cfg (.propose o) = some w') :
    ∃ j < wanted L.cfg, (proposals w'.st.log).getLast? = some (o.pts j) := by
  obtain ⟨h1, h2, h3, h4, h5⟩ := hw
  obtain ⟨sc, hsc⟩ := Option.ne_none_iff_exists'.mp hsc
  obtain ⟨z, hz⟩ : ∃ z, w.st.srbf = some z := by
    have := h.book.srbf
    rw [hsc] at this
    exact Option.isSome_iff_exists.mp (by simpa using this)
  have hpos : 0 < wanted L.cfg := by
    unfold wanted
    rcases hb with hb | hb
    · simp [hb]
    · split_ifs <;> omega
  obtain ⟨k, hk⟩ : ∃ k, wanted L.cfg = k + 1 := ⟨wanted L.cfg - 1, by omega⟩
  have key : ∀ (a : Action (Pt d)) (s' : State (Pt d)), w.st.proposeAction L.cfg o = some (a, s') →
      a = .eval (o.pts k) .adapt := by
    intro a s' ha
    rw [proposeAction_going h1 h2, h3, h4] at ha
    simp only [Bool.false_eq_true, if_false, List.isEmpty_nil, if_true, State.adaptBranch] at ha
    have hgen : ∀ s1 : State (Pt d), ({ w.st with phase := .adaptive } : State (Pt d)).generateEvals L.cfg o (wanted L.cfg) = some s1 →
        s1.afterGenerate L.cfg o = some (a, s') → a = .eval (o.pts k) .adapt := by
      intro s1 hs1 ha
      rcases generateEvals_cases hs1 with ⟨ws, z', rfl, _⟩ | ⟨_, _, hn⟩
      · unfold State.afterGenerate at ha
        rw [if_neg (by simp [h3])] at ha
        unfold State.adaptProposal at ha
        simp only [h4, List.nil_append, hk, List.range_succ, List.map_append, List.map_cons, List.map_nil, popLast_append,
          Option.some.injEq, Prod.mk.injEq] at ha
        exact ha.1.symm
      · rcases hn with hn | hn
        · rw [hsc] at hn; cases hn
        · rw [show ({ w.st with phase := .adaptive } : State (Pt d)).srbf = w.st.srbf from rfl, hz] at hn; cases hn
    unfold wanted at hgen
    split_ifs at ha with c1 c2
    · rw [if_pos c1] at hgen
      split at ha
      · cases ha
      · exact hgen _ (by assumption) ha
    · rw [if_neg c1] at hgen
      split at ha
      · cases ha
      · exact hgen _ (by assumption) ha
    · exact absurd (by simpa using h5.resolve_left c1) c2
  simp only [Sys.step] at hs
  rcases hp : w.st.proposeAction L.cfg o with _ | ⟨a, s'⟩
  · rw [hp] at hs; cases hs
  · have := key a s' hp
    subst this
    rw [hp] at hs
    simp only [Option.some.injEq] at hs
    subst hs
    refine ⟨k, by omega, ?_⟩
    simp only [State.note, Strategy.proposals_append]
    rw [show proposals [Event.proposed (o.pts k) .adapt] = [o.pts k] from rfl, List.getLast?_append]
    rfl

/-- What is needed of the set-up. -/
structure CandRun (L : Setup d) : Prop where
  srbf : L.cfg.srbf ≠ none
  batch : BatchOk L.cfg
  prob : ProbOk L.prob
  extras : ∀ e ∈ L.cfg.extras, Feasible L.prob e.1

/-- The sampling radius in a state in which points are generated. -/
theorem radius_range {L : Setup d} (hL : CandRun L) {w : Sys (Pt d)} (h : LoopReach L w) (hw : wantsPoints L.cfg w.st) :
    ∃ z, w.st.srbf = some z ∧ 1 / 320 ≤ ((z.radius : ℚ) : ℝ) ∧ ((z.radius : ℚ) : ℝ) ≤ 1 / 5 := by
  obtain ⟨sc, hsc⟩ := Option.ne_none_iff_exists'.mp hL.srbf
  obtain ⟨z, k, h1, _, h3, h4⟩ := C21_radius_partial hsc hL.batch h.reach
  have h5 := (h4 hw.2.2.1).2
  refine ⟨z, h1, ?_, ?_⟩
  · have : ((1 / 320 : ℚ) : ℝ) ≤ z.radius := by
      rw [Rat.cast_le]
      refine le_trans ?_ h5.le
      norm_num
    simpa using this
  · have : ((z.radius : ℚ) : ℝ) ≤ ((1 / 5 : ℚ) : ℝ) := by
      rw [Rat.cast_le]
      refine h3.trans ?_
      norm_num
    simpa using this

theorem envStep_reach {L : Setup d} {w w' : Sys (Pt d)} (h : LoopReach L w) (e : Env) (hs : envStep L w e = some w') :
    LoopReach L w' := by
  cases e with
  | accept i => exact .other (.accept i) h (by simp) hs
  | reject i => exact .other (.reject i) h (by simp) hs
  | complete i v => exact .other (.complete i v) h (by simp) hs
  | abort i => exact .other (.abort i) h (by simp) hs
  | update i => exact .other (.update i) h (by simp) hs
  | resume => cases hs; exact .resume h

theorem askStep_reach {L : Setup d} (hm : L.method = .srbf ∨ L.method = .dycors) {S : Surr d} {D : List (Pt d)}
    (hD : DesignOf L.prob L.cfg.numPts D) {w w' : Sys (Pt d)} (h : LoopReach L w) {forced : Fin (m + 1) → ℕ} {z : Outcome m d}
    (hz : wantsPoints L.cfg w.st → z.1 ∈ allIn m d 1 ∧ ∀ y, w.st.srbf = some y →
      z.2 ∈ ranges L.prob m (bestAt w.st) (scalefactors L.prob ((y.radius : ℚ) : ℝ) (List.finRange d)))
    (hs : askStep L S D w forced z = some w') : LoopReach L w' := by
  by_cases hw : wantsPoints L.cfg w.st
  · refine loopStep_reach (L := L) (S := S) (f := fun _ => 0)
      (by rcases hm with hm | hm <;> rw [hm] <;> rintro (⟨_, _, h⟩ | ⟨_, _, _, h⟩) <;> cases h) h
      (.propose (drawsOf L D forced z)) ?_ hs
    intro r hr
    rw [← Ev.propose.inj hr]
    refine ⟨hD, by simp [drawsOf], ?_, fun j c => ?_, ?_⟩
    · intro g hg q i
      rw [(List.mem_replicate.mp hg).2]
      exact ⟨le_rfl, zero_le_one⟩
    · simp only [drawsOf]
      split_ifs with hc
      · exact (hz hw).1 j trivial ⟨c, hc⟩ trivial
      · exact ⟨le_rfl, one_pos⟩
    · intro k X fX y h1 h2 h3 j i
      have := (hz hw).2 y h3 j trivial i trivial
      rw [bestAt_eq h1 h2] at this
      exact this
  · simp only [askStep, answer, if_neg hw, Option.bind_some] at hs
    exact .propose D none h hD (fun hp => absurd hp hw) (fun _ => rfl) hs

/-- If all draws are close to the target, the proposed point is. -/
theorem ask_near {L : Setup d} (hm : L.method = .srbf ∨ L.method = .dycors) (hL : CandRun L) {S : Surr d} {D : List (Pt d)}
    {w w' : Sys (Pt d)} (h : LoopReach L w) (hw : wantsPoints L.cfg w.st) {z0 : Srbf} (hz0 : w.st.srbf = some z0)
    (hr0 : 0 < ((z0.radius : ℚ) : ℝ)) {q ε : ℝ} (hq : L.method = .dycors → q ≤ probOf (State.perturbProb L.cfg d w.st))
    (hε : ε < 1 / 2) {y : Pt d} (hy : Feasible L.prob y) {forced : Fin (m + 1) → ℕ} {z : Outcome m d} (hz1 : z.1 ∈ allIn m d q)
    (hz : z.2 ∈ hits L.prob m (bestAt w.st) (scalefactors L.prob ((z0.radius : ℚ) : ℝ) (List.finRange d)) y ε)
    (hs : askStep L S D w forced z = some w') :
    ∃ x, (proposals w'.st.log).getLast? = some x ∧ ∀ i, |x i - y i| ≤ ε := by
  unfold askStep at hs
  rw [Option.bind_eq_some_iff] at hs
  obtain ⟨g, hg, hs⟩ := hs
  simp only [answer, if_pos hw] at hg
  have key : ∃ (k : ℕ) (X : Fin (k + 1) → Pt d) (fX : Fin (k + 1) → ℝ) (ws : List ℝ) (pred : Pt d → ℝ), w.st.curX = List.ofFn X ∧
      w.st.curFX.map (fun v => ((v : ℚ) : ℝ)) = List.ofFn fX ∧ ws.length = wanted L.cfg ∧
      g = some (candidateSrbf L.prob pred X fX ws w.st.Xpend ((z0.radius : ℚ) : ℝ) (List.finRange d) 1e-3 z.2) := by
    rcases hm with hm | hm
    · obtain ⟨k, X, fX, z1, ws, pred, e1, e2, e3, e4, rfl⟩ := gen_srbf hm hg
      rw [hz0, Option.some.injEq] at e3
      subst e3
      exact ⟨k, X, fX, ws, pred, e1, e2, e4, rfl⟩
    · obtain ⟨k, X, fX, z1, ws, pred, e1, e2, e3, e4, e5⟩ := gen_dycors hm hg
      rw [hz0, Option.some.injEq] at e3
      subst e3
      rw [dycors_all] at e5
      · exact ⟨k, X, fX, ws, pred, e1, e2, e4, (Option.some.inj e5).symm⟩
      · intro j i
        simp only [drawsOf, i.2, dite_true]
        exact (hz1 j trivial i trivial).2.trans_le (hq hm)
  obtain ⟨k, X, fX, ws, pred, e1, e2, e4, rfl⟩ := key
  obtain ⟨j, hj, hlast⟩ := srbf_proposes hL.batch hL.srbf h.reach hw hs
  refine ⟨_, hlast, ?_⟩
  have hlen : j < (candidateSrbf L.prob pred X fX ws w.st.Xpend ((z0.radius : ℚ) : ℝ) (List.finRange d) 1e-3 z.2).length := by
    unfold candidateSrbf weightedDistanceMerit
    rw [List.length_map]
    unfold wdmIdx
    rw [wdmLoop_length]
    omega
  have hmem : (oracleOf L D (some (candidateSrbf L.prob pred X fX ws w.st.Xpend ((z0.radius : ℚ) : ℝ) (List.finRange d) 1e-3 z.2))).pts j ∈
      candidateSrbf L.prob pred X fX ws w.st.Xpend ((z0.radius : ℚ) : ℝ) (List.finRange d) 1e-3 z.2 := by
    unfold oracleOf
    simp only [Option.getD_some]
    rw [List.getD_eq_getElem _ _ hlen]
    exact List.getElem_mem _
  have hmem' := hmem
  unfold candidateSrbf weightedDistanceMerit at hmem'
  obtain ⟨b, _, hb⟩ := List.mem_map.mp hmem'
  intro i
  rw [bestAt_eq e1 e2] at hz
  refine le_trans (le_of_eq ?_) (hits_near (scale_pos hL.prob hr0 _) hy hε hz b i)
  exact congrArg (fun x : Pt d => |x i - y i|) hb.symm

/-- Whole runs, both methods: `good` states are those in which DYCORS uses a perturbation probability of at least `q`. -/
theorem miss_bound {L : Setup d} (hm : L.method = .srbf ∨ L.method = .dycors) (hL : CandRun L) (m : ℕ) {ε q : ℝ} (hε : 0 < ε)
    (hε4 : ε ≤ 1 / 4) (hq0 : 0 < q) (hq1 : q ≤ 1) {good : State (Pt d) → Prop}
    (hgood : L.method = .dycors → ∀ w, LoopReach L w → wantsPoints L.cfg w.st → good w.st → q ≤ probOf (State.perturbProb L.cfg d w.st))
    {y : Pt d} (hy : Feasible L.prob y) (P : Plan L m) (n : ℕ) (w : Sys (Pt d)) (h : LoopReach L w) :
    missChance good (fun x => ∀ i, |x i - y i| ≤ ε) P n w ≤
      (1 - (ENNReal.ofReal q ^ d) ^ (m + 1) * stepChance L.prob m ε (1 / 320) (1 / 5)) ^ n := by
  set κ := (ENNReal.ofReal q ^ d) ^ (m + 1) * stepChance L.prob m ε (1 / 320) (1 / 5) with hκ
  induction P generalizing n w with
  | stop =>
    unfold missChance
    split_ifs with h0
    · rw [h0, pow_zero]
    · exact zero_le
  | env e next ih =>
    unfold missChance
    split_ifs with h0
    · rw [h0, pow_zero]
    · split
      · exact zero_le
      · rename_i w' hs
        exact ih n w' (envStep_reach h e hs)
  | ask S D hD forced next ih =>
    unfold missChance
    split_ifs with h0 hw hg
    · rw [h0, pow_zero]
    · obtain ⟨z0, hz0, hr1, hr2⟩ := radius_range hL h hw
      have hr0 : 0 < ((z0.radius : ℚ) : ℝ) := lt_of_lt_of_le (by norm_num) hr1
      have hσ := scale_pos hL.prob hr0 (List.finRange d)
      have hlaw : candLaw L m w.st = dycorsLaw m L.prob (bestAt w.st) (scalefactors L.prob ((z0.radius : ℚ) : ℝ) (List.finRange d)) := by
        unfold candLaw; rw [hz0]
      rw [hlaw]
      have hpr := drawLaw_prob hL.prob hσ m (xbest := bestAt w.st)
      by_cases hne : w.st.curX = []
      · have hnone : ∀ (b : Fin (m + 1) → ℕ) (z : Outcome m d), askStep L S D w b z = none := by
          intro b z
          simp only [askStep, answer, if_pos hw, gen, hne, Option.bind_none]
        refine (upperInt_le (g := fun _ => 0) measurable_const fun z => ?_).trans ?_
        · rw [hnone _ z]
        · simp
      obtain ⟨n, rfl⟩ : ∃ k, n = k + 1 := ⟨n - 1, by omega⟩
      rw [pow_succ', Nat.add_sub_cancel]
      have hbest : InBox L.prob.lb L.prob.ub (bestAt w.st) := by
        unfold bestAt
        have hf := loop_curX_feasible hL.prob hL.batch hL.extras h
        cases hX : w.st.curX with
        | nil => exact absurd hX hne
        | cons x0 xs =>
          rw [hX] at hf
          exact (hf _ (List.getElem_mem _)).1
      unfold dycorsLaw
      refine upperInt_bound
        ((allIn_measurable m d q).prod
          (hits_measurable L.prob m (bestAt w.st) (scalefactors L.prob ((z0.radius : ℚ) : ℝ) (List.finRange d)) y ε))
        ((allIn_measurable m d 1).prod
          (ranges_measurable L.prob m (bestAt w.st) (scalefactors L.prob ((z0.radius : ℚ) : ℝ) (List.finRange d)))) ?_ ?_ ?_ ?_
      · rw [Measure.prod_prod, drawLaw_ranges hL.prob hσ m, allIn_chance m d le_rfl]
        simp
      · rw [Measure.prod_prod, allIn_chance m d hq1]
        exact mul_le_mul' le_rfl (drawLaw_hits hL.prob hbest hy.1 hε (by norm_num) hr1 hr2 m)
      · intro z hz _
        split
        · rfl
        · rename_i w' hs
          exact if_pos (ask_near hm hL h hw hz0 hr0 (fun hd => hgood hd w h hw hg) (by linarith) hy hz.1 hz.2 hs)
      · intro z hz
        split
        · exact zero_le
        · rename_i w' hs
          split_ifs
          · exact zero_le
          · exact ih z n w' (askStep_reach hm hD h (fun _ => ⟨hz.1, fun y' hy' => by
              rw [hz0, Option.some.injEq] at hy'; subst hy'; exact hz.2⟩) hs)
    · exact zero_le
    · split
      · exact zero_le
      · rename_i w' hs
        exact ih 0 n w' (askStep_reach hm hD h (fun hp => absurd hp hw) hs)

/-- A larger neighbourhood is missed less often. -/
theorem miss_mono {L : Setup d} {good : State (Pt d) → Prop} {near near' : Pt d → Prop} (hn : ∀ x, near x → near' x) (P : Plan L m)
    (n : ℕ) (w : Sys (Pt d)) : missChance good near' P n w ≤ missChance good near P n w := by
  induction P generalizing n w with
  | stop => exact le_rfl
  | env e next ih =>
    unfold missChance
    split_ifs
    · exact le_rfl
    · split
      · exact le_rfl
      · exact ih _ _
  | ask S D hD forced next ih =>
    unfold missChance
    split_ifs
    · exact le_rfl
    · refine le_iInf fun g => le_iInf fun hg => le_iInf fun hle => upperInt_le hg fun z => ?_
      refine le_trans ?_ (hle z)
      beta_reduce
      cases hs : askStep L S D w (forced z) z with
      | none => exact le_rfl
      | some w' =>
        simp only
        by_cases h1 : ∃ x, (proposals w'.st.log).getLast? = some x ∧ near x
        · obtain ⟨x, hx, hx'⟩ := h1
          rw [if_pos ⟨x, hx, hn x hx'⟩]
          exact zero_le
        · rw [if_neg h1]
          split_ifs
          · exact zero_le
          · exact ih _ _ _
    · exact le_rfl
    · split
      · exact le_rfl
      · exact ih _ _ _

/-- SRBF, whole runs with any surrogate, objective values, restarts, failures, crashes and any order of events, all of which an
adversary may choose depending on the outcomes so far: the probability that points are generated `n` times and the proposed
point is never within `ε` of `y` is at most `(1 - κ) ^ n`, with a constant `κ > 0` that depends only on the problem, the number
of candidates and `ε` -- not on the budget, the batch size, the mode, the weights or the experimental design. -/
theorem C125_run {p : OptProb d} (ok : ProbOk p) (m : ℕ) {ε : ℝ} (hε : 0 < ε) :
    ∃ κ : ℝ≥0∞, 0 < κ ∧ ∀ L : Setup d, L.prob = p → L.method = .srbf → CandRun L → ∀ y, Feasible p y →
      ∀ (P : Plan L m) (n : ℕ) (w : Sys (Pt d)), LoopReach L w →
      missChance (fun _ => True) (fun x => ∀ i, |x i - y i| ≤ ε) P n w ≤ (1 - κ) ^ n := by
  have hε' : 0 < min ε (1 / 4) := lt_min hε (by norm_num)
  refine ⟨(ENNReal.ofReal 1 ^ d) ^ (m + 1) * stepChance p m (min ε (1 / 4)) (1 / 320) (1 / 5),
    ENNReal.mul_pos (by simp) (stepChance_pos ok m hε').ne', ?_⟩
  rintro L rfl hm hL y hy P n w h
  exact (miss_mono (fun x hx i => (hx i).trans (min_le_left ε (1 / 4))) P n w).trans
    (miss_bound (.inl hm) hL m hε' (min_le_right _ _) one_pos le_rfl (fun hd => by rw [hm] at hd; cases hd) hy P n w h)

/-- DYCORS: full statement as for SRBF.  Proved, with budgets of at least two adaptive evaluations, for the events of the first
`n` generations before which nothing was rejected, aborted or lost in a crash and no point was in flight twice; see
`C125_dycors_refuted`. -/
theorem C125_dycors_run_partial {p : OptProb d} (ok : ProbOk p) (hd : 1 ≤ d) (m : ℕ) {ε : ℝ} (hε : 0 < ε) :
    ∃ κ : ℝ≥0∞, 0 < κ ∧ ∀ L : Setup d, L.prob = p → L.method = .dycors → CandRun L → (L.cfg.numPts : ℤ) + 2 ≤ L.cfg.maxEvals →
      ∀ y, Feasible p y → ∀ (P : Plan L m) (n : ℕ) (w : Sys (Pt d)), LoopReach L w →
      missChance (fun s => (∀ e ∈ s.log, isLoss e = false) ∧ ∀ l, l <+: s.log → (openPoints l).Nodup)
        (fun x => ∀ i, |x i - y i| ≤ ε) P n w ≤ (1 - κ) ^ n := by
  have hε' : 0 < min ε (1 / 4) := lt_min hε (by norm_num)
  have hd' : (0 : ℝ) < d := by exact_mod_cast hd
  refine ⟨(ENNReal.ofReal (1 / d) ^ d) ^ (m + 1) * stepChance p m (min ε (1 / 4)) (1 / 320) (1 / 5), ?_, ?_⟩
  · refine ENNReal.mul_pos (pow_ne_zero _ (pow_ne_zero _ ?_)) (stepChance_pos ok m hε').ne'
    rw [ne_eq, ENNReal.ofReal_eq_zero, not_le]; positivity
  rintro L rfl hm hL hM y hy P n w h
  refine (miss_mono (fun x hx i => (hx i).trans (min_le_left ε (1 / 4))) P n w).trans
    (miss_bound (.inr hm) hL m hε' (min_le_right _ _) (by positivity)
      (by rw [div_le_one hd']; exact_mod_cast hd) (fun _ w hw hp hg => ?_) hy P n w h)
  obtain ⟨p, h1, h2, _⟩ := C25_reachable_partial hd hM hw.reach hp.2.2.2.1 hg.1 hg.2
  rw [h1]
  exact h2

/-- So the probability of missing a given neighbourhood tends to zero, uniformly: for every `δ > 0` there is a number `N` such
that in every SRBF run in which points are generated `N` times a point within `ε` of `y` is proposed, except with probability at
most `δ`. -/
theorem C125_limit {p : OptProb d} (ok : ProbOk p) (m : ℕ) {ε : ℝ} (hε : 0 < ε) {δ : ℝ≥0∞} (hδ : 0 < δ) :
    ∃ N : ℕ, ∀ L : Setup d, L.prob = p → L.method = .srbf → CandRun L → ∀ y, Feasible p y →
      ∀ (P : Plan L m) (w : Sys (Pt d)), LoopReach L w →
      missChance (fun _ => True) (fun x => ∀ i, |x i - y i| ≤ ε) P N w ≤ δ := by
  obtain ⟨κ, hκ, h⟩ := C125_run ok m hε
  have hlt : 1 - κ < 1 := ENNReal.sub_lt_self ENNReal.one_ne_top one_ne_zero hκ.ne'
  obtain ⟨N, hN⟩ := ((ENNReal.tendsto_pow_atTop_nhds_zero_iff.mpr hlt).eventually (gt_mem_nhds hδ)).exists
  exact ⟨N, fun L hp hm hL y hy P w hw => (h L hp hm hL y hy P N w hw).trans hN.le⟩

/-! ## DYCORS with a perturbation probability of zero -/

/-- If the perturbation probability is zero (or NaN), the selected points differ from the best one in at most one variable. -/
theorem dycors_one_only (p : OptProb d) (hp : p.intVar = []) (hd : d ≠ 1) (pred : Pt d → ℝ) (X : Fin (n + 1) → Pt d)
    (ws : List ℝ) (Xpend : List (Pt d)) (radius dtol : ℝ) (xbest : Pt d) (u : Fin (m + 1) → ℕ → ℝ)
    (hu : ∀ j c, 0 ≤ u j c) (forced : Fin (m + 1) → ℕ) (z : Fin (m + 1) → Pt d) {res : List (Pt d)}
    (h : candidateDycors p pred X ws 0 Xpend radius (List.finRange d) dtol xbest u forced z = some res) :
    ∀ x ∈ res, ∃ c : ℕ, ∀ i : Fin d, i.1 ≠ c → x i = xbest i := by
  unfold candidateDycors at h
  simp only [dycorsCand_full, List.length_finRange, Option.isSome_some, implies_true, dite_true, Option.get_some, hp, roundVars_nil,
    Option.some.injEq] at h
  subst h
  intro x hx
  unfold weightedDistanceMerit at hx
  obtain ⟨j, _, rfl⟩ := List.mem_map.mp hx
  refine ⟨forced j, fun i hi => ?_⟩
  have hmask : dycorsMask d 0 (u j) (forced j) i = false := by
    unfold dycorsMask
    rw [if_neg hd, if_pos fun c _ => not_lt.mpr (hu j c)]
    simp [not_lt.mpr (hu j i), hi]
  beta_reduce
  rw [hmask]
  simp

/-- For every DYCORS problem with at least two variables, all continuous, and a budget of one more evaluation than the
experimental design: there are a reachable state, in which points are generated, a feasible point `y` and a distance `ε > 0` such
that for no outcome of the draws the next point is within `ε` of `y`. -/
theorem C125_dycors_refuted {L : Setup d} (hm : L.method = .dycors) (hp : L.prob.intVar = []) (hd : 2 ≤ d) (ok : ProbOk L.prob)
    (ha : L.cfg.asynchronous = true) {sc : SrbfCfg} (hsc : L.cfg.srbf = some sc) (hw : sc.weights ≠ []) (hx : L.cfg.extras = [])
    {D : List (Pt d)} (hD : DesignOf L.prob L.cfg.numPts D) (hn : 0 < L.cfg.numPts)
    (hM : L.cfg.maxEvals = (L.cfg.numPts : ℤ) + 1) (S : Surr d) (hS : ∀ A, S.mean A ≠ none) (f : Pt d → Val) :
    ∃ w y ε, LoopReach L w ∧ wantsPoints L.cfg w.st ∧ Feasible L.prob y ∧ 0 < ε ∧
      (∃ r w', RndOk L w.st r ∧ loopStep L S f w (.propose r) = some w') ∧
      ∀ r w', RndOk L w.st r → loopStep L S f w (.propose r) = some w' →
        ∃ x, (proposals w'.st.log).getLast? = some x ∧ ∃ i, ε < |x i - y i| := by
  have hL : MethodOk L := by simp [MethodOk, hm, hsc]
  have hbs : BatchOk L.cfg := by simp [BatchOk, ha]
  have hx' : ∀ e ∈ L.cfg.extras, Feasible L.prob e.1 := by simp [hx]
  have hwant : wanted L.cfg = 1 := by simp [wanted, ha]
  have hrest : ∀ w, LoopReach L w → RndOk L w.st (restRnd D (wanted L.cfg)) := fun w h =>
    restRnd_ok ok hD (loop_curX_feasible ok hbs hx' h) (radius_pos hbs h.reach)
  obtain ⟨hDl, _, _⟩ := hD.spec ok
  obtain ⟨w1, c, e1, _, i1, hc, l1, _⟩ := Idle.design (S := S) (f := f) (M := L.cfg.maxEvals) le_rfl hL hrest (q := D) (c := []) (by
    simp [hDl]; omega) (idle_create hx hDl) (.create D hD) (.create (L := Setup.withBudget L L.cfg.maxEvals) D hD)
  simp only [List.length_nil, Nat.zero_add, hDl] at hc
  have hz1 := i1.srbf
  rw [hsc, Option.map_some] at hz1
  obtain ⟨ws, next, hws⟩ := getWeights_some (ws := sc.weights) (next := 0) 1 (List.length_pos_iff.mpr hw)
  have hXl : w1.st.X.length = L.cfg.numPts := by rw [i1.X]; simp [hx, known, hc]
  obtain ⟨x0, xs, hX1⟩ : ∃ x0 xs, w1.st.curX = x0 :: xs := by
    cases h : w1.st.curX with
    | nil => rw [i1.curX] at h; have := congrArg List.length h; simp at this; rw [this] at hc; simp at hc; omega
    | cons x0 xs => exact ⟨x0, xs, rfl⟩
  have hlen1 : w1.st.curFX.length = xs.length + 1 := by
    have h1 := congrArg List.length hX1
    rw [i1.curX] at h1
    rw [i1.curFX]; simpa using h1
  have hfX1 : w1.st.fX ≠ [] := by
    rw [i1.fX]; intro h
    have := congrArg List.length h
    simp [hx, known] at this
    rw [this] at hc; simp at hc; omega
  obtain ⟨pred, hpred⟩ := Option.ne_none_iff_exists'.mp (hS (surrData w1.st))
  obtain ⟨g, hg, hgl⟩ := gen_rest hm hd hpred hX1 hlen1 hfX1 hsc hz1 hws D (wanted L.cfg)
  have hb1 : w1.st.numEvals + w1.st.pendingEvals < L.cfg.maxEvals := by rw [i1.num, i1.pend, hc]; omega
  have hw1 : wantsPoints L.cfg w1.st := ⟨i1.term, hb1, i1.conv, i1.queue, .inl ha⟩
  have hprob : probOf (State.perturbProb L.cfg d w1.st) = 0 := by
    simp only [State.perturbProb, hXl, i1.xpend, List.length_nil]
    unfold Strategy.perturbProb
    simp [hM, npLog, NF.div, NF.oneSub, NF.scale, NF.max, probOf]
  set b := bestAt w1.st with hb
  have hbox := loop_curX_feasible ok hbs hx' l1
  refine ⟨w1, fun i => if b i - L.prob.lb i ≤ L.prob.ub i - b i then L.prob.ub i else L.prob.lb i,
    min (L.prob.ub ⟨0, by omega⟩ - L.prob.lb ⟨0, by omega⟩) (L.prob.ub ⟨1, by omega⟩ - L.prob.lb ⟨1, by omega⟩) / 4, l1, hw1,
    ⟨fun i => ?_, fun i hi => by rw [hp] at hi; cases hi⟩, ?_, ?_, ?_⟩
  · have := (ok.lt i).le
    beta_reduce
    split_ifs <;> simp [this]
  · have := lt_min (sub_pos.mpr (ok.lt ⟨0, by omega⟩)) (sub_pos.mpr (ok.lt ⟨1, by omega⟩))
    linarith
  · refine ⟨restRnd D (wanted L.cfg), ?_⟩
    simp only [loopStep, answer, if_pos hw1, hwant]
    rw [hwant] at hg
    rw [hg, Option.bind_some]
    simp only [Sys.step]
    rw [propose_adapt_async ha hsc hz1 hws i1.term hb1 i1.conv i1.queue]
    exact ⟨_, by rw [← hwant]; exact hrest w1 l1, rfl⟩
  · intro r w' hr hs
    simp only [loopStep] at hs
    rw [Option.bind_eq_some_iff] at hs
    obtain ⟨g', hg', hs⟩ := hs
    simp only [answer, if_pos hw1] at hg'
    obtain ⟨j, hj, hlast⟩ := srbf_proposes hbs (by rw [hsc]; simp) l1.reach hw1 hs
    refine ⟨_, hlast, ?_⟩
    obtain ⟨k, X, fX, z1, ws', pred', a1, a2, a3, a4, a5⟩ := gen_dycors hm hg'
    rw [hprob, Option.map_eq_some_iff] at a5
    obtain ⟨res, a5, rfl⟩ := a5
    have hne : d ≠ 1 := by omega
    have hreslen : res.length = wanted L.cfg := by
      unfold candidateDycors at a5
      simp only [dycorsCand_full, Option.isSome_some, implies_true, dite_true, Option.some.injEq] at a5
      rw [← a5]
      unfold weightedDistanceMerit
      rw [List.length_map]
      unfold wdmIdx
      rw [wdmLoop_length, a4]
    have hmem : (oracleOf L r.design (some res)).pts j ∈ res := by
      unfold oracleOf
      simp only [Option.getD_some]
      rw [List.getD_eq_getElem _ _ (by omega)]
      exact List.getElem_mem _
    obtain ⟨c', hc'⟩ := dycors_one_only L.prob hp hne pred' X ws' w1.st.Xpend _ _ _ r.u (fun j c => (hr.2.2.2.1 j c).1) r.forced r.draws a5 _ hmem
    have hbest : xbestOf X fX = b := (bestAt_eq a1 a2).symm
    have far : ∀ i : Fin d, i.1 ≠ c' →
        (L.prob.ub i - L.prob.lb i) / 4 < |(oracleOf L r.design (some res)).pts j i -
          (if b i - L.prob.lb i ≤ L.prob.ub i - b i then L.prob.ub i else L.prob.lb i)| := by
      intro i hi
      rw [hc' i hi, hbest]
      have h1 := ok.lt i
      split_ifs with hcc
      · rw [abs_sub_comm]
        exact lt_of_lt_of_le (by linarith) (le_abs_self _)
      · exact lt_of_lt_of_le (by linarith) (le_abs_self _)
    by_cases h0 : (0 : ℕ) = c'
    · refine ⟨⟨1, by omega⟩, lt_of_le_of_lt ?_ (far ⟨1, by omega⟩ (by simp; omega))⟩
      exact div_le_div_of_nonneg_right (min_le_right _ _) (by norm_num)
    · refine ⟨⟨0, by omega⟩, lt_of_le_of_lt ?_ (far ⟨0, by omega⟩ h0)⟩
      exact div_le_div_of_nonneg_right (min_le_left _ _) (by norm_num)

/-! ## The hypotheses are met -/

/-- SRBF in asynchronous mode, with any problem, design and surrogate: after the design points have been evaluated one by one, the
next call generates points, for every outcome of the draws.  So `missChance` is not zero for lack of runs. -/
theorem points_generated {L : Setup d} (hm : L.method = .srbf) (ok : ProbOk L.prob)
    (ha : L.cfg.asynchronous = true) {sc : SrbfCfg} (hsc : L.cfg.srbf = some sc) (hw : sc.weights ≠ []) (hx : L.cfg.extras = [])
    {D : List (Pt d)} (hD : DesignOf L.prob L.cfg.numPts D) (hn : 0 < L.cfg.numPts)
    (hM : (L.cfg.numPts : ℤ) < L.cfg.maxEvals) (S : Surr d) (hS : ∀ A, S.mean A ≠ none) (m : ℕ) :
    ∃ (w : Sys (Pt d)) (P : Plan L m), LoopReach L w ∧ missChance (fun _ => True) (fun _ => False) P 1 w = 1 := by
  have hL : MethodOk L := by simp [MethodOk, hm, hsc]
  have hbs : BatchOk L.cfg := by simp [BatchOk, ha]
  have hx' : ∀ e ∈ L.cfg.extras, Feasible L.prob e.1 := by simp [hx]
  have hwant : wanted L.cfg = 1 := by simp [wanted, ha]
  have hrest : ∀ w, LoopReach L w → RndOk L w.st (restRnd D (wanted L.cfg)) := fun w h =>
    restRnd_ok ok hD (loop_curX_feasible ok hbs hx' h) (radius_pos hbs h.reach)
  obtain ⟨hDl, _, _⟩ := hD.spec ok
  obtain ⟨w1, c, e1, _, i1, hc, l1, _⟩ := Idle.design (S := S) (f := fun _ => 0) (M := L.cfg.maxEvals) le_rfl hL hrest (q := D) (c := [])
    (by simp [hDl]; omega) (idle_create hx hDl) (.create D hD) (.create (L := Setup.withBudget L L.cfg.maxEvals) D hD)
  simp only [List.length_nil, Nat.zero_add, hDl] at hc
  have hz1 := i1.srbf
  rw [hsc, Option.map_some] at hz1
  obtain ⟨ws, next, hws⟩ := getWeights_some (ws := sc.weights) (next := 0) 1 (List.length_pos_iff.mpr hw)
  obtain ⟨x0, xs, hX1⟩ : ∃ x0 xs, w1.st.curX = x0 :: xs := by
    cases h : w1.st.curX with
    | nil => rw [i1.curX] at h; have := congrArg List.length h; simp at this; rw [this] at hc; simp at hc; omega
    | cons x0 xs => exact ⟨x0, xs, rfl⟩
  have hlen1 : w1.st.curFX.length = xs.length + 1 := by
    have h1 := congrArg List.length hX1
    rw [i1.curX] at h1
    rw [i1.curFX]; simpa using h1
  have hfX1 : w1.st.fX ≠ [] := by
    rw [i1.fX]; intro h
    have := congrArg List.length h
    simp [hx, known] at this
    rw [this] at hc; simp at hc; omega
  obtain ⟨pred, hpred⟩ := Option.ne_none_iff_exists'.mp (hS (surrData w1.st))
  have hb1 : w1.st.numEvals + w1.st.pendingEvals < L.cfg.maxEvals := by rw [i1.num, i1.pend, hc]; omega
  have hw1 : wantsPoints L.cfg w1.st := ⟨i1.term, hb1, i1.conv, i1.queue, .inl ha⟩
  have hall : ∀ (b : Fin (m + 1) → ℕ) (z : Outcome m d), ∃ w', askStep L S D w1 b z = some w' := by
    intro b z
    have hg : ∃ g, gen L S w1.st 1 (drawsOf L D b z) = some g := by
      unfold gen
      rw [hX1]
      simp only
      rw [dif_pos ⟨hlen1, hfX1⟩]
      simp only [genWith, hm, hsc, hz1, hpred, hws, Option.map_some]
      exact ⟨_, rfl⟩
    obtain ⟨g, hg⟩ := hg
    simp only [askStep, answer, if_pos hw1, hwant]
    rw [hg, Option.bind_some]
    simp only [Sys.step]
    rw [propose_adapt_async ha hsc hz1 hws i1.term hb1 i1.conv i1.queue]
    exact ⟨_, rfl⟩
  refine ⟨w1, .ask S D hD (fun _ _ => 0) fun _ => .stop, l1, ?_⟩
  unfold missChance
  rw [if_neg one_ne_zero, if_pos hw1, if_pos trivial]
  refine (congrArg (upperInt (candLaw L m w1.st)) (funext (g := fun _ => 1) fun z => ?_)).trans ?_
  · obtain ⟨w', h'⟩ := hall (fun _ => 0) z
    beta_reduce
    rw [h']
    simp [missChance]
  rw [upperInt_of_measurable _ measurable_const, candLaw, hz1]
  simp only
  have hσ := scale_pos ok (by norm_num : (0 : ℝ) < ((2 / 10 : ℚ) : ℝ)) (List.finRange d)
  have := drawLaw_prob ok hσ m (xbest := bestAt w1.st)
  unfold dycorsLaw
  rw [lintegral_one, measure_univ]

/-- The conditions are met by SRBF on the unit interval with the constant surrogate. -/
example (m : ℕ) : CandRun (wholeSetup .srbf) ∧ ∃ (w : Sys (Pt 1)) (P : Plan (wholeSetup .srbf) m), LoopReach (wholeSetup .srbf) w ∧
    missChance (fun _ => True) (fun _ => False) P 1 w = 1 :=
  ⟨⟨by simp [wholeSetup], .inl rfl, unitProb_ok, by simp [wholeSetup, loopCfg]⟩,
    points_generated rfl unitProb_ok rfl rfl (by simp) rfl (design_unit _ rfl rfl) (by simp [wholeSetup, loopCfg])
      (by simp [wholeSetup, loopCfg]) ⟨fun _ => some fun _ => 0, fun _ => some fun _ => 1⟩ (fun _ => by simp) m⟩

/-- DYCORS on the unit square with the two-factorial design and the budget 5. -/
noncomputable def lastSetup : Setup 2 :=
  ⟨areaProb, { areaCfg with
    numPts := 4
    maxEvals := 5
    asynchronous := true
    extras := []
    srbf := some { dim := 2, weights := [3 / 10, 1 / 2, 8 / 10, 95 / 100] } }, .dycors⟩

theorem areaProb_ok : ProbOk areaProb := by
  refine ⟨fun i => ?_, fun i hi => ?_, fun i hi => ?_⟩
  · fin_cases i <;> simp [areaProb]
  · cases hi
  · cases hi

/-- It meets the conditions of the refutation. -/
example (f : Pt 2 → Val) : ∃ w y ε, LoopReach lastSetup w ∧ wantsPoints lastSetup.cfg w.st ∧ Feasible lastSetup.prob y ∧ 0 < ε ∧
    (∃ r w', RndOk lastSetup w.st r ∧ loopStep lastSetup ⟨fun _ => some fun _ => 0, fun _ => some fun _ => 1⟩ f w (.propose r) = some w') ∧
    ∀ r w', RndOk lastSetup w.st r → loopStep lastSetup ⟨fun _ => some fun _ => 0, fun _ => some fun _ => 1⟩ f w (.propose r) = some w' →
      ∃ x, (proposals w'.st.log).getLast? = some x ∧ ∃ i, ε < |x i - y i| :=
  C125_dycors_refuted rfl rfl le_rfl areaProb_ok rfl rfl (by simp) rfl
    (D := twoFactorialPoints 2 (some (areaProb.lb, areaProb.ub)) areaProb.intVar)
    (.inr (.inr ⟨by simp [twoFactorialInit, lastSetup], rfl⟩)) (by simp [lastSetup]) (by simp [lastSetup]) _ (fun _ => by simp) f

/-- Those of the bound for DYCORS by the same problem with the budget 10. -/
example : CandRun (Setup.withBudget lastSetup 10) ∧ ((Setup.withBudget lastSetup 10).cfg.numPts : ℤ) + 2 ≤ (Setup.withBudget lastSetup 10).cfg.maxEvals :=
  ⟨⟨by simp [lastSetup, Setup.withBudget], .inl rfl, areaProb_ok, by simp [lastSetup, Setup.withBudget]⟩, by simp [lastSetup, Setup.withBudget]⟩

end Verif.Props
