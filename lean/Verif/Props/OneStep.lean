import Verif.Props.Stop
import Mathlib.Analysis.Real.Pi.Bounds

/-! # Property C134: expected improvement is one-step optimal -/

namespace Verif.Spec

open ProbabilityTheory MeasureTheory

/-- The expected best value after one more evaluation, if `b` is the best value so far and the new value is normally
distributed with mean `m` and deviation `s`. -/
noncomputable def expectedBest (b m s : ℝ) : ℝ := ∫ y, min b y ∂(gaussianReal m (s ^ 2).toNNReal)

end Verif.Spec

namespace Verif.Props

open Verif.Num Verif.Utils Verif.Cand Verif.Design Verif.Strategy Verif.Spec Verif.Loop ProbabilityTheory MeasureTheory

variable {d h : ℕ} {L : Setup d}

/-! ## Helpers -/

theorem expectedBest_eq (b m s : ℝ) : expectedBest b m s = b - expImprovement b m s := by
  unfold expectedBest expImprovement
  have e : ∀ y : ℝ, min b y = b - max (b - y) 0 := fun y => by
    rcases le_total b y with h | h
    · rw [min_eq_left h, max_eq_right (by linarith), sub_zero]
    · rw [min_eq_right h, max_eq_left (by linarith)]; ring
  simp_rw [e]
  rw [integral_sub (integrable_const _) (integrable_max _ _ _)]
  simp

theorem gauss_integral_pos {f : ℝ → ℝ} (hc : Continuous f) (h0 : ∀ z, 0 ≤ f z) (hi : Integrable f (gaussianReal 0 1)) {z0 : ℝ}
    (hz : 0 < f z0) : 0 < ∫ z, f z ∂(gaussianReal 0 1) := by
  rw [integral_pos_iff_support_of_nonneg h0 hi]
  have ho : IsOpen (Function.support f) := hc.isOpen_support
  have hv : volume (Function.support f) ≠ 0 := (ho.measure_pos volume ⟨z0, hz.ne'⟩).ne'
  refine pos_iff_ne_zero.mpr fun h => hv ?_
  exact gaussianReal_absolutelyContinuous' 0 one_ne_zero h

/-- `E[max(c - Z, 0)]`, as a function of `c` strictly increasing and positive. -/
theorem expImprovement_std {b m s : ℝ} (hs : 0 < s) :
    expImprovement b m s = ∫ z, max (b - m - s * z) 0 ∂(gaussianReal 0 1) := by
  unfold expImprovement
  rw [← eiFormula_eq _ _ _ hs, eiFormula_std _ _ _ hs]

theorem expImprovement_pos {b m s : ℝ} (hs : 0 < s) : 0 < expImprovement b m s := by
  rw [expImprovement_std hs]
  refine gauss_integral_pos (by fun_prop) (fun _ => le_max_right _ _) (integrable_std _ _) (z0 := (b - m - 1) / s) ?_
  rw [mul_div_cancel₀ _ hs.ne']
  norm_num

theorem expImprovement_lt_of_mean {b m m' s : ℝ} (hs : 0 < s) (h : m < m') :
    expImprovement b m' s < expImprovement b m s := by
  rw [expImprovement_std hs, expImprovement_std hs, ← sub_pos, ← integral_sub (integrable_std _ _) (integrable_std _ _)]
  refine gauss_integral_pos (by fun_prop) (fun z => sub_nonneg.2 (max_le_max (by linarith) le_rfl))
    ((integrable_std _ _).sub (integrable_std _ _)) (z0 := (b - m') / s) ?_
  rw [mul_div_cancel₀ _ hs.ne', sub_pos, sub_self]
  rw [max_eq_left (by linarith : (0 : ℝ) ≤ b - m - (b - m')), max_eq_left le_rfl]
  linarith

theorem expImprovement_lt_of_std {b m s s' : ℝ} (hs : 0 < s) (h : s < s') :
    expImprovement b m s < expImprovement b m s' := by
  have hs' : 0 < s' := hs.trans h
  have hsym : ∫ z, max (b - m + s' * z) 0 ∂(gaussianReal 0 1) = ∫ z, max (b - m - s' * z) 0 ∂(gaussianReal 0 1) := by
    have hmap : (gaussianReal 0 1).map (fun z => -z) = gaussianReal 0 1 := by
      rw [gaussianReal_map_neg]; simp
    conv_lhs => rw [← hmap]
    rw [integral_map (by fun_prop) (by fun_prop)]
    refine integral_congr_ae (.of_forall fun z => ?_)
    simp only
    congr 1; ring
  have hi' : Integrable (fun z => max (b - m + s' * z) 0) (gaussianReal 0 1) := by
    have := integrable_std (b - m) (-s')
    refine this.congr (.of_forall fun z => ?_)
    simp only
    congr 1; ring
  set t : ℝ := (1 + s / s') / 2 with ht
  have hq : s / s' < 1 := (div_lt_one hs').2 h
  have hq0 : 0 < s / s' := by positivity
  have e2 : expImprovement b m s' = ∫ z, (t * max (b - m - s' * z) 0 + (1 - t) * max (b - m + s' * z) 0) ∂(gaussianReal 0 1) := by
    rw [integral_add ((integrable_std _ _).const_mul _) (hi'.const_mul _), integral_const_mul, integral_const_mul, hsym,
      expImprovement_std hs']
    ring
  have hts : t * s' - (1 - t) * s' = s := by rw [ht]; field_simp; ring
  have hsum : Integrable (fun z => t * max (b - m - s' * z) 0 + (1 - t) * max (b - m + s' * z) 0) (gaussianReal 0 1) :=
    ((integrable_std _ _).const_mul _).add (hi'.const_mul _)
  rw [e2, expImprovement_std hs, ← sub_pos, ← integral_sub hsum (integrable_std _ _)]
  refine gauss_integral_pos (by fun_prop) (fun z => sub_nonneg.2 ?_) (hsum.sub (integrable_std _ _))
    (z0 := (|b - m| + 1) / s) ?_
  · have h1 := le_max_left (b - m - s' * z) 0
    have h2 := le_max_left (b - m + s' * z) 0
    have h3 := le_max_right (b - m - s' * z) 0
    have h4 := le_max_right (b - m + s' * z) 0
    have ht0 : 0 ≤ t := by rw [ht]; positivity
    have ht1 : 0 ≤ 1 - t := by rw [ht]; linarith
    refine max_le ?_ (by positivity)
    calc b - m - s * z = t * (b - m - s' * z) + (1 - t) * (b - m + s' * z) := by rw [← hts]; ring
      _ ≤ _ := add_le_add (mul_le_mul_of_nonneg_left h1 ht0) (mul_le_mul_of_nonneg_left h2 ht1)
  · have ht0 : 0 ≤ t := by rw [ht]; positivity
    have ht1 : 0 < 1 - t := by rw [ht]; linarith
    have ha := abs_nonneg (b - m)
    have hz : 0 < (|b - m| + 1) / s := by positivity
    have h5 : s * ((|b - m| + 1) / s) = |b - m| + 1 := mul_div_cancel₀ _ hs.ne'
    have h6 : |b - m| + 1 ≤ s' * ((|b - m| + 1) / s) := by
      have := mul_le_mul_of_nonneg_right h.le hz.le
      linarith
    rw [h5]
    have h7 := le_abs_self (b - m)
    have h8 := neg_abs_le (b - m)
    rw [max_eq_right (by linarith : b - m - (|b - m| + 1) ≤ 0), sub_zero]
    refine add_pos_of_nonneg_of_pos (mul_nonneg ht0 (le_max_right _ _)) (mul_pos ht1 (lt_max_of_lt_left ?_))
    linarith

theorem eiGaLoop_best {p : OptProb d} {merit : List (Pt d) → Pt d → ℝ} {tol : ℝ} {runs : List (GARun d h)} {XX res : List (Pt d)}
    (hres : eiGaLoop p merit tol runs XX = some res) (hl : res.length = runs.length) (i : ℕ) (hi : i < res.length) :
    res[i] = (optimize p.ga (fun Y => -merit (XX ++ res.take i) (roundVars Y p.intVar p.lb p.ub)) (runs[i]'(hl ▸ hi)).unit
      (runs[i]'(hl ▸ hi)).gens).best := by
  induction runs generalizing XX res i with
  | nil => simp only [eiGaLoop, Option.some.injEq] at hres; subst hres; simp at hi
  | cons r rs ih =>
    simp only [eiGaLoop] at hres
    split at hres
    · simp at hres
    · split at hres
      · simp at hres
      · rename_i l hl'
        simp only [Option.some.injEq] at hres
        subst hres
        cases i with
        | zero => simp
        | succ i =>
          have := ih hl' (by simpa using hl) i (by simpa using hi)
          simp only [List.getElem_cons_succ, List.take_succ_cons]
          rw [this]
          simp

theorem curFX_known {w : Sys (Pt d)} (hw : LoopReach L w) {v : Val} (hv : v ∈ w.st.curFX) : v ∈ knownValues L.cfg w := by
  obtain ⟨cur, h1, _, h3, _⟩ := C13_isolation hw.reach
  rw [h3] at hv
  obtain ⟨c, hc, rfl⟩ := List.mem_map.mp hv
  refine List.mem_map.mpr ⟨c, List.mem_append_right _ ?_, rfl⟩
  have := h1.subset hc
  unfold currentRun at this
  unfold completions
  simp only [List.mem_filterMap] at this ⊢
  obtain ⟨e, he, hce⟩ := this
  refine ⟨e, he, ?_⟩
  revert hce
  cases e <;> simp

/-! ## The theorems -/

open Classical in
/-- Full statement: if the predictions are right, the point chosen by `EIStrategy` makes the expected best of all known
values after its evaluation at least as small as any other point that the genetic algorithm looked at and that keeps the
distance `dtol`; this for every point of a batch, given the previous ones.  False if the best value is not one of the current
run (`C134_refuted`).  Proved if it is: for every reachable state, surrogate, tolerance, batch size and random outcome. -/
theorem C134_one_step_partial (ok : ProbOk L.prob) {w : Sys (Pt d)} (hw : LoopReach L w) {n : ℕ} {tol : Option ℝ} {dtol : ℝ}
    {mean std : Pt d → ℝ} (hs : ∀ x, 0 < std x) {runs : List (GARun d h)} {pts : List (Pt d)}
    (hc : EiCall L w.st n tol dtol mean std runs (some pts)) {b : Val} (hb : IsLeast {v | v ∈ knownValues L.cfg w} b)
    (hcur : b ∈ w.st.curFX) : ∃ hl : pts.length = runs.length, ∀ i (hi : i < pts.length),
      ∃ f : Pt d → ℝ, (∀ y, Feasible L.prob y →
          f y = if 0 < dtol ∧ ¬ Separated dtol y (w.st.curX ++ w.st.Xpend ++ pts.take i) then 0
            else expectedBest b (mean y) (std y) - b) ∧
        pts[i] ∈ visited L.prob f (runs[i]'(hl ▸ hi)) ∧
        ∀ y ∈ visited L.prob f (runs[i]'(hl ▸ hi)),
          ¬ (0 < dtol ∧ ¬ Separated dtol y (w.st.curX ++ w.st.Xpend ++ pts.take i)) →
          ¬ (0 < dtol ∧ ¬ Separated dtol pts[i] (w.st.curX ++ w.st.Xpend ++ pts.take i)) ∧
          expectedBest b (mean pts[i]) (std pts[i]) ≤ expectedBest b (mean y) (std y) := by
  have hbc : IsLeast {v | v ∈ w.st.curFX} b := ⟨hcur, fun v hv => hb.2 (curFX_known hw hv)⟩
  obtain ⟨k, X, fX, h1, h2, h3, h4, h5⟩ := hc
  have hbest := best_eq h2 hbc
  rw [hbest] at h5
  obtain ⟨hl, _⟩ := eiGaLoop_spec ok _ _ runs (fun r hr q i => h4 r hr q i) _ pts h5.symm
  refine ⟨hl, fun i hi => ?_⟩
  have hcx : w.st.curX ++ w.st.Xpend ++ pts.take i =
      X 0 :: ((List.ofFn fun i : Fin k => X i.succ) ++ w.st.Xpend ++ pts.take i) := by
    rw [h1, List.ofFn_succ]; rfl
  have hval : ∀ x, Feasible L.prob x →
      -eiMerit mean std b (X 0) ((List.ofFn fun i : Fin k => X i.succ) ++ w.st.Xpend ++ pts.take i) dtol
        (roundVars x L.prob.intVar L.prob.lb L.prob.ub) =
      if 0 < dtol ∧ ¬ Separated dtol x (w.st.curX ++ w.st.Xpend ++ pts.take i) then 0
        else expectedBest b (mean x) (std x) - b := by
    intro x hf
    rw [roundVars_id hf, expectedBest_eq]
    unfold eiMerit expImprovement
    have hiff := le_nearestDist_iff (x := x) (L := X 0 :: ((List.ofFn fun i : Fin k => X i.succ) ++ w.st.Xpend ++ pts.take i))
      (by simp) dtol
    rw [minDist_eq, ← eiFormula_eq _ _ _ (hs _), hcx]
    by_cases hcl : 0 < dtol ∧ ¬ Separated dtol x (X 0 :: ((List.ofFn fun i : Fin k => X i.succ) ++ w.st.Xpend ++ pts.take i))
    · rw [if_pos hcl, if_pos ⟨hcl.1, not_le.mp fun hh => hcl.2 (hiff.mp hh)⟩, neg_zero]
    · rw [if_neg hcl, if_neg fun hh => hcl ⟨hh.1, fun hh' => absurd (hiff.mpr hh') (not_le.mpr hh.2)⟩]; ring
  have hri : ∀ q j, 0 ≤ (runs[i]'(hl ▸ hi)).unit q j ∧ (runs[i]'(hl ▸ hi)).unit q j ≤ 1 := fun q j =>
    h4 _ (List.getElem_mem _) q j
  set f : Pt d → ℝ := fun Y => -eiMerit mean std b (X 0)
    ((List.ofFn fun i : Fin k => X i.succ) ++ w.st.Xpend ++ pts.take i) dtol (roundVars Y L.prob.intVar L.prob.lb L.prob.ub) with hf
  have hbst : pts[i] = (optimize L.prob.ga f (runs[i]'(hl ▸ hi)).unit (runs[i]'(hl ▸ hi)).gens).best :=
    eiGaLoop_best h5.symm hl i hi
  obtain ⟨e1, e2, e3⟩ := C34_elitist L.prob.ga f (initialPop L.prob.ga (runs[i]'(hl ▸ hi)).unit) (runs[i]'(hl ▸ hi)).gens
  have hmem : pts[i] ∈ visited L.prob f (runs[i]'(hl ▸ hi)) := by rw [hbst]; exact e2
  refine ⟨f, hval, hmem, fun y hy hsep => ?_⟩
  have hle : f pts[i] ≤ f y := by
    have := e3 y hy
    rw [e1] at this
    rw [hbst]; exact this
  have hfx := visited_feasible ok f hri pts[i] hmem
  have hfy := visited_feasible ok f hri y hy
  have vx : f pts[i] = _ := hval _ hfx
  have vy : f y = _ := hval _ hfy
  rw [vx, vy, if_neg hsep] at hle
  have hneg : expectedBest b (mean y) (std y) - b < 0 := by
    rw [expectedBest_eq]
    linarith [expImprovement_pos (b := b) (m := mean y) (hs y)]
  split at hle
  · exact absurd (hle.trans_lt hneg) (lt_irrefl _)
  · rename_i hx
    exact ⟨hx, by linarith⟩

/-- The merit that `EIStrategy` maximizes, outside the tolerance, is larger for a smaller predicted mean and for a larger
predicted deviation, and it is positive everywhere. -/
theorem C134_tradeoff (mean std : Pt d → ℝ) (fbest : ℝ) (y0 : Pt d) (ys : List (Pt d)) (dtol : ℝ) (x y : Pt d)
    (hx : 0 < std x) (hy : 0 < std y) (hfx : Separated dtol x (y0 :: ys)) (hfy : Separated dtol y (y0 :: ys)) :
    0 < eiMerit mean std fbest y0 ys dtol x ∧
    (mean y < mean x → std y = std x → eiMerit mean std fbest y0 ys dtol x < eiMerit mean std fbest y0 ys dtol y) ∧
    (mean y = mean x → std x < std y → eiMerit mean std fbest y0 ys dtol x < eiMerit mean std fbest y0 ys dtol y) ∧
    (mean y < mean x → std x < std y → eiMerit mean std fbest y0 ys dtol x < eiMerit mean std fbest y0 ys dtol y) ∧
    (eiMerit mean std fbest y0 ys dtol x ≤ eiMerit mean std fbest y0 ys dtol y ↔
      expectedBest fbest (mean y) (std y) ≤ expectedBest fbest (mean x) (std x)) := by
  have ex : eiMerit mean std fbest y0 ys dtol x = expImprovement fbest (mean x) (std x) :=
    C32_expectation mean std fbest y0 ys dtol x hx hfx
  have ey : eiMerit mean std fbest y0 ys dtol y = expImprovement fbest (mean y) (std y) :=
    C32_expectation mean std fbest y0 ys dtol y hy hfy
  rw [ex, ey, expectedBest_eq, expectedBest_eq]
  refine ⟨expImprovement_pos hx, fun h1 h2 => ?_, fun h1 h2 => ?_, fun h1 h2 => ?_, ?_⟩
  · rw [h2]; exact expImprovement_lt_of_mean hx h1
  · rw [h1]; exact expImprovement_lt_of_std hx h2
  · exact (expImprovement_lt_of_mean hx h1).trans (expImprovement_lt_of_std hx h2)
  · constructor <;> intro h <;> linarith

/-! ## Counterexample -/

/-- A population of the two points 1/4 and 3/4. -/
noncomputable def twoRun : GARun 1 0 := { unit := fun k _ => if k = 0 then 1 / 4 else 3 / 4, gens := [] }

theorem twoRun_evaluated {α : Type} [LinearOrder α] (f : Pt 1 → α) :
    (optimize unitProb.ga f twoRun.unit twoRun.gens).evaluated = [fun _ => 1 / 4, fun _ => 3 / 4] := by
  have h : ∀ k, initialRound unitProb.ga (initialPop unitProb.ga twoRun.unit k) = if k = 0 then fun _ => 1 / 4 else fun _ => 3 / 4 := by
    intro k; funext i
    by_cases hk : k = 0 <;> simp [initialRound, initialPop, unitProb, twoRun, OptProb.ga, hk]
  change [] ++ List.ofFn (fun k => initialRound unitProb.ga (initialPop unitProb.ga twoRun.unit k)) = _
  simp_rw [h]
  rfl

theorem twoRun_best (f : Pt 1 → ℝ) (hf : f (fun _ => 1 / 4) < f (fun _ => 3 / 4)) :
    (optimize unitProb.ga f twoRun.unit twoRun.gens).best = fun _ => 1 / 4 := by
  obtain ⟨e1, e2, e3⟩ := C34_elitist unitProb.ga f (initialPop unitProb.ga twoRun.unit) twoRun.gens
  change (optimize unitProb.ga f twoRun.unit twoRun.gens).bestValue = _ at e1
  change (optimize unitProb.ga f twoRun.unit twoRun.gens).best ∈ (optimize unitProb.ga f twoRun.unit twoRun.gens).evaluated at e2
  have e4 := e3 (fun _ => 1 / 4) (by
    change _ ∈ (optimize unitProb.ga f twoRun.unit twoRun.gens).evaluated
    rw [twoRun_evaluated]; simp)
  change (optimize unitProb.ga f twoRun.unit twoRun.gens).bestValue ≤ _ at e4
  rw [twoRun_evaluated] at e2
  simp only [List.mem_cons, List.not_mem_nil, or_false] at e2
  rcases e2 with h | h
  · exact h
  · rw [e1] at e4
    change f (optimize unitProb.ga f twoRun.unit twoRun.gens).best ≤ _ at e4
    rw [h] at e4
    exact absurd hf (not_lt.mpr e4)

/-- The extra point of the counterexample: value -100, given by the user. -/
noncomputable def goodExtra : List (Pt 1 × Option Val) := [((fun _ => 1 / 2), some (-100))]

theorem extra_ready (m : Method) (v1 v2 : Val) : ∃ w, LoopReach ⟨unitProb, loopCfg goodExtra, m⟩ w ∧
    Idle (loopCfg goodExtra) w [] [((fun _ => 1), v1), ((fun _ => 0), v2)] := by
  have hD := design_unit unitProb rfl rfl
  have r0 : LoopReach ⟨unitProb, loopCfg goodExtra, m⟩ _ := LoopReach.create [fun _ => 0, fun _ => 1] hD
  have he : unknownExtras (loopCfg goodExtra) = [] := by
    simp [unknownExtras, loopCfg, goodExtra]
  have i0 : Idle (loopCfg goodExtra) (Sys.create (loopCfg goodExtra) (oracleOf ⟨unitProb, loopCfg goodExtra, m⟩ [fun _ => 0, fun _ => 1] none))
      ([fun _ => 0] ++ [fun _ => 1]) [] := by
    have hk := known_eq (cfg := loopCfg goodExtra)
    constructor <;> simp [Sys.create, create_eq, State.blank, he, hk]
    · rfl
    · rfl
  obtain ⟨w1, r1, i1⟩ := i0.cycle hD (by norm_num [loopCfg]) r0 v1
  obtain ⟨w2, r2, i2⟩ := Idle.cycle (q := []) (x := fun _ => 0) (L := ⟨unitProb, loopCfg goodExtra, m⟩) hD (by norm_num [loopCfg]) r1 i1 v2
  exact ⟨w2, r2, i2⟩

/-- Predictions of the counterexample: at 1/4 mean -3 and deviation 1, elsewhere mean 0 and deviation 7. -/
noncomputable def meanTwo (x : Pt 1) : ℝ := if x 0 = 1 / 4 then -3 else 0

noncomputable def stdTwo (x : Pt 1) : ℝ := if x 0 = 1 / 4 then 1 else 7

theorem ei_seven : expImprovement 0 0 7 < 3 := by
  have h : expImprovement 0 0 7 = 7 * normPdf 0 := by
    unfold expImprovement
    rw [← eiFormula_eq _ _ _ (by norm_num)]
    simp [eiFormula]
  rw [h]
  have hp := Real.pi_gt_three
  have : normPdf 0 = (Real.sqrt (2 * Real.pi))⁻¹ := by simp [normPdf, gaussianPDFReal]
  rw [this, ← div_eq_mul_inv, div_lt_iff₀ (by positivity)]
  have h2 : (7 / 3 : ℝ) < Real.sqrt (2 * Real.pi) := by
    rw [Real.lt_sqrt (by norm_num)]; linarith
  linarith

theorem ei_order : expImprovement (-100) (-3) 1 < expImprovement (-100) 0 7 := by
  rw [expImprovement_std one_pos, expImprovement_std (by norm_num)]
  have e : ∀ z : ℝ, max (-100 - 0 - 7 * z) 0 = 7 * max (-(100 / 7) - z) 0 := fun z => by
    rw [mul_max_of_nonneg _ _ (by norm_num)]; congr 1 <;> ring
  simp_rw [e]
  have hi : ∀ c : ℝ, Integrable (fun z => max (c - z) 0) (gaussianReal 0 1) := fun c => by
    simpa using integrable_std c 1
  rw [integral_const_mul]
  have h1 : ∫ z, max (-100 - -3 - 1 * z) 0 ∂(gaussianReal 0 1) ≤ ∫ z, max (-(100 / 7) - z) 0 ∂(gaussianReal 0 1) :=
    integral_mono (integrable_std _ _) (hi _) fun z => max_le_max (by linarith) le_rfl
  have h2 : 0 < ∫ z, max (-(100 / 7 : ℝ) - z) 0 ∂(gaussianReal 0 1) :=
    gauss_integral_pos (by fun_prop) (fun _ => le_max_right _ _) (hi _) (z0 := -(100 / 7) - 1) (by norm_num)
  linarith

theorem two_far (a : ℝ) (ha : a = 1 / 4 ∨ a = 3 / 4) : Separated 0.1 (fun _ => a : Pt 1) [fun _ => 1, fun _ => 0] := by
  intro y hy
  simp only [List.mem_cons, List.not_mem_nil, or_false] at hy
  rcases hy with rfl | rfl
  · simp only [eucl, Fin.sum_univ_one]
    rw [Real.sqrt_sq_eq_abs]
    rcases ha with rfl | rfl <;> (rw [abs_of_neg (by norm_num)]; norm_num)
  · simp only [eucl, Fin.sum_univ_one]
    rw [Real.sqrt_sq_eq_abs]
    rcases ha with rfl | rfl <;> (rw [abs_of_pos (by norm_num)]; norm_num)

theorem stdTwo_pos (x : Pt 1) : 0 < stdTwo x := by unfold stdTwo; split_ifs <;> norm_num

/-- If both design points have value 0, `EIStrategy` chooses 1/4. -/
theorem two_call {cfg : Config (Pt 1)} {m : Method} {w : Sys (Pt 1)} (hi : Idle cfg w [] [((fun _ => 1), 0), ((fun _ => 0), 0)])
    (ht : tolOf none w.st.fX ≤ 3) :
    EiCall ⟨unitProb, cfg, m⟩ w.st 1 none 0.1 meanTwo stdTwo [twoRun] (some [fun _ => 1 / 4]) := by
  have hb : IsLeast {v | v ∈ w.st.curFX} 0 := by simp [hi.curFX, IsLeast, lowerBounds]
  have hr4 : roundVars (fun _ => 1 / 4 : Pt 1) unitProb.intVar unitProb.lb unitProb.ub = fun _ => 1 / 4 := by
    simp [roundVars, unitProb]
  have hr34 : roundVars (fun _ => 3 / 4 : Pt 1) unitProb.intVar unitProb.lb unitProb.ub = fun _ => 3 / 4 := by
    simp [roundVars, unitProb]
  refine ⟨1, ![fun _ => 1, fun _ => 0], ![0, 0], by simp [hi.curX], by simp [hi.curFX], rfl, ?_, ?_⟩
  · intro r hr q i
    rw [List.mem_singleton.mp hr]
    unfold twoRun
    dsimp only
    split_ifs <;> norm_num
  · have h2 : (![0, 0] : Fin 2 → ℝ) (argmin (![0, 0] : Fin 2 → ℝ)) = 0 := by
      have := best_eq (l := w.st.curFX) (fX := ![0, 0]) (by simp [hi.curFX]) hb
      simpa using this
    rw [h2, hi.xpend]
    symm
    have hx : eiMerit meanTwo stdTwo 0 (fun _ => 1 : Pt 1) [fun _ => 0] 0.1 (fun _ => 1 / 4) = expImprovement 0 (-3) 1 := by
      rw [C32_expectation _ _ _ _ _ _ _ (stdTwo_pos _) (two_far _ (.inl rfl))]
      simp [meanTwo, stdTwo, expImprovement]
    have hy : eiMerit meanTwo stdTwo 0 (fun _ => 1 : Pt 1) [fun _ => 0] 0.1 (fun _ => 3 / 4) = expImprovement 0 0 7 := by
      rw [C32_expectation _ _ _ _ _ _ _ (stdTwo_pos _) (two_far _ (.inr rfl))]
      norm_num [meanTwo, stdTwo, expImprovement]
    have h3 : (3 : ℝ) ≤ expImprovement 0 (-3) 1 := by
      have := improvement_le 0 (-3) 1 one_pos
      rw [eiFormula_eq _ _ _ one_pos] at this
      unfold expImprovement
      linarith
    refine eiGaLoop_one (twoRun_best _ ?_) ?_
    · change -eiMerit meanTwo stdTwo 0 (fun _ => 1 : Pt 1) [fun _ => 0] 0.1 (roundVars _ _ _ _) <
        -eiMerit meanTwo stdTwo 0 (fun _ => 1 : Pt 1) [fun _ => 0] 0.1 (roundVars _ _ _ _)
      rw [hr4, hr34, hx, hy]
      linarith [ei_seven]
    · change _ ≤ eiMerit meanTwo stdTwo 0 (fun _ => 1 : Pt 1) [fun _ => 0] 0.1 (roundVars _ _ _ _)
      rw [hr4, hx]
      linarith

/-- The user gave a point with value -100; both design points have value 0.  `EIStrategy` measures improvement over 0 and
chooses the point 1/4, although the genetic algorithm looked at 3/4, which keeps the distance and makes the expected best value
strictly smaller. -/
theorem C134_refuted : ∃ (L : Setup 1) (w : Sys (Pt 1)) (r : GARun 1 0) (mean std : Pt 1 → ℝ) (x y : Pt 1) (b : Val),
    ProbOk L.prob ∧ L.method = .ei none 0.1 ∧ LoopReach L w ∧ (∀ x, 0 < std x) ∧
    IsLeast {v | v ∈ knownValues L.cfg w} b ∧ EiCall L w.st 1 none 0.1 mean std [r] (some [x]) ∧
    (∀ f : Pt 1 → ℝ, y ∈ visited L.prob f r) ∧ Separated 0.1 y (w.st.X ++ w.st.Xpend) ∧
    expectedBest b (mean y) (std y) < expectedBest b (mean x) (std x) := by
  obtain ⟨w, r, hi⟩ := extra_ready (.ei none 0.1) 0 0
  have hkn : knownValues (loopCfg goodExtra) w = [-100, 0, 0] := by
    unfold knownValues
    rw [hi.log]
    simp [known, goodExtra, loopCfg]
  refine ⟨⟨unitProb, loopCfg goodExtra, .ei none 0.1⟩, w, twoRun, meanTwo, stdTwo, fun _ => 1 / 4, fun _ => 3 / 4, -100,
    unitProb_ok, rfl, r, stdTwo_pos, ?_, two_call hi ?_, ?_, ?_, ?_⟩
  · change IsLeast {v | v ∈ knownValues (loopCfg goodExtra) w} (-100)
    rw [hkn]
    simp [IsLeast, lowerBounds]
  · have h1 : tolOf none w.st.fX = 1 / 1000000 * 100 := by
      refine tolOf_eq ?_
      rw [hi.fX]
      refine ⟨0, -100, ?_, ?_, by norm_num⟩ <;> simp [known, goodExtra, loopCfg, IsGreatest, upperBounds, IsLeast, lowerBounds]
    rw [h1]; norm_num
  · intro f
    unfold visited
    rw [twoRun_evaluated]
    simp
  · rw [hi.xpend, hi.X]
    intro z hz
    simp only [known, goodExtra, loopCfg, List.append_nil] at hz
    have hz' : z = (fun _ => 1 / 2) ∨ z ∈ [(fun _ => 1 : Pt 1), fun _ => 0] := by simpa using hz
    rcases hz' with rfl | hz'
    · simp only [eucl, Fin.sum_univ_one]
      rw [Real.sqrt_sq_eq_abs, abs_of_pos (by norm_num)]; norm_num
    · exact two_far _ (.inr rfl) z hz'
  · rw [expectedBest_eq, expectedBest_eq]
    have := ei_order
    norm_num [meanTwo, stdTwo]
    exact this

/-- The hypotheses of `C134_one_step_partial` are met: without the extra point, 1/4 is the right choice of the two. -/
example : ∃ w, LoopReach ⟨unitProb, loopCfg [], .ei none 0.1⟩ w ∧ IsLeast {v | v ∈ knownValues (loopCfg []) w} 0 ∧
    (0 : Val) ∈ w.st.curFX ∧
    EiCall ⟨unitProb, loopCfg [], .ei none 0.1⟩ w.st 1 none 0.1 meanTwo stdTwo [twoRun] (some [fun _ => 1 / 4]) ∧
    expectedBest 0 (meanTwo fun _ => 1 / 4) (stdTwo fun _ => 1 / 4) ≤ expectedBest 0 (meanTwo fun _ => 3 / 4) (stdTwo fun _ => 3 / 4) := by
  obtain ⟨w, r, hi⟩ := loop_ready (.ei none 0.1) 0 0
  have hb : IsLeast {v | v ∈ knownValues (loopCfg []) w} 0 := by
    simp [knownValues, hi.log, known, loopCfg, IsLeast, lowerBounds]
  have hc : (0 : Val) ∈ w.st.curFX := by simp [hi.curFX]
  have ht : tolOf none w.st.fX = 1 / 1000000 * 0 := by
    refine tolOf_eq ?_
    rw [hi.fX]
    refine ⟨0, 0, ?_, ?_, by norm_num⟩ <;> simp [known, loopCfg, IsGreatest, upperBounds, IsLeast, lowerBounds]
  have hcall := two_call (m := .ei none 0.1) hi (by rw [ht]; norm_num)
  refine ⟨w, r, hb, hc, hcall, ?_⟩
  obtain ⟨_, h⟩ := C134_one_step_partial unitProb_ok r stdTwo_pos hcall hb hc
  obtain ⟨f, _, _, h3⟩ := h 0 (by simp)
  have := (h3 (fun _ => 3 / 4) (by
    change _ ∈ visited unitProb f twoRun
    unfold visited
    rw [twoRun_evaluated]; simp) (fun hcl => hcl.2 (by
      simpa [hi.curX, hi.xpend] using two_far _ (.inr rfl)))).2
  simpa using this

end Verif.Props
