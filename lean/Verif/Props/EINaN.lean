import Verif.Cand.EINaN
import Verif.Props.Acquisition

/-! # Property C99: expected improvement where the predicted deviation is zero -/

namespace Verif.Props

open Verif.Num Verif.Spec Verif.Utils Verif.Cand Verif.Strategy ProbabilityTheory

variable {d h : ℕ}

theorem eiNF_pos (fbest mu sig : ℝ) (hs : 0 < sig) : eiNF fbest mu sig = .fin (eiFormula fbest mu sig) := by
  simp [eiNF, eiFormula, NF.div, hs.ne', cdfNF, pdfNF, NF.mul, NF.add]

theorem eiNF_zero (fbest mu : ℝ) : eiNF fbest mu 0 = .nan := by
  unfold eiNF
  rcases lt_trichotomy (fbest - mu) 0 with hlt | heq | hgt
  · simp [NF.div, hlt.ne, hlt.le, not_lt.mpr hlt.le, cdfNF, pdfNF, NF.mul, NF.add]
  · simp [NF.div, heq, cdfNF, pdfNF, NF.mul, NF.add]
  · simp [NF.div, hgt.ne', hgt, cdfNF, pdfNF, NF.mul, NF.add]

theorem normPdf_le_one (x : ℝ) : normPdf x ≤ 1 := by
  rw [normPdf_eq]
  have h1 : (Real.sqrt (2 * Real.pi))⁻¹ ≤ 1 := by
    apply inv_le_one_of_one_le₀
    rw [Real.one_le_sqrt]
    have := Real.two_le_pi
    linarith
  have h2 : Real.exp (-x ^ 2 / 2) ≤ 1 := by
    rw [Real.exp_le_one_iff]
    have := sq_nonneg x
    linarith
  have h3 := (Real.exp_pos (-x ^ 2 / 2)).le
  calc _ ≤ 1 * Real.exp (-x ^ 2 / 2) := mul_le_mul_of_nonneg_right h1 h3
    _ ≤ 1 := by linarith

theorem normCdf_mem (x : ℝ) : 0 ≤ normCdf x ∧ normCdf x ≤ 1 := ⟨by unfold normCdf; positivity, by
  unfold normCdf; exact MeasureTheory.measureReal_le_one⟩

/-- The value expected for a small deviation: up to `sig` it is the predicted improvement `max(fbest - mu, 0)`. -/
theorem eiFormula_near (fbest mu sig : ℝ) (hs : 0 < sig) :
    max (fbest - mu) 0 ≤ eiFormula fbest mu sig ∧ eiFormula fbest mu sig ≤ max (fbest - mu) 0 + sig := by
  refine ⟨max_le (improvement_le _ _ _ hs) (eiFormula_nonneg _ _ _ hs), ?_⟩
  unfold eiFormula
  dsimp only
  set g := (fbest - mu) / sig with hg
  obtain ⟨h0, h1⟩ := normCdf_mem g
  have h2 : g * normCdf g ≤ max g 0 := by
    rcases le_total 0 g with h | h
    · rw [max_eq_left h]; exact mul_le_of_le_one_right h h1
    · rw [max_eq_right h]; exact mul_nonpos_of_nonpos_of_nonneg h h0
  have h3 := normPdf_le_one g
  have h4 : sig * max g 0 = max (fbest - mu) 0 := by
    rw [mul_max_of_nonneg _ _ hs.le, hg, mul_div_cancel₀ _ hs.ne', mul_zero]
  calc sig * (g * normCdf g + normPdf g) ≤ sig * (max g 0 + 1) := by
        apply mul_le_mul_of_nonneg_left _ hs.le; linarith
    _ = _ := by rw [mul_add, h4, mul_one]

/-- The merit outside the tolerance: with positive deviation it is the expected improvement, which differs from the
predicted improvement by at most the deviation; with deviation zero it is NaN, whatever is predicted.  Within the
tolerance it is 0 in both cases. -/
theorem C99_merit (mean std : Pt d → ℝ) (fbest : ℝ) (y0 : Pt d) (ys : List (Pt d)) (dtol : ℝ) (x : Pt d) :
    (Separated dtol x (y0 :: ys) → 0 < std x → ∃ v, eiMeritNF mean std fbest y0 ys dtol x = .fin v ∧
      v = ∫ y, max (fbest - y) 0 ∂(gaussianReal (mean x) ((std x) ^ 2).toNNReal) ∧
      max (fbest - mean x) 0 ≤ v ∧ v ≤ max (fbest - mean x) 0 + std x) ∧
    (Separated dtol x (y0 :: ys) → std x = 0 → eiMeritNF mean std fbest y0 ys dtol x = .nan) ∧
    (¬ Separated dtol x (y0 :: ys) → 0 < dtol → eiMeritNF mean std fbest y0 ys dtol x = .fin 0) := by
  have hiff := le_nearestDist_iff (x := x) (L := y0 :: ys) (by simp) dtol
  unfold eiMeritNF
  rw [minDist_eq]
  refine ⟨fun hf hs => ?_, fun hf h0 => ?_, fun hn hd => ?_⟩
  · rw [if_neg (fun hc => absurd (hiff.mpr hf) (not_le.mpr hc.2)), eiNF_pos _ _ _ hs]
    obtain ⟨h1, h2⟩ := eiFormula_near fbest (mean x) (std x) hs
    exact ⟨_, rfl, eiFormula_eq _ _ _ hs, h1, h2⟩
  · rw [if_neg (fun hc => absurd (hiff.mpr hf) (not_le.mpr hc.2)), h0, eiNF_zero]
  · rw [if_pos ⟨hd, not_le.mp fun hc => hn (hiff.mp hc)⟩]

theorem NF.neg_neg (a : NF) : a.neg.neg = a := by cases a <;> simp [NF.neg]

theorem NF.le_nan {a : NF} (h : a ≤ .nan) : a = .nan := by
  rw [NF.le_iff] at h
  cases a <;> simp_all [NF.key]

theorem eiGaLoopNF_spec {p : OptProb d} (ok : ProbOk p) (merit : List (Pt d) → Pt d → NF) (tol : ℝ)
    (runs : List (GARun d h)) (hr : ∀ r ∈ runs, RunOk r) (XX res : List (Pt d))
    (hres : eiGaLoopNF p merit tol runs XX = some res) :
    res.length = runs.length ∧ ∀ i (hi : i < res.length),
      Feasible p res[i] ∧ ¬ NF.lt tol (merit (XX ++ res.take i) res[i]) := by
  induction runs generalizing XX res with
  | nil => simp only [eiGaLoopNF, Option.some.injEq] at hres; subst hres; simp
  | cons r rs ih =>
    simp only [eiGaLoopNF] at hres
    obtain ⟨hf, hv⟩ := ga_feasible ok (fun Y => NF.neg (merit XX (roundVars Y p.intVar p.lb p.ub))) (hr r (by simp))
    set s := optimize p.ga (fun Y => NF.neg (merit XX (roundVars Y p.intVar p.lb p.ub))) r.unit r.gens
    split at hres
    · simp at hres
    · rename_i htol
      rw [hv, NF.neg_neg, roundVars_id hf] at htol
      split at hres
      · simp at hres
      · rename_i l hl
        simp only [Option.some.injEq] at hres
        subst hres
        obtain ⟨h1, h2⟩ := ih (fun r hr' => hr r (by simp [hr'])) _ _ hl
        refine ⟨by simp [h1], fun i hi => ?_⟩
        cases i with
        | zero => exact ⟨hf, by simpa using htol⟩
        | succ i =>
          have := h2 i (by simpa using hi)
          simpa using this

/-- Full statement: the points proposed by `ei_ga` are separated and each has an expected improvement of at least
`ei_tol`.  False where the deviation is zero (`C99_refuted`).  Proved: they are feasible and separated in all cases, and
those with a positive deviation have an expected improvement of at least `ei_tol`. -/
theorem C99_separated_partial (p : OptProb d) (ok : ProbOk p) (mean std : Pt d → ℝ) (hstd : ∀ x, 0 ≤ std x) (fbest : ℝ)
    (x0 : Pt d) (xs Xpend : List (Pt d)) (dtol tol : ℝ) (hd : 0 < dtol) (ht : 0 < tol) (runs : List (GARun d h))
    (hr : ∀ r ∈ runs, RunOk r) (res : List (Pt d))
    (hres : eiGaNF p mean std fbest x0 xs Xpend dtol tol runs = some res) :
    res.length = runs.length ∧ (∀ x ∈ res, Feasible p x) ∧ (∀ x ∈ res, Separated dtol x (x0 :: xs ++ Xpend)) ∧
    (res.Pairwise fun x y => dtol ≤ eucl x y) ∧
    ∀ x ∈ res, std x = 0 ∨ tol ≤ ∫ y, max (fbest - y) 0 ∂(gaussianReal (mean x) ((std x) ^ 2).toNNReal) := by
  obtain ⟨h1, h2⟩ := eiGaLoopNF_spec ok _ tol runs hr _ res hres
  have key : ∀ i (hi : i < res.length), Separated dtol res[i] (x0 :: xs ++ Xpend ++ res.take i) ∧
      (std res[i] = 0 ∨ tol ≤ ∫ y, max (fbest - y) 0 ∂(gaussianReal (mean res[i]) ((std res[i]) ^ 2).toNNReal)) := by
    intro i hi
    have hm : ¬ NF.lt tol (eiMeritNF mean std fbest x0 (xs ++ Xpend ++ res.take i) dtol res[i]) := (h2 i hi).2
    have hcons : x0 :: xs ++ Xpend ++ res.take i = x0 :: (xs ++ Xpend ++ res.take i) := rfl
    rw [hcons]
    obtain ⟨m1, _, m3⟩ := C99_merit mean std fbest x0 (xs ++ Xpend ++ res.take i) dtol res[i]
    have hsep : Separated dtol res[i] (x0 :: (xs ++ Xpend ++ res.take i)) := by
      by_contra hn
      rw [m3 hn hd] at hm
      exact hm ht
    refine ⟨hsep, ?_⟩
    rcases (hstd res[i]).eq_or_lt with h0 | h0
    · exact .inl h0.symm
    · obtain ⟨v, hv, rfl, _⟩ := m1 hsep h0
      rw [hv] at hm
      exact .inr (not_lt.mp hm)
  have hs := separated_all fun i hi => (key i hi).1
  refine ⟨h1, fun x hx => ?_, hs.1, hs.2, fun x hx => ?_⟩
  · obtain ⟨i, hi, rfl⟩ := List.getElem_of_mem hx; exact (h2 i hi).1
  · obtain ⟨i, hi, rfl⟩ := List.getElem_of_mem hx; exact (key i hi).2

theorem argmin_comp {α β : Type} [LinearOrder α] [LinearOrder β] {φ : α → β} (hφ : StrictMono φ) {m : ℕ}
    (f : Fin (m + 1) → α) : argmin (fun j => φ (f j)) = argmin f :=
  argmin_unique _ _ (fun j => hφ.monotone (argmin_le f j)) fun j hj => hφ (argmin_first f j hj)

/-- A state of the genetic algorithm with values mapped by `φ`. -/
def mapVals {α β : Type} (φ : α → β) (s : GAState d h α) : GAState d h β :=
  { pop := s.pop, vals := fun k => φ (s.vals k), best := s.best, bestValue := φ s.bestValue, evaluated := s.evaluated }

/-- The genetic algorithm uses only the order of the values. -/
theorem optimize_comp {α β : Type} [LinearOrder α] [LinearOrder β] {φ : α → β} (hφ : StrictMono φ) (cfg : GAConfig d)
    (f : Pt d → α) (unit : Pop d h) (rs : List (Draws d h)) :
    optimize cfg (fun x => φ (f x)) unit rs = mapVals φ (optimize cfg f unit rs) := by
  have hev : ∀ (pop next : Pop d h) (old : List (Pt d)),
      evaluate (fun x => φ (f x)) pop next old = mapVals φ (evaluate f pop next old) := by
    intro pop next old
    simp only [evaluate, mapVals, argmin_comp hφ (fun k => f (pop k))]
  have hgen : ∀ (s : GAState d h α) (r : Draws d h),
      generation cfg (fun x => φ (f x)) (mapVals φ s) r = mapVals φ (generation cfg f s r) := by
    intro s r
    have hw : winner (mapVals φ s).vals r.competitors = winner s.vals r.competitors := by
      funext k
      simp only [winner, mapVals]
      rw [argmin_comp hφ (fun t => s.vals (r.competitors k t))]
    simp only [generation, hev, hw]
    rfl
  unfold optimize optimizeFrom gaInit
  rw [hev]
  generalize evaluate f _ _ _ = s
  induction rs generalizing s with
  | nil => rfl
  | cons r rs ih => rw [List.foldl_cons, hgen, ih, List.foldl_cons]

theorem fin_strictMono : StrictMono NF.fin := by
  intro a b hab
  change NF.key (.fin a) < NF.key (.fin b)
  simpa [NF.key] using hab

theorem eiGaLoopNF_fin (p : OptProb d) (merit : List (Pt d) → Pt d → ℝ) (tol : ℝ) (runs : List (GARun d h))
    (XX : List (Pt d)) :
    eiGaLoopNF p (fun XX x => .fin (merit XX x)) tol runs XX = eiGaLoop p merit tol runs XX := by
  induction runs generalizing XX with
  | nil => rfl
  | cons r rs ih =>
    have hopt : optimize p.ga (fun Y => NF.neg (.fin (merit XX (roundVars Y p.intVar p.lb p.ub)))) r.unit r.gens =
        mapVals NF.fin (optimize p.ga (fun Y => -merit XX (roundVars Y p.intVar p.lb p.ub)) r.unit r.gens) :=
      optimize_comp fin_strictMono p.ga (fun Y => -merit XX (roundVars Y p.intVar p.lb p.ub)) r.unit r.gens
    simp only [eiGaLoopNF, eiGaLoop]
    rw [hopt]
    simp only [mapVals, NF.neg, NF.lt]
    rw [ih]
    congr

/-- As long as all deviations are positive, `ei_ga` is the function of `C30`. -/
theorem C99_positive (p : OptProb d) (mean std : Pt d → ℝ) (hstd : ∀ x, 0 < std x) (fbest : ℝ) (x0 : Pt d)
    (xs Xpend : List (Pt d)) (dtol tol : ℝ) (runs : List (GARun d h)) :
    eiGaNF p mean std fbest x0 xs Xpend dtol tol runs = eiGa p mean std fbest x0 xs Xpend dtol tol runs := by
  have hm : (fun (XX : List (Pt d)) x => eiMeritNF mean std fbest (XX.headD x0) XX.tail dtol x) =
      fun XX x => .fin (eiMerit mean std fbest (XX.headD x0) XX.tail dtol x) := by
    funext XX x
    unfold eiMeritNF eiMerit
    split
    · rfl
    · exact eiNF_pos _ _ _ (hstd x)
  unfold eiGaNF eiGa
  rw [hm, eiGaLoopNF_fin]

open Classical in
/-- If an individual examined by the genetic algorithm is separated and has deviation zero, then `ei_ga` proposes such a
point, however large the expected improvement is elsewhere, and it does not give up, however large `ei_tol` is. -/
theorem C99_preferred (p : OptProb d) (ok : ProbOk p) (mean std : Pt d → ℝ) (hstd : ∀ x, 0 ≤ std x) (fbest : ℝ)
    (x0 : Pt d) (xs Xpend : List (Pt d)) (dtol tol : ℝ) (hd : 0 < dtol) (r : GARun d h) (hr : RunOk r)
    (hz : ∃ x ∈ (optimize p.ga (fun Y => NF.neg (eiMeritNF mean std fbest x0 (xs ++ Xpend) dtol
        (roundVars Y p.intVar p.lb p.ub))) r.unit r.gens).evaluated,
      std x = 0 ∧ Separated dtol x (x0 :: xs ++ Xpend)) :
    ∃ y, eiGaNF p mean std fbest x0 xs Xpend dtol tol [r] = some [y] ∧ std y = 0 ∧
      Separated dtol y (x0 :: xs ++ Xpend) := by
  set f : Pt d → NF := fun Y => NF.neg (eiMeritNF mean std fbest x0 (xs ++ Xpend) dtol
    (roundVars Y p.intVar p.lb p.ub)) with hf
  obtain ⟨hfeas, hv⟩ := ga_feasible ok f hr
  obtain ⟨x, hx, hx0, hsep⟩ := hz
  have hxf : Feasible p x :=
    (C33_feasible p.ga (fun i => (ok.lt i).le) ok.lbInt ok.ubInt f r.unit hr r.gens).1 x hx
  have hnan : f x = .nan := by
    simp only [hf, roundVars_id hxf]
    rw [(C99_merit mean std fbest x0 (xs ++ Xpend) dtol x).2.1 hsep hx0]; rfl
  have hbest : (optimize p.ga f r.unit r.gens).bestValue = .nan := by
    apply NF.le_nan
    rw [← hnan]
    exact (C34_elitist p.ga f (initialPop p.ga r.unit) r.gens).2.2 x hx
  refine ⟨(optimize p.ga f r.unit r.gens).best, ?_, ?_⟩
  · have : eiGaNF p mean std fbest x0 xs Xpend dtol tol [r] =
        if NF.lt tol (NF.neg (optimize p.ga f r.unit r.gens).bestValue) then none
        else some [(optimize p.ga f r.unit r.gens).best] := rfl
    rw [this, hbest, if_neg (by simp [NF.neg, NF.lt])]
  · rw [hbest] at hv
    have hv' : f (optimize p.ga f r.unit r.gens).best = NF.neg (eiMeritNF mean std fbest x0 (xs ++ Xpend) dtol
        (optimize p.ga f r.unit r.gens).best) := by
      simp only [hf]
      rw [roundVars_id (by simpa only [hf] using hfeas)]
    rw [hv'] at hv
    set y := (optimize p.ga f r.unit r.gens).best
    obtain ⟨m1, _, m3⟩ := C99_merit mean std fbest x0 (xs ++ Xpend) dtol y
    have hy : Separated dtol y (x0 :: (xs ++ Xpend)) := by
      by_contra hn
      rw [m3 hn hd] at hv
      simp [NF.neg] at hv
    refine ⟨?_, hy⟩
    rcases (hstd y).eq_or_lt with h0 | h0
    · exact h0.symm
    · obtain ⟨v, hv2, _⟩ := m1 hy h0
      rw [hv2] at hv
      simp [NF.neg] at hv

open Classical in
/-- No improvement is possible anywhere (the prediction is 10 with certainty, the best value 0), but `ei_ga` proposes a
point instead of returning `None`. -/
theorem C99_refuted : eiGaNF unitProb (fun _ => 10) (fun _ => 0) 0 (fun _ => 0) [] [] 0.1 1 [midRun] =
    some [fun _ => 1 / 2] := by
  have hev : (fun _ => 1 / 2 : Pt 1) ∈ (optimize unitProb.ga (fun Y => NF.neg (eiMeritNF (fun _ => 10) (fun _ => 0) 0
      (fun _ => 0) ([] ++ []) 0.1 (roundVars Y unitProb.intVar unitProb.lb unitProb.ub))) midRun.unit
      midRun.gens).evaluated := by
    have := (C34_elitist unitProb.ga (fun Y => NF.neg (eiMeritNF (fun _ => 10) (fun _ => 0) 0
      (fun _ => 0) ([] ++ []) 0.1 (roundVars Y unitProb.intVar unitProb.lb unitProb.ub)))
      (initialPop unitProb.ga midRun.unit) midRun.gens).2.1
    have hb := midRun_best (fun Y => NF.neg (eiMeritNF (fun _ => 10) (fun _ => 0) 0
      (fun _ => 0) ([] ++ []) 0.1 (roundVars Y unitProb.intVar unitProb.lb unitProb.ub)))
    unfold optimize at hb ⊢
    rw [hb] at this
    exact this
  obtain ⟨y, h1, -, -⟩ := C99_preferred unitProb unitProb_ok (fun _ => 10) (fun _ => 0) (fun _ => le_rfl) 0 (fun _ => 0) [] []
    0.1 1 (by norm_num) midRun (fun k i => by norm_num [midRun]) ⟨_, hev, rfl, mid_far⟩
  have h2 : eiGaNF unitProb (fun _ => 10) (fun _ => 0) 0 (fun _ => 0) [] [] 0.1 1 [midRun] =
      if NF.lt 1 (NF.neg (optimize unitProb.ga (fun Y => NF.neg (eiMeritNF (fun _ => 10) (fun _ => 0) 0
      (fun _ => 0) ([] ++ []) 0.1 (roundVars Y unitProb.intVar unitProb.lb unitProb.ub))) midRun.unit
      midRun.gens).bestValue) then none else some [(optimize unitProb.ga (fun Y => NF.neg (eiMeritNF (fun _ => 10) (fun _ => 0) 0
      (fun _ => 0) ([] ++ []) 0.1 (roundVars Y unitProb.intVar unitProb.lb unitProb.ub))) midRun.unit
      midRun.gens).best] := rfl
  rw [midRun_best] at h2
  rw [h2] at h1
  split at h1
  · simp at h1
  · rw [h2]; rename_i h; rw [if_neg h]

/-- The same problem with deviation 1/1000 and a larger tolerance: the hypotheses of `C99_positive` are met, and `None`
is returned, as it should. -/
example : (∀ x : Pt 1, 0 < (fun _ => 1 / 1000 : Pt 1 → ℝ) x) ∧
    eiGaNF unitProb (fun _ => 10) (fun _ => 1 / 1000) 0 (fun _ => 0) [] [] 0.1 1 [midRun] = none := by
  refine ⟨fun _ => by norm_num, ?_⟩
  rw [C99_positive _ _ _ (fun _ => by norm_num)]
  unfold eiGa
  rw [C30_none]
  refine ⟨0, by simp, [], rfl, ?_⟩
  have hv := (ga_feasible unitProb_ok (fun Y => -eiMerit (fun _ => 10) (fun _ => 1 / 1000) 0 (fun _ => 0) [] 0.1
    (roundVars Y unitProb.intVar unitProb.lb unitProb.ub)) (r := midRun) (fun k i => by norm_num [midRun])).2
  rw [midRun_best] at hv
  change -(optimize unitProb.ga (fun Y => -eiMerit (fun _ => 10) (fun _ => 1 / 1000) 0 (fun _ => 0) [] 0.1
    (roundVars Y unitProb.intVar unitProb.lb unitProb.ub)) midRun.unit midRun.gens).bestValue < 1
  rw [hv, _root_.neg_neg]
  unfold eiMerit
  split
  · norm_num
  · have := (eiFormula_near 0 10 (1 / 1000) (by norm_num)).2
    refine lt_of_le_of_lt this ?_
    norm_num

end Verif.Props
