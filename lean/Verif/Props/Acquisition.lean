import Verif.Cand.EI
import Verif.Props.GA
import Verif.Props.Candidates

/-! # Properties C30–C32: expected improvement and lower confidence bound -/

namespace Verif.Props

open Verif.Num Verif.Spec Verif.Utils Verif.Cand ProbabilityTheory

variable {d h : ℕ}

/-! ## C32: the EI merit -/

/-- For positive predicted deviation and outside the tolerance, the EI merit is the expected improvement over the best
value of a normally distributed variable with the predicted mean and deviation. -/
theorem C32_expectation (mean std : Pt d → ℝ) (fbest : ℝ) (y0 : Pt d) (ys : List (Pt d)) (dtol : ℝ) (x : Pt d)
    (hs : 0 < std x) (hfar : Separated dtol x (y0 :: ys)) :
    eiMerit mean std fbest y0 ys dtol x =
      ∫ y, max (fbest - y) 0 ∂(gaussianReal (mean x) ((std x) ^ 2).toNNReal) := by
  unfold eiMerit
  rw [if_neg, eiFormula_eq _ _ _ hs]
  rintro ⟨_, h2⟩
  rw [minDist_eq] at h2
  exact absurd ((le_nearestDist_iff (by simp) dtol).mpr hfar) (not_le.mpr h2)

/-- It is nonnegative everywhere, at least the predicted improvement outside the tolerance, and zero within it. -/
theorem C32_bounds (mean std : Pt d → ℝ) (fbest : ℝ) (y0 : Pt d) (ys : List (Pt d)) (dtol : ℝ) (x : Pt d)
    (hs : 0 < std x) :
    0 ≤ eiMerit mean std fbest y0 ys dtol x ∧
    (Separated dtol x (y0 :: ys) → fbest - mean x ≤ eiMerit mean std fbest y0 ys dtol x) ∧
    (¬ Separated dtol x (y0 :: ys) → 0 < dtol → eiMerit mean std fbest y0 ys dtol x = 0) := by
  have hiff := le_nearestDist_iff (x := x) (L := y0 :: ys) (by simp) dtol
  unfold eiMerit
  rw [minDist_eq]
  refine ⟨?_, fun hf => ?_, fun hn hd => ?_⟩
  · split
    · exact le_rfl
    · exact eiFormula_nonneg _ _ _ hs
  · rw [if_neg (fun hc => absurd (hiff.mpr hf) (not_le.mpr hc.2))]
    exact improvement_le _ _ _ hs
  · rw [if_pos ⟨hd, not_le.mp fun hc => hn (hiff.mp hc)⟩]

/-- It never increases with the predicted mean. -/
theorem C32_mono (fbest mu mu' sig : ℝ) (hs : 0 < sig) (hm : mu ≤ mu') :
    eiFormula fbest mu' sig ≤ eiFormula fbest mu sig := eiFormula_mono_mean _ _ _ _ hs hm

example : 0 < (fun _ => 1 : Pt 1 → ℝ) ![0] ∧ Separated 0.1 (![0] : Pt 1) [![1]] := by
  refine ⟨one_pos, ?_⟩
  intro y hy
  rw [List.mem_singleton.mp hy]
  simp only [eucl, Fin.sum_univ_one]
  rw [Real.sqrt_sq_eq_abs]; norm_num

/-! ## C30, C31 -/

/-- A run of the genetic algorithm whose initial design is in the unit cube. -/
def RunOk (r : GARun d h) : Prop := ∀ k, InBox (fun _ => 0) (fun _ => 1) (r.unit k)

theorem ga_feasible {α : Type} [LinearOrder α] {p : OptProb d} (ok : ProbOk p) (f : Pt d → α) {r : GARun d h} (hr : RunOk r) :
    Feasible p (optimize p.ga f r.unit r.gens).best ∧
    (optimize p.ga f r.unit r.gens).bestValue = f (optimize p.ga f r.unit r.gens).best := by
  have h1 := C33_feasible p.ga (fun i => (ok.lt i).le) ok.lbInt ok.ubInt f r.unit hr r.gens
  exact ⟨h1.2, (C34_elitist p.ga f (initialPop p.ga r.unit) r.gens).1⟩

theorem roundVars_id {p : OptProb d} {x : Pt d} (h : Feasible p x) : roundVars x p.intVar p.lb p.ub = x :=
  funext fun i => roundVars_of_feasible (h.1 i) (h.2 i)

theorem eiGaLoop_spec {p : OptProb d} (ok : ProbOk p) (merit : List (Pt d) → Pt d → ℝ) (tol : ℝ)
    (runs : List (GARun d h)) (hr : ∀ r ∈ runs, RunOk r) (XX res : List (Pt d))
    (hres : eiGaLoop p merit tol runs XX = some res) :
    res.length = runs.length ∧ ∀ i (hi : i < res.length),
      Feasible p res[i] ∧ tol ≤ merit (XX ++ res.take i) res[i] := by
  induction runs generalizing XX res with
  | nil => simp only [eiGaLoop, Option.some.injEq] at hres; subst hres; simp
  | cons r rs ih =>
    simp only [eiGaLoop] at hres
    obtain ⟨hf, hv⟩ := ga_feasible ok (fun Y => -merit XX (roundVars Y p.intVar p.lb p.ub)) (hr r (by simp))
    set s := optimize p.ga (fun Y => -merit XX (roundVars Y p.intVar p.lb p.ub)) r.unit r.gens
    split at hres
    · simp at hres
    · rename_i htol
      rw [hv, neg_neg, roundVars_id hf, not_lt] at htol
      split at hres
      · simp at hres
      · rename_i l hl
        simp only [Option.some.injEq] at hres
        subst hres
        obtain ⟨h1, h2⟩ := ih (fun r hr' => hr r (by simp [hr'])) _ _ hl
        refine ⟨by simp [h1], fun i hi => ?_⟩
        cases i with
        | zero => exact ⟨hf, by simpa using htol⟩
        | succ i =>
          have := h2 i (by simpa using hi)
          simpa using this

theorem lcbGaLoop_spec {p : OptProb d} (ok : ProbOk p) (merit : List (Pt d) → Pt d → WithTop ℝ) (target : ℝ)
    (runs : List (GARun d h)) (hr : ∀ r ∈ runs, RunOk r) (XX res : List (Pt d))
    (hres : lcbGaLoop p merit target runs XX = some res) :
    res.length = runs.length ∧ ∀ i (hi : i < res.length),
      Feasible p res[i] ∧ merit (XX ++ res.take i) res[i] ≤ (target : WithTop ℝ) := by
  induction runs generalizing XX res with
  | nil => simp only [lcbGaLoop, Option.some.injEq] at hres; subst hres; simp
  | cons r rs ih =>
    simp only [lcbGaLoop] at hres
    obtain ⟨hf, hv⟩ := ga_feasible ok (fun Y => merit XX (roundVars Y p.intVar p.lb p.ub)) (hr r (by simp))
    set s := optimize p.ga (fun Y => merit XX (roundVars Y p.intVar p.lb p.ub)) r.unit r.gens
    split at hres
    · simp at hres
    · rename_i htol
      rw [hv, roundVars_id hf, gt_iff_lt, not_lt] at htol
      split at hres
      · simp at hres
      · rename_i l hl
        simp only [Option.some.injEq] at hres
        subst hres
        obtain ⟨h1, h2⟩ := ih (fun r hr' => hr r (by simp [hr'])) _ _ hl
        refine ⟨by simp [h1], fun i hi => ?_⟩
        cases i with
        | zero => exact ⟨hf, by simpa using htol⟩
        | succ i =>
          have := h2 i (by simpa using hi)
          simpa using this

theorem separated_all {X : List (Pt d)} {res : List (Pt d)} {δ : ℝ}
    (key : ∀ i (hi : i < res.length), Separated δ res[i] (X ++ res.take i)) :
    (∀ x ∈ res, Separated δ x X) ∧ res.Pairwise fun x y => δ ≤ eucl x y := by
  constructor
  · intro x hx
    obtain ⟨i, hi, rfl⟩ := List.getElem_of_mem hx
    exact fun y hy => key i hi y (List.mem_append_left _ hy)
  · rw [List.pairwise_iff_getElem]
    intro i j hi hj hij
    rw [eucl_comm]
    refine key j hj _ (List.mem_append_right _ ?_)
    rw [List.mem_take_iff_getElem]
    exact ⟨i, by omega, rfl⟩

/-- `ei_ga` with positive tolerances: the returned points (one per run) are feasible, at distance at least `dtol` from all
evaluated and pending points and from each other, and each has EI at least `ei_tol` when it is chosen. -/
theorem C30_separated (p : OptProb d) (ok : ProbOk p) (mean std : Pt d → ℝ) (fbest : ℝ) (x0 : Pt d)
    (xs Xpend : List (Pt d)) (dtol tol : ℝ) (hd : 0 < dtol) (ht : 0 < tol) (runs : List (GARun d h))
    (hr : ∀ r ∈ runs, RunOk r) (res : List (Pt d)) (hres : eiGa p mean std fbest x0 xs Xpend dtol tol runs = some res) :
    res.length = runs.length ∧ (∀ x ∈ res, Feasible p x) ∧ (∀ x ∈ res, Separated dtol x (x0 :: xs ++ Xpend)) ∧
    (res.Pairwise fun x y => dtol ≤ eucl x y) ∧ ∀ x ∈ res, tol ≤ eiFormula fbest (mean x) (std x) := by
  obtain ⟨h1, h2⟩ := eiGaLoop_spec ok _ tol runs hr _ res hres
  have key : ∀ i (hi : i < res.length), Separated dtol res[i] (x0 :: xs ++ Xpend ++ res.take i) ∧
      tol ≤ eiFormula fbest (mean res[i]) (std res[i]) := by
    intro i hi
    have : tol ≤ eiMerit mean std fbest x0 (xs ++ Xpend ++ res.take i) dtol res[i] := (h2 i hi).2
    have hcons : x0 :: xs ++ Xpend ++ res.take i = x0 :: (xs ++ Xpend ++ res.take i) := rfl
    rw [hcons]
    unfold eiMerit at this
    rw [minDist_eq] at this
    split at this
    · linarith
    · rename_i hc
      refine ⟨(le_nearestDist_iff (by simp) dtol).mp (not_lt.mp fun hlt => hc ⟨hd, hlt⟩), this⟩
  have hs := separated_all fun i hi => (key i hi).1
  refine ⟨h1, fun x hx => ?_, hs.1, hs.2, fun x hx => ?_⟩
  · obtain ⟨i, hi, rfl⟩ := List.getElem_of_mem hx; exact (h2 i hi).1
  · obtain ⟨i, hi, rfl⟩ := List.getElem_of_mem hx; exact (key i hi).2

/-- `None` is returned exactly if one of the maximizations, after `k` chosen points, ends below the tolerance. -/
theorem C30_none (p : OptProb d) (merit : List (Pt d) → Pt d → ℝ) (tol : ℝ) (runs : List (GARun d h)) (XX : List (Pt d)) :
    eiGaLoop p merit tol runs XX = none ↔
      ∃ k, ∃ hk : k < runs.length, ∃ chosen, eiGaLoop p merit tol (runs.take k) XX = some chosen ∧
        -(optimize p.ga (fun Y => -merit (XX ++ chosen) (roundVars Y p.intVar p.lb p.ub)) runs[k].unit runs[k].gens).bestValue
          < tol := by
  induction runs generalizing XX with
  | nil => simp [eiGaLoop]
  | cons r rs ih =>
    simp only [eiGaLoop]
    set s := optimize p.ga (fun Y => -merit XX (roundVars Y p.intVar p.lb p.ub)) r.unit r.gens with hsdef
    by_cases hlt : -s.bestValue < tol
    · simp only [hlt, if_true, true_iff]
      exact ⟨0, by simp, [], by simp [eiGaLoop], by simpa [← hsdef] using hlt⟩
    · simp only [hlt, if_false]
      constructor
      · intro hn
        have hn' : eiGaLoop p merit tol rs (XX ++ [s.best]) = none := by
          cases hh : eiGaLoop p merit tol rs (XX ++ [s.best]) with
          | none => rfl
          | some l => simp [hh] at hn
        obtain ⟨k, hk, chosen, h1, h2⟩ := (ih _).mp hn'
        refine ⟨k + 1, by simpa using hk, s.best :: chosen, ?_, ?_⟩
        · simp only [List.take_succ_cons, eiGaLoop, ← hsdef, hlt, if_false, h1]
        · simpa using h2
      · rintro ⟨k, hk, chosen, h1, h2⟩
        cases k with
        | zero =>
          simp only [List.take_zero, eiGaLoop, Option.some.injEq] at h1
          subst h1
          exact absurd (by simpa [← hsdef] using h2) hlt
        | succ k =>
          simp only [List.take_succ_cons, eiGaLoop, ← hsdef, hlt, if_false] at h1
          split at h1
          · simp at h1
          · rename_i l hl
            simp only [Option.some.injEq] at h1
            subst h1
            have : eiGaLoop p merit tol rs (XX ++ [s.best]) = none :=
              (ih _).mpr ⟨k, by simpa using hk, l, hl, by simpa using h2⟩
            simp [this]

/-- `lcb_ga`: the returned points are feasible, at distance at least `dtol` from all evaluated and pending points and from
each other, and have a lower confidence bound of at most the target. -/
theorem C31_separated (p : OptProb d) (ok : ProbOk p) (mean std : Pt d → ℝ) (kappa : ℝ) (x0 : Pt d)
    (xs Xpend : List (Pt d)) (dtol target : ℝ) (hd : 0 < dtol) (runs : List (GARun d h))
    (hr : ∀ r ∈ runs, RunOk r) (res : List (Pt d)) (hres : lcbGa p mean std kappa x0 xs Xpend dtol target runs = some res) :
    res.length = runs.length ∧ (∀ x ∈ res, Feasible p x) ∧ (∀ x ∈ res, Separated dtol x (x0 :: xs ++ Xpend)) ∧
    (res.Pairwise fun x y => dtol ≤ eucl x y) ∧ ∀ x ∈ res, mean x - kappa * std x ≤ target := by
  obtain ⟨h1, h2⟩ := lcbGaLoop_spec ok _ target runs hr _ res hres
  have key : ∀ i (hi : i < res.length), Separated dtol res[i] (x0 :: xs ++ Xpend ++ res.take i) ∧
      mean res[i] - kappa * std res[i] ≤ target := by
    intro i hi
    have : lcbMerit mean std kappa x0 (xs ++ Xpend ++ res.take i) dtol res[i] ≤ (target : WithTop ℝ) := (h2 i hi).2
    have hcons : x0 :: xs ++ Xpend ++ res.take i = x0 :: (xs ++ Xpend ++ res.take i) := rfl
    rw [hcons]
    unfold lcbMerit at this
    rw [minDist_eq] at this
    split at this
    · exact absurd this (not_le.mpr (WithTop.coe_lt_top target))
    · rename_i hc
      exact ⟨(le_nearestDist_iff (by simp) dtol).mp (not_lt.mp fun hlt => hc ⟨hd, hlt⟩), WithTop.coe_le_coe.mp this⟩
  have hs := separated_all fun i hi => (key i hi).1
  refine ⟨h1, fun x hx => ?_, hs.1, hs.2, fun x hx => ?_⟩
  · obtain ⟨i, hi, rfl⟩ := List.getElem_of_mem hx; exact (h2 i hi).1
  · obtain ⟨i, hi, rfl⟩ := List.getElem_of_mem hx; exact (key i hi).2

/-! The hypotheses are met: the unit interval, one evaluated point at 0, predicted mean -10 everywhere. -/

noncomputable def unitProb : OptProb 1 := { lb := fun _ => 0, ub := fun _ => 1, intVar := [] }
noncomputable def midRun : GARun 1 0 := { unit := fun _ _ => 1 / 2, gens := [] }

theorem unitProb_ok : ProbOk unitProb :=
  ⟨fun _ => by norm_num [unitProb], fun i hi => by simp [unitProb] at hi, fun i hi => by simp [unitProb] at hi⟩

theorem midRun_best {α : Type} [LinearOrder α] (f : Pt 1 → α) :
    (optimize unitProb.ga f midRun.unit midRun.gens).best = fun _ => 1 / 2 := by
  have h : ∀ k, initialRound unitProb.ga (initialPop unitProb.ga midRun.unit k) = fun _ => 1 / 2 := by
    intro k; funext i; simp [initialRound, initialPop, unitProb, midRun, OptProb.ga]
  exact h _

theorem mid_far : Separated 0.1 (fun _ => 1 / 2 : Pt 1) [fun _ => 0] := by
  intro y hy
  rw [List.mem_singleton.mp hy]
  simp only [eucl, Fin.sum_univ_one]
  rw [Real.sqrt_sq_eq_abs]; norm_num [abs_of_pos]

theorem eiGaLoop_one {p : OptProb d} {merit : List (Pt d) → Pt d → ℝ} {tol : ℝ} {r : GARun d h} {XX : List (Pt d)} {x : Pt d}
    (hb : (optimize p.ga (fun Y => -merit XX (roundVars Y p.intVar p.lb p.ub)) r.unit r.gens).best = x)
    (ht : tol ≤ merit XX (roundVars x p.intVar p.lb p.ub)) : eiGaLoop p merit tol [r] XX = some [x] := by
  have hv := (C34_elitist p.ga (fun Y => -merit XX (roundVars Y p.intVar p.lb p.ub)) (initialPop p.ga r.unit) r.gens).1
  change (optimize p.ga (fun Y => -merit XX (roundVars Y p.intVar p.lb p.ub)) r.unit r.gens).bestValue =
    -merit XX (roundVars (optimize p.ga (fun Y => -merit XX (roundVars Y p.intVar p.lb p.ub)) r.unit r.gens).best p.intVar p.lb p.ub) at hv
  simp only [eiGaLoop]
  rw [hb] at hv
  rw [if_neg (by rw [hv, neg_neg]; exact not_lt.mpr ht), hb]

theorem lcbGaLoop_one {p : OptProb d} {merit : List (Pt d) → Pt d → WithTop ℝ} {tol : ℝ} {r : GARun d h} {XX : List (Pt d)}
    {x : Pt d} (hb : (optimize p.ga (fun Y => merit XX (roundVars Y p.intVar p.lb p.ub)) r.unit r.gens).best = x)
    (ht : merit XX (roundVars x p.intVar p.lb p.ub) ≤ (tol : WithTop ℝ)) : lcbGaLoop p merit tol [r] XX = some [x] := by
  have hv := (C34_elitist p.ga (fun Y => merit XX (roundVars Y p.intVar p.lb p.ub)) (initialPop p.ga r.unit) r.gens).1
  change (optimize p.ga (fun Y => merit XX (roundVars Y p.intVar p.lb p.ub)) r.unit r.gens).bestValue =
    merit XX (roundVars (optimize p.ga (fun Y => merit XX (roundVars Y p.intVar p.lb p.ub)) r.unit r.gens).best p.intVar p.lb p.ub) at hv
  simp only [lcbGaLoop]
  rw [hb] at hv
  rw [if_neg (by rw [hv]; exact not_lt.mpr ht), hb]

example : RunOk midRun ∧ eiGa unitProb (fun _ => -10) (fun _ => 1) 0 (fun _ => 0) [] [] 0.1 1 [midRun] = some [fun _ => 1 / 2] := by
  refine ⟨fun k i => by norm_num [midRun], eiGaLoop_one (midRun_best _) ?_⟩
  have hr : roundVars (fun _ => 1 / 2 : Pt 1) unitProb.intVar unitProb.lb unitProb.ub = fun _ => 1 / 2 := by
    simp [roundVars, unitProb]
  have hge := (C32_bounds (fun _ => -10) (fun _ => 1) 0 (fun _ => 0) [] 0.1 (fun _ => 1 / 2 : Pt 1) one_pos).2.1 mid_far
  rw [hr]
  refine le_trans ?_ hge
  norm_num

example : lcbGa unitProb (fun _ => -10) (fun _ => 1) 2 (fun _ => 0) [] [] 0.1 0 [midRun] = some [fun _ => 1 / 2] := by
  refine lcbGaLoop_one (midRun_best _) ?_
  have hr : roundVars (fun _ => 1 / 2 : Pt 1) unitProb.intVar unitProb.lb unitProb.ub = fun _ => 1 / 2 := by
    simp [roundVars, unitProb]
  rw [hr]
  change lcbMerit (fun _ => -10) (fun _ => 1) 2 (fun _ => 0) [] 0.1 (fun _ => 1 / 2 : Pt 1) ≤ ((0 : ℝ) : WithTop ℝ)
  unfold lcbMerit
  rw [minDist_eq, if_neg (fun hc => absurd ((le_nearestDist_iff (by simp) _).mpr mid_far) (not_le.mpr hc.2))]
  rw [WithTop.coe_le_coe]; norm_num

end Verif.Props
