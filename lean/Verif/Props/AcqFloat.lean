import Verif.Float.Acq
import Verif.Props.GAFloat
import Verif.Props.Acquisition

/-! # Property C141: the proposals of EI and LCB in double precision -/

namespace Verif.Props

open Verif.Num Verif.Spec Verif.Utils Verif.Design Verif.Fl Verif.Cand

variable {d h : ℕ} {rnd : ℝ → ℝ}

/-- What holds of the coordinates of a proposal: lower bounds and integer variables are respected, the upper bounds if the
variable is an integer or the width of its range is a double, and otherwise up to a rounding error. -/
structure NearlyFeasible (p : OptProb d) (x : Pt d) : Prop where
  double : ∀ i, IsDouble (x i)
  lower : ∀ i, p.lb i ≤ x i
  upper : ∀ i, i ∈ p.intVar ∨ IsDouble (p.ub i - p.lb i) → x i ≤ p.ub i
  overshoot : ∀ i, x i ≤ p.ub i + (2 : ℝ) ^ (-52 : ℤ) * (|p.ub i| + (p.ub i - p.lb i))
  integer : IntegerOn p.intVar x

theorem best_nearly (hr : Nearest rnd) {p : OptProb d} (hc : DoubleGA p.ga) {α : Type} [LinearOrder α] (f : Pt d → α)
    {r : GARun d h} (hu : RunOk r) : NearlyFeasible p (Fl.optimize rnd p.ga f r.unit r.gens).best := by
  obtain ⟨h1, h2, h3⟩ := C140_box_partial hr hc f r.unit hu r.gens _ (.inr rfl)
  exact ⟨(ga_doubles hr hc f r.unit r.gens).2, h1, h2, C140_overshoot hr hc f r.unit hu r.gens _ (.inr rfl), h3⟩

theorem NearlyFeasible.round {p : OptProb d} {x : Pt d} (hx : NearlyFeasible p x) : roundVars x p.intVar p.lb p.ub = x := by
  funext i
  by_cases hi : i ∈ p.intVar
  · exact roundVars_of_feasible ⟨hx.lower i, hx.upper i (.inl hi)⟩ fun hi => hx.integer i hi
  · rw [roundVars_apply, if_neg hi]

theorem eiLoop_rounded (hr : Nearest rnd) {p : OptProb d} (hc : DoubleGA p.ga) (merit : List (Pt d) → Pt d → ℝ) (tol : ℝ)
    (runs : List (GARun d h)) (hu : ∀ r ∈ runs, RunOk r) (XX res : List (Pt d))
    (hres : Fl.eiGaLoop rnd p merit tol runs XX = some res) :
    res.length = runs.length ∧ ∀ i (hi : i < res.length),
      NearlyFeasible p res[i] ∧ tol ≤ merit (XX ++ res.take i) res[i] := by
  induction runs generalizing XX res with
  | nil => simp only [Fl.eiGaLoop, Option.some.injEq] at hres; subst hres; simp
  | cons r rs ih =>
    simp only [Fl.eiGaLoop] at hres
    have hf := best_nearly hr hc (fun Y => -merit XX (roundVars Y p.intVar p.lb p.ub)) (hu r (by simp))
    have hv := (C140_elitist rnd p.ga (fun Y => -merit XX (roundVars Y p.intVar p.lb p.ub)) r.unit r.gens).1
    set s := Fl.optimize rnd p.ga (fun Y => -merit XX (roundVars Y p.intVar p.lb p.ub)) r.unit r.gens
    split at hres
    · simp at hres
    · rename_i htol
      rw [hv, neg_neg, hf.round, not_lt] at htol
      split at hres
      · simp at hres
      · rename_i l hl
        simp only [Option.some.injEq] at hres
        subst hres
        obtain ⟨h1, h2⟩ := ih (fun r hr' => hu r (by simp [hr'])) _ _ hl
        refine ⟨by simp [h1], fun i hi => ?_⟩
        cases i with
        | zero => exact ⟨hf, by simpa using htol⟩
        | succ i =>
          have := h2 i (by simpa using hi)
          simpa using this

theorem lcbLoop_rounded (hr : Nearest rnd) {p : OptProb d} (hc : DoubleGA p.ga) (merit : List (Pt d) → Pt d → WithTop ℝ)
    (target : ℝ) (runs : List (GARun d h)) (hu : ∀ r ∈ runs, RunOk r) (XX res : List (Pt d))
    (hres : Fl.lcbGaLoop rnd p merit target runs XX = some res) :
    res.length = runs.length ∧ ∀ i (hi : i < res.length),
      NearlyFeasible p res[i] ∧ merit (XX ++ res.take i) res[i] ≤ (target : WithTop ℝ) := by
  induction runs generalizing XX res with
  | nil => simp only [Fl.lcbGaLoop, Option.some.injEq] at hres; subst hres; simp
  | cons r rs ih =>
    simp only [Fl.lcbGaLoop] at hres
    have hf := best_nearly hr hc (fun Y => merit XX (roundVars Y p.intVar p.lb p.ub)) (hu r (by simp))
    have hv := (C140_elitist rnd p.ga (fun Y => merit XX (roundVars Y p.intVar p.lb p.ub)) r.unit r.gens).1
    set s := Fl.optimize rnd p.ga (fun Y => merit XX (roundVars Y p.intVar p.lb p.ub)) r.unit r.gens
    split at hres
    · simp at hres
    · rename_i htol
      rw [hv, hf.round, gt_iff_lt, not_lt] at htol
      split at hres
      · simp at hres
      · rename_i l hl
        simp only [Option.some.injEq] at hres
        subst hres
        obtain ⟨h1, h2⟩ := ih (fun r hr' => hu r (by simp [hr'])) _ _ hl
        refine ⟨by simp [h1], fun i hi => ?_⟩
        cases i with
        | zero => exact ⟨hf, by simpa using htol⟩
        | succ i =>
          have := h2 i (by simpa using hi)
          simpa using this

/-- The exact distance between two points, given that the computed one is at least `δ`. -/
def AlmostApart (δ : ℝ) (x y : Pt d) : Prop := δ ^ 2 ≤ (1 + unitRoundoff) ^ (d + 5) * (eucl x y ^ 2 + d * halfTiny)

theorem almost_all (hr : Nearest rnd) {X res : List (Pt d)} {δ : ℝ} (h0 : 0 ≤ δ) (hX : ∀ x ∈ X, ∀ i, IsDouble (x i))
    (hR : ∀ x ∈ res, ∀ i, IsDouble (x i)) (key : ∀ i (hi : i < res.length), Apart rnd δ res[i] (X ++ res.take i)) :
    (∀ x ∈ res, ∀ y ∈ X, AlmostApart δ x y) ∧ res.Pairwise (AlmostApart δ) := by
  have one : ∀ x y : Pt d, (∀ i, IsDouble (x i)) → (∀ i, IsDouble (y i)) → δ ≤ Fl.dist rnd x y → AlmostApart δ x y := by
    intro x y hx hy hxy
    exact (pow_le_pow_left₀ h0 hxy 2).trans (C137_distance hr x y hx hy).2.2
  constructor
  · intro x hx y hy
    obtain ⟨i, hi, rfl⟩ := List.getElem_of_mem hx
    exact one _ _ (hR _ hx) (hX _ hy) (key i hi y (List.mem_append_left _ hy))
  · rw [List.pairwise_iff_getElem]
    intro i j hi hj hij
    unfold AlmostApart
    rw [eucl_comm]
    refine one _ _ (hR _ (List.getElem_mem _)) (hR _ (List.getElem_mem _)) (key j hj _ (List.mem_append_right _ ?_))
    rw [List.mem_take_iff_getElem]
    exact ⟨i, by omega, rfl⟩

/-- `ei_ga` in double precision with positive tolerances: one point per run, each with computed EI at least `ei_tol`; their
computed distances from all evaluated and pending points and from each other are at least `dtol`, the exact distances up
to rounding errors; all bounds are respected, except for upper bounds of continuous variables of which the width of the
range is no double, which are exceeded by at most a rounding error.  For every rounding to nearest, surrogate, computed
distribution functions, samples of the unit cube, draws and numbers of generations. -/
theorem C141_ei_partial (hr : Nearest rnd) (cdf pdf : ℝ → ℝ) (p : OptProb d) (hc : DoubleGA p.ga) (mean std : Pt d → ℝ)
    (fbest : ℝ) (x0 : Pt d) (xs Xpend : List (Pt d)) (hX : ∀ x ∈ x0 :: xs ++ Xpend, ∀ i, IsDouble (x i)) (dtol tol : ℝ)
    (hd : 0 < dtol) (ht : 0 < tol) (runs : List (GARun d h)) (hu : ∀ r ∈ runs, RunOk r) (res : List (Pt d))
    (hres : Fl.eiGa rnd cdf pdf p mean std fbest x0 xs Xpend dtol tol runs = some res) :
    res.length = runs.length ∧ (∀ x ∈ res, NearlyFeasible p x) ∧
    (∀ i (hi : i < res.length), Apart rnd dtol res[i] (x0 :: xs ++ Xpend ++ res.take i)) ∧
    (∀ x ∈ res, ∀ y ∈ x0 :: xs ++ Xpend, AlmostApart dtol x y) ∧ res.Pairwise (AlmostApart dtol) ∧
    ∀ x ∈ res, tol ≤ Fl.eiFormula rnd cdf pdf fbest (mean x) (std x) := by
  obtain ⟨h1, h2⟩ := eiLoop_rounded hr hc _ tol runs hu _ res hres
  have key : ∀ i (hi : i < res.length), Apart rnd dtol res[i] (x0 :: xs ++ Xpend ++ res.take i) ∧
      tol ≤ Fl.eiFormula rnd cdf pdf fbest (mean res[i]) (std res[i]) := by
    intro i hi
    have : tol ≤ Fl.eiMerit rnd cdf pdf mean std fbest x0 (xs ++ Xpend ++ res.take i) dtol res[i] := (h2 i hi).2
    have hcons : x0 :: xs ++ Xpend ++ res.take i = x0 :: (xs ++ Xpend ++ res.take i) := rfl
    rw [hcons]
    unfold Fl.eiMerit at this
    rw [minComputed_eq] at this
    split at this
    · linarith
    · rename_i hcc
      exact ⟨(le_computed_iff (by simp) dtol).mp (not_lt.mp fun hlt => hcc ⟨hd, hlt⟩), this⟩
  have hN : ∀ x ∈ res, NearlyFeasible p x := fun x hx => by
    obtain ⟨i, hi, rfl⟩ := List.getElem_of_mem hx; exact (h2 i hi).1
  have hs := almost_all hr hd.le hX (fun x hx => (hN x hx).double) fun i hi => (key i hi).1
  refine ⟨h1, hN, fun i hi => (key i hi).1, hs.1, hs.2, fun x hx => ?_⟩
  obtain ⟨i, hi, rfl⟩ := List.getElem_of_mem hx
  exact (key i hi).2

/-- `lcb_ga` in double precision: the same with a computed lower confidence bound of at most the target. -/
theorem C141_lcb_partial (hr : Nearest rnd) (p : OptProb d) (hc : DoubleGA p.ga) (mean std : Pt d → ℝ) (kappa : ℝ)
    (x0 : Pt d) (xs Xpend : List (Pt d)) (hX : ∀ x ∈ x0 :: xs ++ Xpend, ∀ i, IsDouble (x i)) (dtol target : ℝ) (hd : 0 < dtol)
    (runs : List (GARun d h)) (hu : ∀ r ∈ runs, RunOk r) (res : List (Pt d))
    (hres : Fl.lcbGa rnd p mean std kappa x0 xs Xpend dtol target runs = some res) :
    res.length = runs.length ∧ (∀ x ∈ res, NearlyFeasible p x) ∧
    (∀ i (hi : i < res.length), Apart rnd dtol res[i] (x0 :: xs ++ Xpend ++ res.take i)) ∧
    (∀ x ∈ res, ∀ y ∈ x0 :: xs ++ Xpend, AlmostApart dtol x y) ∧ res.Pairwise (AlmostApart dtol) ∧
    ∀ x ∈ res, rnd (mean x - rnd (kappa * std x)) ≤ target := by
  obtain ⟨h1, h2⟩ := lcbLoop_rounded hr hc _ target runs hu _ res hres
  have key : ∀ i (hi : i < res.length), Apart rnd dtol res[i] (x0 :: xs ++ Xpend ++ res.take i) ∧
      rnd (mean res[i] - rnd (kappa * std res[i])) ≤ target := by
    intro i hi
    have : Fl.lcbMerit rnd mean std kappa x0 (xs ++ Xpend ++ res.take i) dtol res[i] ≤ (target : WithTop ℝ) := (h2 i hi).2
    have hcons : x0 :: xs ++ Xpend ++ res.take i = x0 :: (xs ++ Xpend ++ res.take i) := rfl
    rw [hcons]
    unfold Fl.lcbMerit at this
    rw [minComputed_eq] at this
    split at this
    · exact absurd this (not_le.mpr (WithTop.coe_lt_top target))
    · rename_i hcc
      exact ⟨(le_computed_iff (by simp) dtol).mp (not_lt.mp fun hlt => hcc ⟨hd, hlt⟩), WithTop.coe_le_coe.mp this⟩
  have hN : ∀ x ∈ res, NearlyFeasible p x := fun x hx => by
    obtain ⟨i, hi, rfl⟩ := List.getElem_of_mem hx; exact (h2 i hi).1
  have hs := almost_all hr hd.le hX (fun x hx => (hN x hx).double) fun i hi => (key i hi).1
  refine ⟨h1, hN, fun i hi => (key i hi).1, hs.1, hs.2, fun x hx => ?_⟩
  obtain ⟨i, hi, rfl⟩ := List.getElem_of_mem hx
  exact (key i hi).2

/-- A returned point is never one of the evaluated or pending points again, not even approximately: with the default
`dtol = 1e-3` (the double nearest to it), the exact distance is at least 0.99e-3, in up to a million variables. -/
theorem C141_distinct (hr : Nearest rnd) {x y : Pt d} (hd : d ≤ 1000000) (hxy : AlmostApart (rnd (1 / 1000)) x y) :
    99 / 100000 ≤ eucl x y := by
  unfold AlmostApart at hxy
  have hu := uro_pos
  have hu' : unitRoundoff ≤ 1 / 1000000000000000 := by unfold unitRoundoff; norm_num
  have ht := tiny_pos
  have ht' := tiny_le
  have he : 0 ≤ eucl x y := Real.sqrt_nonneg _
  have h0 : 999 / 1000000 ≤ rnd (1 / 1000) := by
    have := hr.err (1 / 1000)
    change _ ≤ unitRoundoff * _ + halfTiny at this
    rw [abs_of_pos (by norm_num : (0 : ℝ) < 1 / 1000)] at this
    have := (abs_le.mp this).2
    linarith
  replace hxy := (pow_le_pow_left₀ (by norm_num) h0 2).trans hxy
  have h1 : (1 + unitRoundoff) ^ (d + 5) ≤ 1 + 1 / 100000 := by
    have hn : ((d + 5 : ℕ) : ℝ) ≤ 1000005 := by exact_mod_cast (by omega : d + 5 ≤ 1000005)
    have h3 : (1 + unitRoundoff) ^ (d + 5) ≤ Real.exp ((d + 5 : ℕ) * unitRoundoff) := by
      rw [Real.exp_nat_mul]
      exact pow_le_pow_left₀ (by linarith) (by have := Real.add_one_le_exp unitRoundoff; linarith) _
    have h4 : ((d + 5 : ℕ) : ℝ) * unitRoundoff ≤ 1 / 200000 := by
      have := mul_le_mul hn hu' hu.le (by norm_num)
      linarith
    have h5 := Real.abs_exp_sub_one_le (x := ((d + 5 : ℕ) : ℝ) * unitRoundoff)
      (by rw [abs_of_nonneg (by positivity)]; linarith)
    rw [abs_of_nonneg (by positivity : (0 : ℝ) ≤ ((d + 5 : ℕ) : ℝ) * unitRoundoff)] at h5
    have := (abs_le.mp h5).2
    linarith
  have h2 : (d : ℝ) * halfTiny ≤ 1 / 1000000000 := by
    have hn : (d : ℝ) ≤ 1000000 := by exact_mod_cast hd
    have := mul_le_mul hn (ht'.trans (by linarith : unitRoundoff / 1000000 ≤ 1 / 1000000000000000)) ht.le (by norm_num)
    linarith
  have hd0 : 0 ≤ (d : ℝ) * halfTiny := by positivity
  by_contra hlt
  rw [not_le] at hlt
  have h3 : eucl x y ^ 2 ≤ (99 / 100000) ^ 2 := pow_le_pow_left₀ he hlt.le 2
  have h4 := mul_le_mul_of_nonneg_right h1 (by positivity : 0 ≤ eucl x y ^ 2 + d * halfTiny)
  norm_num at h3 hxy
  linarith

/-- Full statement: all returned points are inside the box.  With the box [-5, 1.7], the start "SLHD" that `lcb_ga` uses and
a surrogate that decreases linearly, every run returns a point above the upper bound, for all draws, numbers of
generations, population sizes and roundings to nearest. -/
theorem C141_refuted : ∃ (p : OptProb 1) (mean std : Pt 1 → ℝ) (x0 : Pt 1), DoubleGA p.ga ∧ (∀ i, IsDouble (x0 i)) ∧
    InBox p.lb p.ub x0 ∧
    ∀ rnd, Nearest rnd → ∀ h coin σ (gens : List (Draws 1 h)) (kappa dtol target : ℝ), dtol ≤ 1 → 0 ≤ target →
      ∃ x, Fl.lcbGa rnd p mean std kappa x0 [] [] dtol target
        [⟨Fl.slhd rnd (popSize h) 1 coin σ, gens⟩] = some [x] ∧ p.ub 0 < x 0 := by
  refine ⟨⟨fun _ => -5, fun _ => u17, []⟩, fun x => -x 0, fun _ => 0, fun _ => -5,
    ⟨⟨fun _ => m5_double, fun _ => u17_double, fun _ => m5_lt⟩, by simp [IntegerOn, OptProb.ga],
      by simp [IntegerOn, OptProb.ga], by simp [OptProb.ga]⟩, fun _ => m5_double, fun _ => ⟨le_rfl, m5_lt.le⟩, ?_⟩
  intro rnd hr h coin σ gens kappa dtol target hd1 ht0
  have hc : DoubleGA (OptProb.ga (⟨fun _ => -5, fun _ => u17, []⟩ : OptProb 1)) :=
    ⟨⟨fun _ => m5_double, fun _ => u17_double, fun _ => m5_lt⟩, by simp [IntegerOn, OptProb.ga],
      by simp [IntegerOn, OptProb.ga], by simp [OptProb.ga]⟩
  generalize hp : (⟨fun _ => -5, fun _ => u17, []⟩ : OptProb 1) = p at hc
  have pl : p.lb = fun _ => -5 := by rw [← hp]
  have pu : p.ub = fun _ => u17 := by rw [← hp]
  have pv : p.intVar = [] := by rw [← hp]
  set unit := Fl.slhd rnd (popSize h) 1 coin σ with hunit
  have hU := slhd_unit (d := 1) hr (n := popSize h) (by unfold popSize; omega) coin σ
  set merit : List (Pt 1) → Pt 1 → WithTop ℝ :=
    fun XX x => Fl.lcbMerit rnd (fun x => -x 0) (fun _ => 0) kappa (XX.headD fun _ => -5) XX.tail dtol x with hmerit
  set f : Pt 1 → WithTop ℝ := fun Y => merit [fun _ => -5] (roundVars Y p.intVar p.lb p.ub) with hf
  have f_le : ∀ Y, ((rnd (-Y 0) : ℝ) : WithTop ℝ) ≤ f Y := by
    intro Y
    have e : roundVars Y p.intVar p.lb p.ub = Y := by
      funext i; rw [roundVars_apply, pv, if_neg (by simp)]
    simp only [hf, hmerit, e, Fl.lcbMerit]
    split
    · exact le_top
    · rw [mul_zero, hr.zero, sub_zero]
  have f_eq : ∀ Y : Pt 1, u17 < Y 0 → f Y = ((rnd (-Y 0) : ℝ) : WithTop ℝ) := by
    intro Y hY
    have e : roundVars Y p.intVar p.lb p.ub = Y := by
      funext i; rw [roundVars_apply, pv, if_neg (by simp)]
    simp only [hf, hmerit, e, Fl.lcbMerit]
    rw [if_neg, mul_zero, hr.zero, sub_zero]
    rintro ⟨-, hlt⟩
    have h4 : (0 : ℝ) < u17 := by unfold u17; norm_num
    have h5 : 1 ≤ rnd (Y 0 - -5) := hr.ge isDouble_one (by linarith)
    have h6 := dist_one_ge hr Y (fun _ => -5) h5
    have h7 : Fl.minDist rnd Y (fun _ => -5) [] = Fl.dist rnd Y (fun _ => -5) := rfl
    simp only [List.headD_cons, List.tail_cons, h7] at hlt
    linarith
  obtain ⟨k, hk⟩ := hU.2 0
  set z := Fl.initialRound rnd p.ga (Fl.initialPop rnd p.ga unit k) with hz
  have z_mem : z ∈ (Fl.optimize rnd p.ga f unit gens).evaluated := Fl.evaluated_init rnd _ _ _ gens k
  have z0 : u17 < z 0 := by
    have e := (ga_start hr hc hU.1 k 0).2.2.2.2 (by simp [OptProb.ga, pv])
    rw [hz, e, hk]
    simp only [OptProb.ga, pl, pu]
    exact fromUnit_overshoots hr
  obtain ⟨e1, e2, e3⟩ := C140_elitist rnd p.ga f unit gens
  have hbz := e3 z z_mem
  rw [e1, f_eq z z0] at hbz
  have hb := f_le (Fl.optimize rnd p.ga f unit gens).best
  have hbd := (ga_doubles hr hc f unit gens).2 0
  have hle := WithTop.coe_le_coe.mp (hb.trans hbz)
  rw [hr.exact hbd.neg] at hle
  have hzle : rnd (-z 0) ≤ -z 0 := by
    have : IsDouble (z 0) := by
      have e := (ga_start hr hc hU.1 k 0).2.2.2.2 (by simp [OptProb.ga, pv])
      rw [hz, e]
      exact hr.double _
    rw [hr.exact this.neg]
  have hbest : u17 < (Fl.optimize rnd p.ga f unit gens).best 0 := by linarith
  refine ⟨_, ?_, by rw [pu]; exact hbest⟩
  have hval : (Fl.optimize rnd p.ga f unit gens).bestValue ≤ (target : WithTop ℝ) := by
    rw [e1, f_eq _ hbest, WithTop.coe_le_coe, hr.exact hbd.neg]
    have : (0 : ℝ) < u17 := by unfold u17; norm_num
    linarith
  have : Fl.lcbGa rnd p (fun x => -x 0) (fun _ => 0) kappa (fun _ => -5) [] [] dtol target [⟨unit, gens⟩] =
      some [(Fl.optimize rnd p.ga f unit gens).best] := by
    unfold Fl.lcbGa
    show (if (Fl.optimize rnd p.ga f unit gens).bestValue > (target : WithTop ℝ) then none
      else some [(Fl.optimize rnd p.ga f unit gens).best]) = _
    rw [if_neg (not_lt.mpr hval)]
  exact this

theorem half_double : IsDouble (1 / 2) := by
  have := isDouble_of_le (m := 1) (e := -1) (by norm_num) (by norm_num)
  norm_num at this
  convert this using 1

theorem quarter_double : IsDouble (1 / 4) := by
  have := isDouble_of_le (m := 1) (e := -2) (by norm_num) (by norm_num)
  norm_num at this
  convert this using 1

theorem unit_ga : DoubleGA unitProb.ga :=
  ⟨⟨fun _ => isDouble_zero, fun _ => isDouble_one, fun _ => by simp [OptProb.ga, unitProb]⟩,
    by simp [IntegerOn, OptProb.ga, unitProb], by simp [IntegerOn, OptProb.ga, unitProb], by simp [OptProb.ga, unitProb]⟩

theorem half_dist (hr : Nearest rnd) : Fl.dist rnd (fun _ => 1 / 2 : Pt 1) (fun _ => 0) = 1 / 2 := by
  unfold Fl.dist
  have e : List.finRange 1 = [0] := rfl
  rw [e, List.foldl_cons, List.foldl_nil, sub_zero, hr.exact half_double, zero_add]
  have e2 : (1 / 2 : ℝ) * (1 / 2) = 1 / 4 := by norm_num
  rw [e2, hr.exact quarter_double, hr.exact quarter_double]
  have e3 : Real.sqrt (1 / 4) = 1 / 2 := by
    rw [show (1 / 4 : ℝ) = (1 / 2) ^ 2 by norm_num]
    exact Real.sqrt_sq (by norm_num)
  rw [e3, hr.exact half_double]

/-- The hypotheses of `C141_ei_partial` are met: the unit interval, one evaluated point at 0, expected improvement 1/2
everywhere; the middle of the interval is returned. -/
example (hr : Nearest rnd) : DoubleGA unitProb.ga ∧ (∀ x ∈ [(fun _ => 0 : Pt 1)], ∀ i, IsDouble (x i)) ∧ RunOk midRun ∧
    Fl.eiGa rnd (fun _ => 1 / 2) (fun _ => 1 / 2) unitProb (fun _ => 1) (fun _ => 1) 1 (fun _ => 0) [] [] (1 / 4) (1 / 4)
      [midRun] = some [fun _ => 1 / 2] := by
  refine ⟨unit_ga, ?_, fun k i => by norm_num [midRun], ?_⟩
  · intro x hx i
    rw [List.mem_singleton] at hx
    subst hx
    exact isDouble_zero
  have hpop : ∀ k, Fl.initialRound rnd unitProb.ga (Fl.initialPop rnd unitProb.ga midRun.unit k) = fun _ => 1 / 2 := by
    intro k
    funext i
    have e : Fl.initialRound rnd unitProb.ga (Fl.initialPop rnd unitProb.ga midRun.unit k) =
        Fl.initialPop rnd unitProb.ga midRun.unit k := by
      unfold Fl.initialRound
      rw [if_neg]
      exact lt_irrefl 0
    rw [e]
    show rnd (0 + rnd (1 / 2 * rnd (1 - 0))) = 1 / 2
    rw [sub_zero, zero_add, hr.one, mul_one, hr.exact (hr.double _), hr.exact half_double]
  have hbest : ∀ f : Pt 1 → ℝ, (Fl.optimize rnd unitProb.ga f midRun.unit midRun.gens).best = fun _ => 1 / 2 := by
    intro f
    exact hpop _
  have hval : ∀ f : Pt 1 → ℝ, (Fl.optimize rnd unitProb.ga f midRun.unit midRun.gens).bestValue = f fun _ => 1 / 2 := by
    intro f
    rw [(C140_elitist rnd unitProb.ga f midRun.unit midRun.gens).1, hbest]
  have hround : roundVars (fun _ => 1 / 2 : Pt 1) unitProb.intVar unitProb.lb unitProb.ub = fun _ => 1 / 2 := by
    funext i; rw [roundVars_apply, if_neg (by simp [unitProb])]
  unfold Fl.eiGa
  simp only [Fl.eiGaLoop, hval, hbest, hround, List.cons_append, List.nil_append, List.headD_cons, List.tail_cons]
  have hd : Fl.minDist rnd (fun _ => 1 / 2 : Pt 1) (fun _ => 0) [] = 1 / 2 := half_dist hr
  have he : Fl.eiMerit rnd (fun _ => 1 / 2) (fun _ => 1 / 2) (fun _ => 1) (fun _ => 1) 1 (fun _ => 0 : Pt 1) [] (1 / 4)
      (fun _ => 1 / 2) = 1 / 2 := by
    unfold Fl.eiMerit Fl.eiFormula
    rw [hd, if_neg (by norm_num)]
    simp only [sub_self, hr.zero, zero_div, zero_mul, zero_add, hr.exact half_double, one_mul]
  rw [he, if_neg (by norm_num)]

end Verif.Props
