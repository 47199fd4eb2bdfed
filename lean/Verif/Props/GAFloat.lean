import Verif.Float.GA
import Verif.Props.Float
import Verif.Props.MeritFloat
import Verif.Props.GA

/-! # Property C140: the genetic algorithm in double precision -/

namespace Verif.Props

open Verif.Num Verif.Spec Verif.Utils Verif.Design Verif.Fl

variable {d h : ℕ} {α : Type} [LinearOrder α] {rnd : ℝ → ℝ}

/-- A problem as the algorithm gets it: double bounds, and on the integer variables integer bounds whose difference is a
double (as it is if it is at most `2^53`). -/
structure DoubleGA (cfg : GAConfig d) : Prop where
  box : DoubleBox cfg.lb cfg.ub
  lbInt : IntegerOn cfg.intVar cfg.lb
  ubInt : IntegerOn cfg.intVar cfg.ub
  width : ∀ i ∈ cfg.intVar, IsDouble (cfg.ub i - cfg.lb i)

theorem DoubleGA.ok {cfg : GAConfig d} (hc : DoubleGA cfg) : cfg.Ok := ⟨fun i => (hc.box.lt i).le, hc.lbInt, hc.ubInt⟩

/-- The samples of the unit cube that the starts "SLHD", "LHD" and "Random" produce. -/
def UnitPop (unit : Pop d h) : Prop := ∀ k, InBox (fun _ => 0) (fun _ => 1) (unit k)

theorem ga_start (hr : Nearest rnd) {cfg : GAConfig d} (hc : DoubleGA cfg) {unit : Pop d h} (hu : UnitPop unit) (k) (i) :
    cfg.lb i ≤ Fl.initialRound rnd cfg (Fl.initialPop rnd cfg unit k) i ∧
    Fl.initialRound rnd cfg (Fl.initialPop rnd cfg unit k) i ≤
      cfg.ub i + (2 : ℝ) ^ (-52 : ℤ) * (|cfg.ub i| + (cfg.ub i - cfg.lb i)) ∧
    (i ∈ cfg.intVar ∨ IsDouble (cfg.ub i - cfg.lb i) ∨ IsDouble (unit k i) ∧ unit k i < 1 →
      Fl.initialRound rnd cfg (Fl.initialPop rnd cfg unit k) i ≤ cfg.ub i) ∧
    (i ∈ cfg.intVar → ∃ z : ℤ, Fl.initialRound rnd cfg (Fl.initialPop rnd cfg unit k) i = z) ∧
    (i ∉ cfg.intVar → Fl.initialRound rnd cfg (Fl.initialPop rnd cfg unit k) i =
      fromUnit1 rnd (unit k i) (cfg.lb i) (cfg.ub i)) := by
  have hin : ∀ i ∈ cfg.intVar, cfg.lb i ≤ Fl.initialPop rnd cfg unit k i ∧ Fl.initialPop rnd cfg unit k i ≤ cfg.ub i := by
    intro i hi
    rw [initialPop_eq]
    exact ⟨C92_lower hr (hc.box.dlb i) (hc.box.lt i) (hu k i).1,
      (C92_upper hr (hc.box.dub i) (hc.box.lt i) (hc.width i hi)).2 _ (hu k i).2⟩
  rw [Fl.initialRound_eq rnd hc.ok hin]
  have hpos : 0 ≤ (2 : ℝ) ^ (-52 : ℤ) * (|cfg.ub i| + (cfg.ub i - cfg.lb i)) :=
    mul_nonneg (two_zpow_pos _).le (by have := abs_nonneg (cfg.ub i); have := hc.box.lt i; linarith)
  by_cases hi : i ∈ cfg.intVar
  · obtain ⟨l, hl⟩ := hc.lbInt i hi
    obtain ⟨u, hu'⟩ := hc.ubInt i hi
    have h1 := hin i hi
    have h2 : cfg.lb i ≤ (rint (Fl.initialPop rnd cfg unit k i) : ℝ) := by
      rw [hl] at h1 ⊢; exact_mod_cast le_rint h1.1
    have h3 : (rint (Fl.initialPop rnd cfg unit k i) : ℝ) ≤ cfg.ub i := by
      rw [hu'] at h1 ⊢; exact_mod_cast rint_le h1.2
    simp only [roundCols, hi, if_true]
    exact ⟨h2, by linarith, fun _ => h3, fun _ => ⟨_, rfl⟩, fun h => absurd trivial h⟩
  · simp only [roundCols, hi, if_false]
    rw [initialPop_eq]
    refine ⟨C92_lower hr (hc.box.dlb i) (hc.box.lt i) (hu k i).1,
      C92_overshoot hr (hc.box.dlb i) (hc.box.dub i) (hc.box.lt i) (hu k i).2, ?_, fun h => absurd h (by simp), fun _ => rfl⟩
    rintro (h | h | h)
    · exact absurd h (by simp)
    · exact (C92_upper hr (hc.box.dub i) (hc.box.lt i) h).2 _ (hu k i).2
    · exact C92_open hr (hc.box.dlb i) (hc.box.dub i) (hc.box.lt i) h.1 h.2

/-- Whatever the arithmetic rounds to and whatever is drawn: every individual that is evaluated after the initial
population, and is not an individual of the initial population, is in the box and integer-feasible. -/
theorem C140_generations (rnd : ℝ → ℝ) {cfg : GAConfig d} (hle : ∀ i, cfg.lb i ≤ cfg.ub i)
    (hl : IntegerOn cfg.intVar cfg.lb) (hu : IntegerOn cfg.intVar cfg.ub) (f : Pt d → α) (unit : Pop d h)
    (rs : List (Draws d h)) :
    ∀ x ∈ (Fl.optimize rnd cfg f unit rs).evaluated,
      (InBox cfg.lb cfg.ub x ∧ IntegerOn cfg.intVar x) ∨ x ∈ (Fl.optimize rnd cfg f unit []).evaluated := by
  have ok : cfg.Ok := ⟨hle, hl, hu⟩
  refine Fl.optimizeFrom_all rnd ok f _ rs (fun x => (InBox cfg.lb cfg.ub x ∧ IntegerOn cfg.intVar x) ∨
    x ∈ (Fl.optimize rnd cfg f unit []).evaluated) (fun k => .inr ?_) fun x h1 h2 => .inl ⟨h1, h2⟩
  simp only [Fl.optimize, Fl.optimizeFrom, List.foldl_nil, Fl.gaInit, evaluate, List.nil_append]
  exact List.mem_ofFn.mpr ⟨k, rfl⟩

/-- Everything evaluated, and the returned individual, respects the lower bounds, and the upper bounds of the integer
variables and of the variables whose range `ub - lb` is a double (C92_widths); integer variables are integers.  For every
rounding to nearest, objective, sample of the unit cube, draws and number of generations. -/
theorem C140_box_partial (hr : Nearest rnd) {cfg : GAConfig d} (hc : DoubleGA cfg) (f : Pt d → α) (unit : Pop d h)
    (hu : UnitPop unit) (rs : List (Draws d h)) :
    ∀ x, x ∈ (Fl.optimize rnd cfg f unit rs).evaluated ∨ x = (Fl.optimize rnd cfg f unit rs).best →
      (∀ i, cfg.lb i ≤ x i) ∧ (∀ i, i ∈ cfg.intVar ∨ IsDouble (cfg.ub i - cfg.lb i) → x i ≤ cfg.ub i) ∧
      IntegerOn cfg.intVar x := by
  have key := Fl.optimizeFrom_all rnd hc.ok f (Fl.initialPop rnd cfg unit) rs (fun x => (∀ i, cfg.lb i ≤ x i) ∧
      (∀ i, i ∈ cfg.intVar ∨ IsDouble (cfg.ub i - cfg.lb i) → x i ≤ cfg.ub i) ∧ IntegerOn cfg.intVar x)
    (fun k => ⟨fun i => (ga_start hr hc hu k i).1, fun i h => (ga_start hr hc hu k i).2.2.1 (h.imp_right .inl),
      fun i hi => (ga_start hr hc hu k i).2.2.2.1 hi⟩)
    (fun x h1 h2 => ⟨fun i => (h1 i).1, fun i _ => (h1 i).2, h2⟩)
  rintro x (hx | rfl)
  · exact key x hx
  · exact key _ (Fl.optimizeFrom_elite rnd cfg f (Fl.initialPop rnd cfg unit) rs).bestMem

/-- In every box with double bounds an upper bound is exceeded by at most a rounding error. -/
theorem C140_overshoot (hr : Nearest rnd) {cfg : GAConfig d} (hc : DoubleGA cfg) (f : Pt d → α) (unit : Pop d h)
    (hu : UnitPop unit) (rs : List (Draws d h)) :
    ∀ x, x ∈ (Fl.optimize rnd cfg f unit rs).evaluated ∨ x = (Fl.optimize rnd cfg f unit rs).best →
      ∀ i, x i ≤ cfg.ub i + (2 : ℝ) ^ (-52 : ℤ) * (|cfg.ub i| + (cfg.ub i - cfg.lb i)) := by
  have hpos : ∀ i, 0 ≤ (2 : ℝ) ^ (-52 : ℤ) * (|cfg.ub i| + (cfg.ub i - cfg.lb i)) := fun i =>
    mul_nonneg (two_zpow_pos _).le (by have := abs_nonneg (cfg.ub i); have := hc.box.lt i; linarith)
  have key := Fl.optimizeFrom_all rnd hc.ok f (Fl.initialPop rnd cfg unit) rs
    (fun x => ∀ i, x i ≤ cfg.ub i + (2 : ℝ) ^ (-52 : ℤ) * (|cfg.ub i| + (cfg.ub i - cfg.lb i)))
    (fun k i => (ga_start hr hc hu k i).2.1) (fun x h1 _ i => by have := (h1 i).2; have := hpos i; linarith)
  rintro x (hx | rfl)
  · exact key x hx
  · exact key _ (Fl.optimizeFrom_elite rnd cfg f (Fl.initialPop rnd cfg unit) rs).bestMem

/-- With the start "Random" (a sample of doubles in `[0, 1)`) everything is feasible in every box with double bounds. -/
theorem C140_random (hr : Nearest rnd) {cfg : GAConfig d} (hc : DoubleGA cfg) (f : Pt d → α) (unit : Pop d h)
    (hu : ∀ k i, IsDouble (unit k i) ∧ 0 ≤ unit k i ∧ unit k i < 1) (rs : List (Draws d h)) :
    ∀ x, x ∈ (Fl.optimize rnd cfg f unit rs).evaluated ∨ x = (Fl.optimize rnd cfg f unit rs).best →
      InBox cfg.lb cfg.ub x ∧ IntegerOn cfg.intVar x := by
  have hu' : UnitPop unit := fun k i => ⟨(hu k i).2.1, (hu k i).2.2.le⟩
  have key := Fl.optimizeFrom_all rnd hc.ok f (Fl.initialPop rnd cfg unit) rs
    (fun x => InBox cfg.lb cfg.ub x ∧ IntegerOn cfg.intVar x)
    (fun k => ⟨fun i => ⟨(ga_start hr hc hu' k i).1,
        (ga_start hr hc hu' k i).2.2.1 (.inr (.inr ⟨(hu k i).1, (hu k i).2.2⟩))⟩,
      fun i hi => (ga_start hr hc hu' k i).2.2.2.1 hi⟩)
    (fun x h1 h2 => ⟨h1, h2⟩)
  rintro x (hx | rfl)
  · exact key x hx
  · exact key _ (Fl.optimizeFrom_elite rnd cfg f (Fl.initialPop rnd cfg unit) rs).bestMem

/-- The returned value is the objective at the returned individual, which was evaluated, and no evaluated individual has
a smaller value. -/
theorem C140_elitist (rnd : ℝ → ℝ) (cfg : GAConfig d) (f : Pt d → α) (unit : Pop d h) (rs : List (Draws d h)) :
    (Fl.optimize rnd cfg f unit rs).bestValue = f (Fl.optimize rnd cfg f unit rs).best ∧
    (Fl.optimize rnd cfg f unit rs).best ∈ (Fl.optimize rnd cfg f unit rs).evaluated ∧
    ∀ x ∈ (Fl.optimize rnd cfg f unit rs).evaluated, (Fl.optimize rnd cfg f unit rs).bestValue ≤ f x :=
  let e := Fl.optimizeFrom_elite rnd cfg f (Fl.initialPop rnd cfg unit) rs
  ⟨e.bestVal, e.bestMem, e.le⟩

/-- There are a box with double bounds and an objective for which `optimize` with its default start "SLHD" returns a
point above the upper bound: in every dimension, for every population size, every random choice of the design, all
draws, any number of generations and every rounding to nearest. -/
theorem C140_refuted (d : ℕ) : ∃ (cfg : GAConfig (d + 1)) (f : Pt (d + 1) → ℝ), DoubleGA cfg ∧
    ∀ rnd, Nearest rnd → ∀ h coin σ (rs : List (Draws (d + 1) h)),
      cfg.ub 0 < (Fl.optimize rnd cfg f (Fl.slhd rnd (popSize h) (d + 1) coin σ) rs).best 0 := by
  refine ⟨⟨fun _ => -5, fun _ => u17, []⟩, fun x => -x 0,
    ⟨⟨fun _ => m5_double, fun _ => u17_double, fun _ => m5_lt⟩, by simp [IntegerOn], by simp [IntegerOn], by simp⟩, ?_⟩
  intro rnd hr h coin σ rs
  obtain ⟨k, hk⟩ := (slhd_unit (d := d + 1) hr (n := popSize h) (by unfold popSize; omega) coin σ).2 0
  have hc : DoubleGA (d := d + 1) ⟨fun _ => -5, fun _ => u17, []⟩ :=
    ⟨⟨fun _ => m5_double, fun _ => u17_double, fun _ => m5_lt⟩, by simp [IntegerOn], by simp [IntegerOn], by simp⟩
  have e := Fl.optimizeFrom_elite rnd ⟨fun _ => -5, fun _ => u17, []⟩ (fun x : Pt (d + 1) => -x 0)
    (Fl.initialPop rnd ⟨fun _ => -5, fun _ => u17, []⟩ (Fl.slhd rnd (popSize h) (d + 1) coin σ)) rs
  have hmem : Fl.initialRound rnd ⟨fun _ => -5, fun _ => u17, []⟩
      (Fl.initialPop rnd ⟨fun _ => -5, fun _ => u17, []⟩ (Fl.slhd rnd (popSize h) (d + 1) coin σ) k) ∈
      (Fl.optimizeFrom rnd ⟨fun _ => -5, fun _ => u17, []⟩ (fun x : Pt (d + 1) => -x 0)
    (Fl.initialPop rnd ⟨fun _ => -5, fun _ => u17, []⟩ (Fl.slhd rnd (popSize h) (d + 1) coin σ)) rs).evaluated :=
    Fl.evaluated_init rnd _ _ _ rs k
  have h1 := e.le _ hmem
  rw [e.bestVal, (ga_start hr hc (slhd_unit hr (by unfold popSize; omega) coin σ).1 k 0).2.2.2.2 (by simp), hk] at h1
  have h2 := fromUnit_overshoots hr
  show u17 < _
  unfold Fl.optimize
  linarith

/-- Concrete cases: the box `[-15, 20]` of the Ackley problem with an integer variable; the middle of the unit cube is a
sample of doubles below 1. -/
example : DoubleGA (d := 2) ⟨fun _ => -15, fun _ => 20, [0]⟩ ∧ (∀ i : Fin 2, IsDouble ((20 : ℝ) - -15)) ∧
    (∃ rnd, Nearest rnd) ∧
    ∀ (k : Fin (popSize 1)) (i : Fin 2), IsDouble ((fun _ _ => 1 / 2 : Pop 2 1) k i) ∧ (0 : ℝ) ≤ 1 / 2 ∧ (1 / 2 : ℝ) < 1 := by
  have hi : ∀ m : ℤ, |m| ≤ 2 ^ 53 → IsDouble (m : ℝ) := fun m => isDouble_int
  have hw : IsDouble ((20 : ℝ) - -15) :=
    C92_widths (by simpa using hi 20 (by norm_num)) (.inr (.inr ⟨-15, 20, by norm_num, by norm_num, by norm_num⟩))
  refine ⟨⟨⟨fun _ => by simpa using hi (-15) (by norm_num), fun _ => by simpa using hi 20 (by norm_num), fun _ => by norm_num⟩,
    fun i _ => ⟨-15, by simp⟩, fun i _ => ⟨20, by simp⟩, fun i _ => hw⟩, fun _ => hw, exists_nearest, fun k i => ⟨?_, by norm_num, by norm_num⟩⟩
  have := isDouble_of_le (m := 1) (e := -1) (by norm_num) (by norm_num)
  norm_num at this
  convert this using 1

/-! ## One generation -/

/-- The averaged child is the exact average up to rounding errors. -/
theorem average_close (hr : Nearest rnd) {a p q M : ℝ} (ha : IsDouble a) (h0 : 0 ≤ a) (h1 : a < 1) (hp : |p| ≤ M) (hq : |q| ≤ M) :
    |rnd (rnd (a * p) + rnd (rnd (1 - a) * q)) - (a * p + (1 - a) * q)| ≤ 4 * unitRoundoff * M + 3 * halfTiny := by
  have hu := uro_pos
  have hu' := uro_le
  have ht := tiny_pos
  have hM : 0 ≤ M := (abs_nonneg p).trans hp
  have e1 := hr.err (a * p)
  have e2 := hr.err_sub isDouble_one ha
  have e3 := hr.err (rnd (1 - a) * q)
  have e4 := hr.err_add (hr.double (a * p)) (hr.double (rnd (1 - a) * q))
  change _ ≤ unitRoundoff * _ + halfTiny at e1 e3
  change _ ≤ unitRoundoff * _ at e2 e4
  have hb0 : 0 ≤ rnd (1 - a) := hr.nonneg (by linarith)
  rw [abs_of_pos (by linarith : 0 < 1 - a)] at e2
  have ap : |a * p| ≤ a * M := by rw [abs_mul, abs_of_nonneg h0]; exact mul_le_mul_of_nonneg_left hp h0
  have bq : |rnd (1 - a) * q| ≤ rnd (1 - a) * M := by
    rw [abs_mul, abs_of_nonneg hb0]; exact mul_le_mul_of_nonneg_left hq hb0
  have hb1 : rnd (1 - a) ≤ (1 + unitRoundoff) * (1 - a) := by have := (abs_le.mp e2).1; nlinarith
  have dq : |rnd (1 - a) * q - (1 - a) * q| ≤ unitRoundoff * (1 - a) * M := by
    rw [← sub_mul, abs_mul, abs_sub_comm]
    exact mul_le_mul e2 hq (abs_nonneg _) (mul_nonneg hu.le (by linarith))
  generalize unitRoundoff = u at *
  generalize halfTiny = t at *
  generalize rnd (1 - a) = b at *
  generalize hx : rnd (a * p) = x at *
  generalize hy : rnd (b * q) = y at *
  have f1 : |x - a * p| ≤ u * (a * M) + t := by
    rw [abs_sub_comm]; exact e1.trans (by have := mul_le_mul_of_nonneg_left ap hu.le; linarith)
  have bM : b * M ≤ (1 + u) * (1 - a) * M := mul_le_mul_of_nonneg_right hb1 hM
  have f2 : |y - b * q| ≤ u * ((1 + u) * (1 - a) * M) + t := by
    rw [abs_sub_comm]; exact e3.trans (by have := mul_le_mul_of_nonneg_left (bq.trans bM) hu.le; linarith)
  have f3 : |x + y - (a * p + (1 - a) * q)| ≤ u * (a * M) + t + (u * ((1 + u) * (1 - a) * M) + t) + u * (1 - a) * M := by
    have : x + y - (a * p + (1 - a) * q) = (x - a * p) + (y - b * q) + (b * q - (1 - a) * q) := by ring
    rw [this]
    exact (abs_add_three _ _ _).trans (by linarith)
  have f4 : |a * p + (1 - a) * q| ≤ M := by
    have h3 : |(1 - a) * q| ≤ (1 - a) * M := by
      rw [abs_mul, abs_of_pos (by linarith : 0 < 1 - a)]; exact mul_le_mul_of_nonneg_left hq (by linarith)
    exact (abs_add_le _ _).trans (by linarith)
  have f5 : |x + y| ≤ M + (u * (a * M) + t + (u * ((1 + u) * (1 - a) * M) + t) + u * (1 - a) * M) := by
    have : x + y = (a * p + (1 - a) * q) + (x + y - (a * p + (1 - a) * q)) := by ring
    rw [this]
    exact (abs_add_le _ _).trans (by linarith)
  have f6 : |rnd (x + y) - (a * p + (1 - a) * q)| ≤ u * |x + y| +
      (u * (a * M) + t + (u * ((1 + u) * (1 - a) * M) + t) + u * (1 - a) * M) := by
    have : rnd (x + y) - (a * p + (1 - a) * q) = -(x + y - rnd (x + y)) + (x + y - (a * p + (1 - a) * q)) := by ring
    rw [this]
    refine (abs_add_le _ _).trans ?_
    rw [abs_neg]
    linarith
  have f7 := mul_le_mul_of_nonneg_left f5 hu.le
  refine f6.trans ?_
  have g1 : 0 ≤ u * M := mul_nonneg hu.le hM
  have g2 : u * M * a ≥ 0 := mul_nonneg g1 h0
  have g3 : u * (u * M) ≤ 1 / 1000000 * (u * M) := mul_le_mul_of_nonneg_right hu' g1
  have g4 : u * (u * M * a) ≤ 1 / 1000000 * (u * M * a) := mul_le_mul_of_nonneg_right hu' g2
  have g5 : u * (u * (u * M)) ≤ 1 / 1000000 * (u * (u * M)) := mul_le_mul_of_nonneg_right hu' (mul_nonneg hu.le g1)
  have g6 : 0 ≤ u * (u * (u * M * a)) := by positivity
  have g7 : u * t ≤ 1 / 1000000 * t := mul_le_mul_of_nonneg_right hu' ht.le
  have g8 : u * M * a ≤ u * M := by nlinarith
  nlinarith

/-- The step of a mutation is the exact one up to rounding errors. -/
theorem step_close (hr : Nearest rnd) {c lb ub z : ℝ} (hc : IsDouble c) (hl : IsDouble lb) (hu : IsDouble ub) (hlu : lb < ub) :
    |rnd (c + rnd (rnd (z * rnd (rnd 0.2 * rnd (ub - lb))) * 1)) - (c + 0.2 * (ub - lb) * z)| ≤
      unitRoundoff * |c| + 10 * unitRoundoff * (0.2 * (ub - lb) * |z|) + 3 * (|z| + 1) * halfTiny := by
  have hu0 := uro_pos
  have hu' := uro_le
  have ht := tiny_pos
  have ht' := tiny_le
  have e0 := hr.err 0.2
  have e1 := hr.err_sub hu hl
  have e2 := hr.err (rnd 0.2 * rnd (ub - lb))
  have e3 := hr.err (z * rnd (rnd 0.2 * rnd (ub - lb)))
  have e4 := hr.err_add hc (hr.double (z * rnd (rnd 0.2 * rnd (ub - lb))))
  have hs0 : 0 ≤ rnd 0.2 := hr.nonneg (by norm_num)
  have hw0 : 0 ≤ rnd (ub - lb) := hr.nonneg (by linarith)
  have hsw : 0 ≤ rnd (rnd 0.2 * rnd (ub - lb)) := hr.nonneg (mul_nonneg hs0 hw0)
  rw [mul_one, hr.exact (hr.double _)]
  change _ ≤ unitRoundoff * _ + halfTiny at e0 e2 e3
  change _ ≤ unitRoundoff * _ at e1 e4
  rw [abs_of_pos (by norm_num : (0 : ℝ) < 0.2)] at e0
  rw [abs_of_pos (by linarith : 0 < ub - lb)] at e1
  rw [abs_of_nonneg (mul_nonneg hs0 hw0)] at e2
  have hz := abs_nonneg z
  generalize unitRoundoff = u at *
  generalize halfTiny = t at *
  generalize hw : ub - lb = w at *
  have hwp : 0 < w := by rw [← hw]; linarith
  generalize rnd w = W at *
  generalize rnd 0.2 = S at *
  generalize rnd (S * W) = V at *
  generalize hT : rnd (z * V) = T at *
  rw [abs_le] at e0 e1 e2
  -- the scale
  have a1 : W ≤ (1 + u) * w := by nlinarith
  have a2 : (1 - u) * w ≤ W := by nlinarith
  have b1 : S ≤ 0.2 * (1 + 2 * u) := by nlinarith
  have b2 : 0.2 * (1 - 2 * u) ≤ S := by nlinarith
  have uw : 0 < u * w := mul_pos hu0 hwp
  have uuw : u * (u * w) ≤ 1 / 1000000 * (u * w) := mul_le_mul_of_nonneg_right hu' uw.le
  have c1 : S * W ≤ 0.2 * w * (1 + 4 * u) := by
    have := mul_le_mul b1 a1 hw0 (by nlinarith)
    nlinarith
  have c2 : 0.2 * w * (1 - 4 * u) ≤ S * W := by
    have := mul_le_mul b2 a2 (by nlinarith) hs0
    nlinarith
  have k1 : |V - 0.2 * w| ≤ 0.2 * w * (6 * u) + t := by
    rw [abs_le]
    have := mul_le_mul_of_nonneg_left c1 hu0.le
    constructor <;> nlinarith
  have k2 : |z * V - 0.2 * w * z| ≤ |z| * (0.2 * w * (6 * u) + t) := by
    have : z * V - 0.2 * w * z = z * (V - 0.2 * w) := by ring
    rw [this, abs_mul]
    exact mul_le_mul_of_nonneg_left k1 hz
  have k3 : |z * V| ≤ |z| * (0.2 * w * (1 + 6 * u) + t) := by
    rw [abs_mul, abs_of_nonneg hsw]
    exact mul_le_mul_of_nonneg_left (by have := (abs_le.mp k1).2; linarith) hz
  have k4 : |T - 0.2 * w * z| ≤ u * (|z| * (0.2 * w * (1 + 6 * u) + t)) + t + |z| * (0.2 * w * (6 * u) + t) := by
    have : T - 0.2 * w * z = -(z * V - T) + (z * V - 0.2 * w * z) := by ring
    rw [this]
    refine (abs_add_le _ _).trans ?_
    rw [abs_neg]
    have := mul_le_mul_of_nonneg_left k3 hu0.le
    linarith
  obtain ⟨D, hD⟩ : ∃ D, D = u * (|z| * (0.2 * w * (1 + 6 * u) + t)) + t + |z| * (0.2 * w * (6 * u) + t) := ⟨_, rfl⟩
  rw [← hD] at k4
  have k5 : |c + T| ≤ |c| + 0.2 * w * |z| + D := by
    have : c + T = c + 0.2 * w * z + (T - 0.2 * w * z) := by ring
    rw [this]
    refine (abs_add_three _ _ _).trans ?_
    rw [abs_mul (0.2 * w) z, abs_of_nonneg (by linarith : 0 ≤ 0.2 * w)]
    linarith
  have k6 : |rnd (c + T) - (c + 0.2 * w * z)| ≤ u * (|c| + 0.2 * w * |z| + D) + D := by
    have : rnd (c + T) - (c + 0.2 * w * z) = -(c + T - rnd (c + T)) + (T - 0.2 * w * z) := by ring
    rw [this]
    refine (abs_add_le _ _).trans ?_
    rw [abs_neg]
    have := mul_le_mul_of_nonneg_left k5 hu0.le
    linarith
  refine k6.trans ?_
  -- collect
  have gz : 0 ≤ w * |z| := mul_nonneg hwp.le hz
  have hD0 : D = u * (0.2 * (w * |z|)) * (7 + 6 * u) + (u + 1) * (|z| * t) + t := by rw [hD]; ring
  have zt : 0 ≤ |z| * t := mul_nonneg hz ht.le
  have g0 : 0 ≤ u * (0.2 * (w * |z|)) := by positivity
  have uzt : u * (|z| * t) ≤ 1 / 1000000 * (|z| * t) := mul_le_mul_of_nonneg_right hu' zt
  have ug : u * (u * (0.2 * (w * |z|))) ≤ 1 / 1000000 * (u * (0.2 * (w * |z|))) := mul_le_mul_of_nonneg_right hu' g0
  have hD1 : D ≤ 8 * (u * (0.2 * (w * |z|))) + 2 * (|z| * t) + t := by
    have : u * (0.2 * (w * |z|)) * (7 + 6 * u) = 7 * (u * (0.2 * (w * |z|))) + 6 * (u * (u * (0.2 * (w * |z|)))) := by ring
    rw [hD0, this, add_mul]
    linarith
  have hD2 : 0 ≤ D := (abs_nonneg _).trans k4
  have uD : u * D ≤ 1 / 1000000 * D := mul_le_mul_of_nonneg_right hu' hD2
  have r1 : u * (|c| + 0.2 * w * |z| + D) = u * |c| + u * (0.2 * (w * |z|)) + u * D := by ring
  have r2 : 10 * u * (0.2 * w * |z|) = 10 * (u * (0.2 * (w * |z|))) := by ring
  have r3 : 3 * (|z| + 1) * t = 3 * (|z| * t) + 3 * t := by ring
  rw [r1, r2, r3]
  linarith

/-- The draws of a generation: doubles in `[0, 1)` for the averages. -/
def DoubleDraws (r : Draws d h) : Prop := ∀ j, IsDouble (r.alpha j) ∧ 0 ≤ r.alpha j ∧ r.alpha j < 1

theorem isDouble_clip {a b x : ℝ} (ha : IsDouble a) (hb : IsDouble b) (hx : IsDouble x) : IsDouble (min b (max a x)) := by
  rcases min_choice b (max a x) with e | e <;> rw [e]
  · exact hb
  · rcases max_choice a x with e | e <;> rw [e] <;> assumption

/-- `np.round` of a double is a double. -/
theorem isDouble_rint {x : ℝ} (hx : IsDouble x) : IsDouble (rint x : ℝ) := by
  obtain ⟨m, e, hm, he, rfl⟩ := hx
  rcases le_or_gt 0 e with h0 | h0
  · obtain ⟨k, rfl⟩ := Int.eq_ofNat_of_zero_le h0
    have e1 : (m : ℝ) * (2 : ℝ) ^ (k : ℤ) = ((m * 2 ^ k : ℤ) : ℝ) := by push_cast; rfl
    have h2 : IsDouble ((m : ℝ) * (2 : ℝ) ^ (k : ℤ)) := ⟨m, k, hm, he, rfl⟩
    rw [e1] at h2 ⊢
    rw [rint_intCast]
    exact h2
  · refine isDouble_int ?_
    have h1 : (2 : ℝ) ^ e ≤ 1 / 2 := by
      have := zpow_le_zpow_right₀ (by norm_num : (1 : ℝ) ≤ 2) (by omega : e ≤ -1)
      norm_num at this ⊢
      exact this
    have h2 := two_zpow_pos e
    have hm' : |(m : ℝ)| ≤ 2 ^ 53 := by exact_mod_cast hm.le
    have h3 : |(m : ℝ) * (2 : ℝ) ^ e| ≤ 2 ^ 52 := by
      rw [abs_mul, abs_of_pos h2]
      nlinarith [abs_nonneg (m : ℝ)]
    have h4 := abs_sub_rint_le ((m : ℝ) * (2 : ℝ) ^ e)
    have h5 : |(rint ((m : ℝ) * (2 : ℝ) ^ e) : ℝ)| ≤ 2 ^ 53 := by
      rw [abs_le] at h3 h4 ⊢
      constructor <;> linarith [h3.1, h3.2, h4.1, h4.2]
    exact_mod_cast h5

/-- The populations, and all individuals evaluated and returned, consist of doubles. -/
theorem ga_doubles (hr : Nearest rnd) {cfg : GAConfig d} (hc : DoubleGA cfg) (f : Pt d → α) (unit : Pop d h)
    (rs : List (Draws d h)) : (∀ k i, IsDouble ((Fl.optimize rnd cfg f unit rs).pop k i)) ∧
      ∀ i, IsDouble ((Fl.optimize rnd cfg f unit rs).best i) := by
  unfold Fl.optimize Fl.optimizeFrom
  have h0 : (∀ k i, IsDouble ((Fl.gaInit rnd cfg f (Fl.initialPop rnd cfg unit)).pop k i)) ∧
      ∀ i, IsDouble ((Fl.gaInit rnd cfg f (Fl.initialPop rnd cfg unit)).best i) := by
    refine ⟨fun k i => hr.double _, ?_⟩
    suffices H : ∀ k i, IsDouble (Fl.initialRound rnd cfg (Fl.initialPop rnd cfg unit k) i) from fun i => H _ i
    intro k
    unfold Fl.initialRound
    split
    · have : ∀ (l : List (Fin d)) (x : Pt d), (∀ i, IsDouble (x i)) → ∀ i, IsDouble (l.foldl (Fl.nudgeCol rnd cfg) x i) := by
        intro l
        induction l with
        | nil => exact fun x hx => hx
        | cons j l ih =>
          intro x hx
          refine ih _ ?_
          have hup : ∀ (x : Pt d) v, (∀ i, IsDouble (x i)) → IsDouble v → ∀ i, IsDouble (Function.update x j v i) := by
            intro x v hx hv i
            by_cases hij : i = j
            · subst hij; rwa [Function.update_self]
            · rw [Function.update_of_ne hij]; exact hx i
          have h1 : ∀ i, IsDouble ((if x j < cfg.lb j then Function.update x j (rnd (x j + 1)) else x) i) := by
            split
            · exact hup x _ hx (hr.double _)
            · exact hx
          have h2 : ∀ x' : Pt d, (∀ i, IsDouble (x' i)) →
              ∀ i, IsDouble ((if x' j > cfg.ub j then Function.update x' j (rnd (x' j - 1)) else x') i) := by
            intro x' hx'
            split
            · exact hup _ _ hx' (hr.double _)
            · exact hx'
          exact h2 _ h1
      refine this _ _ fun i => ?_
      unfold roundCols
      split
      · exact isDouble_rint (hr.double _)
      · exact hr.double _
    · exact fun i => hr.double _
  generalize Fl.gaInit rnd cfg f (Fl.initialPop rnd cfg unit) = s at h0
  induction rs generalizing s with
  | nil => exact h0
  | cons r rs ih =>
    refine ih _ ?_
    have hm : ∀ k i, IsDouble (Fl.mutation rnd cfg (Fl.crossover rnd s.pop (winner s.vals r.competitors) r) r k i) :=
      fun k i => isDouble_clip (hc.box.dlb i) (hc.box.dub i) (hr.double _)
    have he : ∀ k i, IsDouble ((if k = (0 : Fin (popSize h)) then s.best else roundVars (Fl.mutation rnd cfg
        (Fl.crossover rnd s.pop (winner s.vals r.competitors) r) r k) cfg.intVar cfg.lb cfg.ub) i) := by
      intro k i
      split
      · exact h0.2 i
      · rw [roundVars_apply]
        split
        · rw [clip, min_comm, max_comm]
          exact isDouble_clip (hc.box.dlb i) (hc.box.dub i) (isDouble_rint (hm k i))
        · exact hm k i
    constructor
    · intro k i
      simp only [Fl.generation, evaluate]
      split
      · exact hm k i
      · exact he k i
    · exact fun i => he _ i

/-- One more generation in double precision: the parents win their tournaments exactly; a child is the average of its two
parents, up to `2^-51` of the larger parent, or a parent itself; the mutation is the normally distributed step of standard
deviation `0.2 * (ub - lb)`, up to a relative error of the step and a rounding error of the child, followed by the exact
projection to the box; a coordinate that is not mutated is only projected; the rounded individuals are evaluated and the
first is replaced by the best one known.  For all objectives, draws and histories. -/
theorem C140_generation (hr : Nearest rnd) {cfg : GAConfig d} (hc : DoubleGA cfg) (f : Pt d → α) (unit : Pop d h)
    (rs : List (Draws d h)) (r : Draws d h) (hd : DoubleDraws r) :
    let s := Fl.optimize rnd cfg f unit rs
    let s' := Fl.optimize rnd cfg f unit (rs ++ [r])
    ∃ parent child mutant : Pop d h,
      (∀ k, ∃ p, WinsTournament s.vals (r.competitors k) p ∧ parent k = s.pop p) ∧
      (∀ j : Fin (h + 1),
        (r.cross j < rnd 0.9 → ∀ i M, |parent (loHalf j) i| ≤ M → |parent (hiHalf j) i| ≤ M →
          |child (loHalf j) i - (r.alpha j * parent (loHalf j) i + (1 - r.alpha j) * parent (hiHalf j) i)| ≤
            4 * unitRoundoff * M + 3 * halfTiny ∧
          |child (hiHalf j) i - (r.alpha j * parent (hiHalf j) i + (1 - r.alpha j) * parent (loHalf j) i)| ≤
            4 * unitRoundoff * M + 3 * halfTiny) ∧
        (rnd 0.9 ≤ r.cross j → child (loHalf j) = parent (loHalf j) ∧ child (hiHalf j) = parent (hiHalf j))) ∧
      (∀ k i, (rnd (1 / d) ≤ r.mutate k i → mutant k i = clip (cfg.lb i) (cfg.ub i) (child k i)) ∧
        (r.mutate k i < rnd (1 / d) → ∃ y, mutant k i = clip (cfg.lb i) (cfg.ub i) y ∧
          |y - (child k i + 0.2 * (cfg.ub i - cfg.lb i) * r.normal k i)| ≤ unitRoundoff * |child k i| +
            10 * unitRoundoff * (0.2 * (cfg.ub i - cfg.lb i) * |r.normal k i|) + 3 * (|r.normal k i| + 1) * halfTiny)) ∧
      (∀ k, s'.pop k = if cfg.intVar = [] ∧ k = 0 then s.best else mutant k) ∧
      s'.evaluated = s.evaluated ++ List.ofFn fun k =>
        if k = 0 then s.best else roundVars (mutant k) cfg.intVar cfg.lb cfg.ub := by
  intro s s'
  have hs' : s' = Fl.generation rnd cfg f s r := by
    simp only [s', s, Fl.optimize, Fl.optimizeFrom, List.foldl_append, List.foldl_cons, List.foldl_nil]
  have hdp : ∀ k i, IsDouble (s.pop k i) := (ga_doubles hr hc f unit rs).1
  set child := Fl.crossover rnd s.pop (winner s.vals r.competitors) r with hchild
  have hlo : ∀ j : Fin (h + 1), (loHalf j : Fin (popSize h)).val < h + 1 := fun j => j.2
  have hhi : ∀ j : Fin (h + 1), ¬ (hiHalf j : Fin (popSize h)).val < h + 1 := fun j => by
    simp only [hiHalf]; omega
  have hx : ∀ k i, IsDouble (child k i) := by
    intro k i
    simp only [hchild, Fl.crossover]
    split_ifs
    · exact hr.double _
    · exact hdp _ _
    · exact hr.double _
    · exact hdp _ _
  refine ⟨fun k => s.pop (winner s.vals r.competitors k), child, Fl.mutation rnd cfg child r, fun k => ?_, fun j => ?_,
    fun k i => ?_, fun k => ?_, ?_⟩
  · exact ⟨_, ⟨⟨_, rfl⟩, fun t => argmin_le (m := 4) (fun t => s.vals (r.competitors k t)) t⟩, rfl⟩
  · have hj : ∀ hh, (⟨(hiHalf j : Fin (popSize h)).val - (h + 1), hh⟩ : Fin (h + 1)) = j := by
      intro hh; apply Fin.ext; simp [hiHalf]
    have hj' : ∀ hh, (⟨(loHalf j : Fin (popSize h)).val, hh⟩ : Fin (h + 1)) = j := fun hh => rfl
    constructor
    · intro hcr i M h1 h2
      obtain ⟨ha, ha0, ha1⟩ := hd j
      constructor
      · simp only [hchild, Fl.crossover, dif_pos (hlo j), hj']
        rw [if_pos hcr]
        exact average_close hr ha ha0 ha1 h1 h2
      · simp only [hchild, Fl.crossover, dif_neg (hhi j), hj]
        rw [if_pos hcr]
        exact average_close hr ha ha0 ha1 h2 h1
    · intro hcr
      constructor
      · funext i
        simp only [hchild, Fl.crossover, dif_pos (hlo j), hj']
        rw [if_neg (not_lt.mpr hcr)]
      · funext i
        simp only [hchild, Fl.crossover, dif_neg (hhi j), hj]
        rw [if_neg (not_lt.mpr hcr)]
  · constructor
    · intro hmu
      simp only [Fl.mutation]
      rw [if_neg (not_lt.mpr hmu), mul_zero, hr.zero, add_zero, hr.exact (hx k i), clip, min_comm, max_comm]
    · intro hmu
      refine ⟨_, ?_, step_close hr (hx k i) (hc.box.dlb i) (hc.box.dub i) (hc.box.lt i)⟩
      simp only [Fl.mutation]
      rw [if_pos hmu, clip, min_comm, max_comm]
  · rw [hs']
    simp only [Fl.generation, evaluate]
    by_cases hv : cfg.intVar = []
    · have hv' : ¬ cfg.intVar.length > 0 := by simp [hv]
      rw [if_neg hv']
      by_cases hk : k = 0
      · rw [if_pos hk, if_pos ⟨hv, hk⟩]
      · rw [if_neg hk, if_neg fun hh => hk hh.2]
        funext i
        rw [roundVars_apply]
        simp only [hv, List.not_mem_nil, if_false]
        rfl
    · have hv' : cfg.intVar.length > 0 := List.length_pos_iff.mpr hv
      rw [if_pos hv', if_neg fun hh => hv hh.1]
  · rw [hs']
    rfl

/-- Draws that meet the hypothesis. -/
example : DoubleDraws (⟨fun _ _ => 0, fun _ => 1 / 2, fun _ => 1 / 2, fun _ _ => 1, fun _ _ => 1 / 4⟩ : Draws 2 1) := by
  refine fun j => ⟨?_, by norm_num, by norm_num⟩
  have := isDouble_of_le (m := 1) (e := -1) (by norm_num) (by norm_num)
  norm_num at this
  convert this using 1

end Verif.Props
