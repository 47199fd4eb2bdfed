import Verif.Float.Step
import Mathlib.Data.List.Induction

/-! # Property C136: the step control in double precision -/

namespace Verif.Props

open Verif.Fl Verif.Strategy

variable {rnd : ℝ → ℝ} {ftol mftol : Int}

/-! ## Specification -/

/-- The attributes after `adjust_step` has been called with the values `vs`, in exact arithmetic. -/
def exactRun (ftol mftol : Int) (z : Srbf) (vs : List Val) : Srbf := vs.foldl (fun z v => (z.adjust ftol mftol v).1) z

/-- The same in double precision. -/
noncomputable def doubleRun (rnd : ℝ → ℝ) (ftol mftol : Int) (vs : List ℝ) : StepState :=
  vs.foldl (fun z v => (z.adjust rnd ftol mftol v).1) (stepStart rnd)

/-- No value is within rounding error of the level (0.1 % below the best value) that decides between success and failure. -/
def Clear (ftol mftol : Int) (z0 : Srbf) (vs : List Val) : Prop :=
  ∀ (l : List Val) (v : Val) (m : List Val), vs = l ++ v :: m → ∀ b : Val, (exactRun ftol mftol z0 l).fbest = some b →
    (2 : ℝ) ^ (-52 : ℤ) * |(b : ℝ)| + (2 : ℝ) ^ (-1074 : ℤ) < |(v : ℝ) - ((b : ℝ) - 1 / 1000 * |(b : ℝ)|)|

/-! ## The radius -/

theorem p53 : (2 : ℝ) ^ (-53 : ℤ) = 1 / 9007199254740992 := by norm_num

theorem p52 : (2 : ℝ) ^ (-52 : ℤ) = 1 / 4503599627370496 := by norm_num

theorem p61 : (2 : ℝ) ^ (-61 : ℤ) = 1 / 2305843009213693952 := by norm_num

theorem p63 : (2 : ℝ) ^ (-63 : ℤ) = 1 / 9223372036854775808 := by norm_num


theorem radMax_bounds (h : Nearest rnd) : (2 : ℝ) ^ (-3 : ℤ) ≤ radMax rnd ∧ radMax rnd < (2 : ℝ) ^ (-2 : ℤ) := by
  have e := h.err (2 / 10)
  have h1 : IsDouble ((2 : ℝ) ^ (-3 : ℤ)) := by simpa using isDouble_of_le (m := 1) (e := -3) (by norm_num) (by norm_num)
  refine ⟨h.ge h1 (by norm_num), ?_⟩
  unfold radMax
  have hs : (2 : ℝ) ^ (-1075 : ℤ) ≤ 2 ^ (-10 : ℤ) := zpow_le_zpow_right₀ (by norm_num) (by norm_num)
  have h2 := (abs_le.mp e).1
  have h3 : (2 : ℝ) ^ (-53 : ℤ) * |2 / 10| ≤ 1 / 1000 := by norm_num [abs_of_pos]
  have h4 : (2 : ℝ) ^ (-10 : ℤ) ≤ 1 / 1000 := by norm_num
  have h5 : (2 : ℝ) ^ (-2 : ℤ) = 1 / 4 := by norm_num
  rw [h5]
  generalize (2 : ℝ) ^ (-1075 : ℤ) = t at *
  rw [p53] at *
  generalize (2 : ℝ) ^ (-10 : ℤ) = t' at *
  linarith

/-- Halving is exact. -/
theorem radius_double (h : Nearest rnd) {k : ℕ} (hk : k ≤ 1000) : IsDouble (radMax rnd / 2 ^ k) := by
  obtain ⟨h1, h2⟩ := radMax_bounds h
  have hpos : 0 < radMax rnd := (two_zpow_pos _).trans_le h1
  obtain ⟨m, hm⟩ := (h.double (2 / 10)).mult_of_ge (k := -3) (by show _ ≤ |radMax rnd|; rw [abs_of_pos hpos]; exact h1)
  rw [max_eq_left (by norm_num)] at hm
  have hm' : radMax rnd = (m : ℝ) * (2 : ℝ) ^ (-55 : ℤ) := by
    have e : (-3 - 52 : ℤ) = -55 := by norm_num
    rw [e] at hm
    exact hm
  rw [hm'] at h2 hpos
  have hmu : (m : ℝ) < 2 ^ 53 := by
    have e : (2 : ℝ) ^ (-2 : ℤ) = 2 ^ 53 * 2 ^ (-55 : ℤ) := by norm_num
    rw [e] at h2
    exact lt_of_mul_lt_mul_right h2 (two_zpow_pos _).le
  have hml : (0 : ℝ) < m := by
    by_contra hc
    push Not at hc
    exact absurd hpos (not_lt.mpr (mul_nonpos_of_nonpos_of_nonneg hc (two_zpow_pos _).le))
  refine ⟨m, -55 - k, ?_, by omega, ?_⟩
  · rw [abs_of_pos (by exact_mod_cast hml)]
    exact_mod_cast hmu
  · rw [hm', zpow_sub₀ (by norm_num), zpow_natCast, mul_div_assoc]

theorem radMin_eq (h : Nearest rnd) : radMin rnd = radMax rnd / 2 ^ 6 := by
  unfold radMin
  have e : rnd (2 / 10) * (1 / 2) ^ 6 = radMax rnd / 2 ^ 6 := by unfold radMax; ring
  rw [e, h.exact (radius_double h (by norm_num))]

/-! ## The threshold -/

theorem threshold_err (h : Nearest rnd) {b : ℝ} (hb : IsDouble b) :
    |threshold rnd b - (b - 1 / 1000 * |b|)| ≤ (2 : ℝ) ^ (-52 : ℤ) * |b| + (2 : ℝ) ^ (-1074 : ℤ) := by
  have hb0 := abs_nonneg b
  set c := rnd (1 / 1000) with hc
  set p := rnd (c * |b|) with hp
  have e1 := h.err (1 / 1000)
  rw [← hc, abs_of_pos (by norm_num : (0 : ℝ) < 1 / 1000)] at e1
  have ht2 : (2 : ℝ) ^ (-1074 : ℤ) = 2 * 2 ^ (-1075 : ℤ) := by
    rw [show (-1074 : ℤ) = 1 + -1075 by norm_num, zpow_add₀ (by norm_num), zpow_one]
  have htp := two_zpow_pos (-1075)
  rw [ht2]
  have ht : (2 : ℝ) ^ (-1075 : ℤ) ≤ 2 ^ (-63 : ℤ) := zpow_le_zpow_right₀ (by norm_num) (by norm_num)
  have hc' : |1 / 1000 - c| ≤ (2 : ℝ) ^ (-61 : ℤ) := by
    refine e1.trans ?_
    clear ht2
    generalize (2 : ℝ) ^ (-1075 : ℤ) = τ at *
    rw [p63] at ht
    rw [p53, p61]
    linarith
  have hc0 : 0 ≤ c := h.nonneg (by norm_num)
  have hc1 : c ≤ 1 / 500 := by
    have := (abs_le.mp hc').1
    rw [p61] at this
    linarith
  have e2 := h.err (c * |b|)
  rw [← hp, abs_of_nonneg (mul_nonneg hc0 hb0)] at e2
  clear ht2
  generalize (2 : ℝ) ^ (-1075 : ℤ) = τ at *
  have e3 := h.err_sub hb (h.double (c * |b|))
  rw [← hp] at e3
  rw [p52]
  rw [p61] at hc'
  rw [p53] at e2 e3
  have hcb : c * |b| ≤ 1 / 500 * |b| := mul_le_mul_of_nonneg_right hc1 hb0
  have hp0 : 0 ≤ p := h.nonneg (mul_nonneg hc0 hb0)
  have a2 := abs_le.mp e2
  have hpu : p ≤ 1 / 250 * |b| + τ := by
    have : (1 / 9007199254740992 : ℝ) * (c * |b|) ≤ 1 / 500 * |b| := by
      have h1 : (1 / 9007199254740992 : ℝ) ≤ 1 := by norm_num
      calc (1 / 9007199254740992 : ℝ) * (c * |b|) ≤ 1 * (c * |b|) := mul_le_mul_of_nonneg_right h1 (mul_nonneg hc0 hb0)
        _ ≤ 1 / 500 * |b| := by linarith
    linarith [a2.1]
  have hbp : |b - p| ≤ |b| + p := by
    have := abs_sub b p
    rwa [abs_of_nonneg hp0] at this
  have hT : threshold rnd b = rnd (b - p) := rfl
  have e4 : |(c * |b| - 1 / 1000 * |b|)| ≤ (1 / 2305843009213693952 : ℝ) * |b| := by
    rw [← sub_mul, abs_mul, abs_abs, abs_sub_comm]
    exact mul_le_mul_of_nonneg_right hc' hb0
  have split : threshold rnd b - (b - 1 / 1000 * |b|) =
      -(b - p - rnd (b - p)) + (c * |b| - p) - (c * |b| - 1 / 1000 * |b|) := by rw [hT]; ring
  rw [split]
  have t1 := abs_sub (-(b - p - rnd (b - p)) + (c * |b| - p)) (c * |b| - 1 / 1000 * |b|)
  have t2 := abs_add_le (-(b - p - rnd (b - p))) (c * |b| - p)
  rw [abs_neg] at t2
  have e5 : (1 / 9007199254740992 : ℝ) * |b - p| ≤ (1 / 9007199254740992 : ℝ) * (|b| + (1 / 250 * |b| + τ)) :=
    mul_le_mul_of_nonneg_left (hbp.trans (by linarith)) (by norm_num)
  have e6 : (1 / 9007199254740992 : ℝ) * (c * |b|) ≤ (1 / 9007199254740992 : ℝ) * (1 / 500 * |b|) :=
    mul_le_mul_of_nonneg_left hcb (by norm_num)
  have k1 : (1 / 9007199254740992 : ℝ) * (1 + 1 / 250 + 1 / 500) + 1 / 2305843009213693952 ≤ 1 / 4503599627370496 := by norm_num
  have k2 := mul_le_mul_of_nonneg_right k1 hb0
  have k3 : (1 / 9007199254740992 : ℝ) * τ ≤ 1 * τ :=
    mul_le_mul_of_nonneg_right (by norm_num) htp.le
  linarith

/-- A success in double precision is a decrease. -/
theorem threshold_le (h : Nearest rnd) {b : ℝ} (hb : IsDouble b) : threshold rnd b ≤ b :=
  h.le hb (sub_le_self _ (h.nonneg (mul_nonneg (h.nonneg (by norm_num)) (abs_nonneg _))))

/-! ## The run -/

/-- The radius has been halved `k` times (in sum). -/
def Halved (rnd : ℝ → ℝ) (k : ℕ) (z : StepState) : Prop := z.radius = radMax rnd / 2 ^ k

theorem exactRun_snoc (z : Srbf) (vs : List Val) (v : Val) :
    exactRun ftol mftol z (vs ++ [v]) = ((exactRun ftol mftol z vs).adjust ftol mftol v).1 := by
  simp [exactRun]

theorem doubleRun_snoc (vs : List ℝ) (v : ℝ) :
    doubleRun rnd ftol mftol (vs ++ [v]) = ((doubleRun rnd ftol mftol vs).adjust rnd ftol mftol v).1 := by
  simp [doubleRun]

/-- The two states agree: the counters and the best value are equal, the radius is the same multiple of the initial radius. -/
structure Agrees (rnd : ℝ → ℝ) (z : Srbf) (y : StepState) : Prop where
  status : y.status = z.status
  failcount : y.failcount = z.failcount
  fbest : y.fbest = z.fbest.map fun v : Val => ((v : ℚ) : ℝ)
  radius : ∃ k : ℕ, z.radius = 2 / 10 / 2 ^ k ∧ y.radius = radMax rnd / 2 ^ k

theorem pow_cmp {r : ℝ} (hr : 0 < r) (k m : ℕ) : r / 2 ^ k ≤ r / 2 ^ m ↔ m ≤ k := by
  rw [div_le_div_iff_of_pos_left hr (by positivity) (by positivity), pow_le_pow_iff_right₀ (by norm_num)]

/-- One call: if the decision between success and failure is the same, the attributes and the convergence flag agree. -/
theorem adjust_agrees (h : Nearest rnd) {z : Srbf} {y : StepState} (hzy : Agrees rnd z y) {v : Val}
    (hd : y.improves rnd v = z.isImprovement v) (hu : (2 : ℚ) / 10 / 2 ^ 999 ≤ z.radius) :
    Agrees rnd (z.adjust ftol mftol v).1 (y.adjust rnd ftol mftol v).1 ∧
      (y.adjust rnd ftol mftol v).2 = (z.adjust ftol mftol v).2.2 := by
  obtain ⟨hs, hf, hb, k, hk, hk'⟩ := hzy
  obtain ⟨b1, -⟩ := radMax_bounds h
  have hpos : 0 < radMax rnd := (two_zpow_pos _).trans_le b1
  have hk9 : k ≤ 999 := by
    rw [hk, div_le_div_iff_of_pos_left (by norm_num) (by positivity) (by positivity), pow_le_pow_iff_right₀ (by norm_num)] at hu
    exact hu
  have half : rnd (y.radius / 2) = radMax rnd / 2 ^ (k + 1) := by
    have e : y.radius / 2 = radMax rnd / 2 ^ (k + 1) := by rw [hk', pow_succ, div_div]
    rw [e, h.exact (radius_double h (by omega))]
  have half' : z.radius / 2 = 2 / 10 / 2 ^ (k + 1) := by rw [hk, pow_succ, div_div]
  have dbl : ∀ j : ℕ, j ≤ 1000 → min (rnd (2 * (radMax rnd / 2 ^ j))) (radMax rnd) = radMax rnd / 2 ^ (j - 1) ∧
      min (2 * ((2 : ℚ) / 10 / 2 ^ j)) radiusMax = 2 / 10 / 2 ^ (j - 1) := by
    intro j hj
    rcases Nat.eq_zero_or_pos j with rfl | hj0
    · have e : rnd (2 * (radMax rnd / 2 ^ 0)) = 2 * radMax rnd := by
        rw [pow_zero, div_one]
        exact h.exact (IsDouble.two_mul (h.double _))
      rw [e]
      refine ⟨?_, ?_⟩
      · rw [min_eq_right (by linarith)]; simp
      · rw [min_eq_right (by unfold radiusMax; norm_num)]; simp [radiusMax]
    · obtain ⟨i, rfl⟩ := Nat.exists_eq_add_of_lt hj0
      rw [zero_add, Nat.add_sub_cancel]
      have e : 2 * (radMax rnd / 2 ^ (i + 1)) = radMax rnd / 2 ^ i := by rw [pow_succ]; field_simp
      have e' : 2 * ((2 : ℚ) / 10 / 2 ^ (i + 1)) = 2 / 10 / 2 ^ i := by rw [pow_succ]; field_simp
      rw [e, e', h.exact (radius_double h (by omega))]
      exact ⟨min_eq_left (div_le_self hpos.le (one_le_pow₀ (by norm_num))),
        min_eq_left (div_le_self (by norm_num) (one_le_pow₀ (by norm_num)))⟩
  have conv : ∀ j : ℕ, (radMax rnd / 2 ^ j ≤ radMin rnd ↔ (2 : ℚ) / 10 / 2 ^ j ≤ radiusMin) := by
    intro j
    have e : radiusMin = 2 / 10 / 2 ^ 6 := by unfold radiusMin; ring
    rw [radMin_eq h, e, pow_cmp hpos, div_le_div_iff_of_pos_left (by norm_num) (by positivity) (by positivity),
      pow_le_pow_iff_right₀ (by norm_num)]
  obtain ⟨y1, y2, y3, y4⟩ := y
  obtain ⟨z1, z2, z3, z4, z5, z6⟩ := z
  simp only at hs hf hb hk hk' half half'
  subst hs hf hb hk hk'
  have flag : ∀ {z : Srbf} {y : StepState}, Agrees rnd z y →
      (open Classical in (decide (mftol ≤ y.failcount) || decide (y.radius ≤ radMin rnd))) =
        (decide (mftol ≤ z.failcount) || decide (z.radius ≤ radiusMin)) := by
    rintro z y ⟨-, e2, -, j, e3, e4⟩
    rw [e2, e3, e4]
    congr 1
    rw [Bool.eq_iff_iff]
    simp only [decide_eq_true_eq]
    exact conv j
  refine (fun hA => ⟨hA, by have := flag hA; exact this⟩) ?_
  unfold Srbf.adjust StepState.adjust
  rw [hd]
  generalize Srbf.isImprovement _ v = imp
  cases imp <;> simp only [if_true, if_false, Bool.false_eq_true, half, half'] <;> split_ifs
  all_goals first
    | exact ⟨rfl, rfl, rfl, k, rfl, rfl⟩
    | exact ⟨rfl, rfl, rfl, k + 1, rfl, rfl⟩
    | exact ⟨rfl, rfl, rfl, k - 1, (dbl k (by omega)).2, (dbl k (by omega)).1⟩
    | exact ⟨rfl, rfl, rfl, k, (dbl (k + 1) (by omega)).2, (dbl (k + 1) (by omega)).1⟩

theorem start_agrees (z : Srbf) : Agrees rnd z.sampleInitial (stepStart rnd) :=
  ⟨rfl, rfl, rfl, 0, by simp [Srbf.sampleInitial], by simp [stepStart, radMax]⟩

/-- The best value is one of the values seen. -/
theorem exactRun_fbest {z : Srbf} (hz : z.fbest = none) (vs : List Val) {b : Val} (hb : (exactRun ftol mftol z vs).fbest = some b) : b ∈ vs := by
  induction vs using List.reverseRecOn generalizing b with
  | nil => simp [exactRun, hz] at hb
  | append_singleton l v ih =>
    rw [exactRun_snoc] at hb
    have : ((exactRun ftol mftol z l).adjust ftol mftol v).1.fbest = some v ∨
        ((exactRun ftol mftol z l).adjust ftol mftol v).1.fbest = (exactRun ftol mftol z l).fbest := by
      unfold Srbf.adjust
      cases (exactRun ftol mftol z l).isImprovement v <;> simp only [if_true, if_false, Bool.false_eq_true] <;> split_ifs <;> simp
    rcases this with h1 | h1
    · rw [h1] at hb
      simp only [Option.some.injEq] at hb
      simp [hb]
    · rw [h1] at hb
      exact List.mem_append_left _ (ih hb)

/-- The decision is the exact one if the value is not within rounding error of the level. -/
theorem improves_eq (h : Nearest rnd) {z : Srbf} {y : StepState} (hzy : Agrees rnd z y) {v : Val}
    (hd : ∀ b : Val, z.fbest = some b → IsDouble (b : ℝ) ∧
      (2 : ℝ) ^ (-52 : ℤ) * |(b : ℝ)| + (2 : ℝ) ^ (-1074 : ℤ) < |(v : ℝ) - ((b : ℝ) - 1 / 1000 * |(b : ℝ)|)|) :
    y.improves rnd v = z.isImprovement v := by
  unfold StepState.improves Srbf.isImprovement
  rw [hzy.fbest]
  cases hb : z.fbest with
  | none => rfl
  | some b =>
    obtain ⟨h1, h2⟩ := hd b hb
    have h3 := threshold_err h h1
    have h4 := h3.trans_lt h2
    simp only [Option.map_some]
    rw [Bool.eq_iff_iff]
    simp only [decide_eq_true_eq]
    have hcast : v < b - 1 / 1000 * |b| ↔ (v : ℝ) < (b : ℝ) - 1 / 1000 * |(b : ℝ)| := by
      have : (((b - 1 / 1000 * |b| : ℚ)) : ℝ) = (b : ℝ) - 1 / 1000 * |(b : ℝ)| := by push_cast; ring
      rw [← this]
      exact Rat.cast_lt.symm
    rw [hcast]
    generalize (b : ℝ) - 1 / 1000 * |(b : ℝ)| = T at *
    constructor
    · intro h5
      by_contra h6
      push Not at h6
      rw [abs_of_nonneg (by linarith : 0 ≤ (v : ℝ) - T), abs_of_pos (by linarith)] at h4
      linarith
    · intro h5
      by_contra h6
      push Not at h6
      rw [abs_of_neg (by linarith : (v : ℝ) - T < 0), abs_lt] at h4
      linarith [h4.1]

/-- Full statement: in double precision the step control makes the same decisions as in exact arithmetic.  False if a value is
within rounding error of the level that decides about success (`C136_refuted`).  Proved otherwise, for every sequence of values:
`status`, `failcount` and `_fbest` are the same, the sampling radius is the same multiple of the initial one (halving and
doubling are exact), and `converged` is set in the same calls. -/
theorem C136_agrees_partial (h : Nearest rnd) (z : Srbf) (vs : List Val) (hv : ∀ v ∈ vs, IsDouble ((v : ℚ) : ℝ))
    (hc : Clear ftol mftol z.sampleInitial vs)
    (hu : ∀ l m : List Val, vs = l ++ m → (2 : ℚ) / 10 / 2 ^ 999 ≤ (exactRun ftol mftol z.sampleInitial l).radius) :
    Agrees rnd (exactRun ftol mftol z.sampleInitial vs) (doubleRun rnd ftol mftol (vs.map fun v : Val => ((v : ℚ) : ℝ))) ∧
    ∀ (l : List Val) (v : Val) (m : List Val), vs = l ++ v :: m →
      ((doubleRun rnd ftol mftol (l.map fun v : Val => ((v : ℚ) : ℝ))).adjust rnd ftol mftol ((v : ℚ) : ℝ)).2 =
        ((exactRun ftol mftol z.sampleInitial l).adjust ftol mftol v).2.2 := by
  have key : ∀ l m : List Val, vs = l ++ m →
      Agrees rnd (exactRun ftol mftol z.sampleInitial l) (doubleRun rnd ftol mftol (l.map fun v : Val => ((v : ℚ) : ℝ))) := by
    intro l
    induction l using List.reverseRecOn with
    | nil => exact fun m _ => start_agrees z
    | append_singleton l v ih =>
      intro m hm
      have hm' : vs = l ++ v :: m := by rw [hm]; simp
      have hA := ih (v :: m) hm'
      rw [exactRun_snoc, List.map_append, List.map_singleton, doubleRun_snoc]
      refine (adjust_agrees h hA (improves_eq h hA fun b hb => ⟨hv b ?_, hc l v m hm' b hb⟩) (hu l _ hm')).1
      rw [hm']
      exact List.mem_append_left _ (exactRun_fbest rfl l hb)
  refine ⟨key vs [] (by simp), fun l v m hm => ?_⟩
  have hA := key l _ hm
  refine (adjust_agrees h hA (improves_eq h hA fun b hb => ⟨hv b ?_, hc l v m hm b hb⟩) (hu l _ hm)).2
  rw [hm]
  exact List.mem_append_left _ (exactRun_fbest rfl l hb)

theorem clear_cons {z : Srbf} {v : Val} {vs : List Val}
    (h1 : ∀ b : Val, z.fbest = some b →
      (2 : ℝ) ^ (-52 : ℤ) * |(b : ℝ)| + (2 : ℝ) ^ (-1074 : ℤ) < |(v : ℝ) - ((b : ℝ) - 1 / 1000 * |(b : ℝ)|)|)
    (h2 : Clear ftol mftol (z.adjust ftol mftol v).1 vs) : Clear ftol mftol z (v :: vs) := by
  intro l w m hm b hb
  cases l with
  | nil =>
    simp only [List.nil_append, List.cons.injEq] at hm
    rw [← hm.1]
    exact h1 b hb
  | cons u l =>
    simp only [List.cons_append, List.cons.injEq] at hm
    obtain ⟨rfl, hm⟩ := hm
    exact h2 l w m hm b hb

theorem clear_nil {z : Srbf} : Clear ftol mftol z [] := by
  intro l w m hm
  simp at hm

/-- As long as no call before the last sets `converged`, the radius stays far above the smallest numbers. -/
theorem radius_normal (z : Srbf) (vs : List Val)
    (hn : ∀ (l : List Val) (v : Val) (m : List Val), vs = l ++ v :: m → m ≠ [] →
      ((exactRun ftol mftol z.sampleInitial l).adjust ftol mftol v).2.2 = false) :
    ∀ l m : List Val, vs = l ++ m → (2 : ℚ) / 10 / 2 ^ 999 ≤ (exactRun ftol mftol z.sampleInitial l).radius := by
  have big : (2 : ℚ) / 10 / 2 ^ 999 ≤ radiusMin := by
    rw [show radiusMin = 2 / 10 / 2 ^ 6 by unfold radiusMin; ring,
      div_le_div_iff_of_pos_left (by norm_num) (by positivity) (by positivity), pow_le_pow_iff_right₀ (by norm_num)]
    norm_num
  have half : (2 : ℚ) / 10 / 2 ^ 999 ≤ radiusMin / 2 := by
    rw [show radiusMin / 2 = 2 / 10 / 2 ^ 7 by unfold radiusMin; ring,
      div_le_div_iff_of_pos_left (by norm_num) (by positivity) (by positivity), pow_le_pow_iff_right₀ (by norm_num)]
    norm_num
  have hmax : radiusMin ≤ radiusMax := by unfold radiusMin radiusMax; norm_num
  -- before each call the radius is above the minimum
  have key : ∀ l m : List Val, vs = l ++ m → m ≠ [] → radiusMin < (exactRun ftol mftol z.sampleInitial l).radius := by
    intro l
    rcases List.eq_nil_or_concat l with rfl | ⟨l, v, rfl⟩
    · intro m _ _
      simp only [exactRun, List.foldl_nil, Srbf.sampleInitial]
      unfold radiusMin
      norm_num
    · intro m hm hne
      have := hn l v m (by rw [hm]; simp) hne
      rw [List.concat_eq_append, exactRun_snoc]
      unfold Srbf.adjust at this ⊢
      simp only [Bool.or_eq_false_iff, decide_eq_false_iff_not, not_le] at this
      exact this.2
  intro l m hm
  rcases List.eq_nil_or_concat l with rfl | ⟨l, v, rfl⟩
  · simp only [exactRun, List.foldl_nil, Srbf.sampleInitial]
    exact big.trans (by unfold radiusMin; norm_num)
  · have h1 := key l (v :: m) (by rw [hm]; simp) (by simp)
    rw [List.concat_eq_append, exactRun_snoc]
    have h3 : radiusMin / 2 ≤ ((exactRun ftol mftol z.sampleInitial l).adjust ftol mftol v).1.radius := by
      have h0 : (0 : ℚ) < radiusMin := by unfold radiusMin; norm_num
      unfold Srbf.adjust
      cases (exactRun ftol mftol z.sampleInitial l).isImprovement v <;>
        simp only [if_true, if_false, Bool.false_eq_true] <;> split_ifs <;> simp only [le_min_iff] <;>
        first
          | linarith
          | exact ⟨by linarith, by linarith⟩
    exact half.trans h3

/-- Three calls that meet the hypotheses: two successes and one failure. -/
example (h : Nearest rnd) (z : Srbf) : Agrees rnd (exactRun 4 16 z.sampleInitial [5, 3, 4])
    (doubleRun rnd 4 16 ([5, 3, 4].map fun v : Val => ((v : ℚ) : ℝ))) := by
  have hi : ∀ v ∈ ([5, 3, 4] : List Val), IsDouble ((v : ℚ) : ℝ) := by
    intro v hv
    simp only [List.mem_cons, List.not_mem_nil, or_false] at hv
    rcases hv with rfl | rfl | rfl
    · exact ⟨5, 0, by norm_num, by norm_num, by norm_num⟩
    · exact ⟨3, 0, by norm_num, by norm_num, by norm_num⟩
    · exact ⟨4, 0, by norm_num, by norm_num, by norm_num⟩
  have small : (2 : ℝ) ^ (-1074 : ℤ) ≤ 1 / 1000 :=
    (zpow_le_zpow_right₀ (by norm_num : (1 : ℝ) ≤ 2) (by norm_num : (-1074 : ℤ) ≤ -10)).trans (by norm_num)
  have f1 : (z.sampleInitial.adjust 4 16 5).1.fbest = some 5 := by
    simp [Srbf.adjust, Srbf.isImprovement, Srbf.sampleInitial, succtol]
  have f2 : ((z.sampleInitial.adjust 4 16 5).1.adjust 4 16 3).1.fbest = some 3 := by
    generalize (z.sampleInitial.adjust 4 16 5).1 = s at *
    have hi : s.isImprovement 3 = true := by
      unfold Srbf.isImprovement
      rw [f1]
      simp only [decide_eq_true_eq]
      norm_num
    unfold Srbf.adjust
    rw [hi]
    simp only [if_true]
    split_ifs <;> rfl
  refine (C136_agrees_partial h z [5, 3, 4] hi ?_ (radius_normal z _ ?_)).1
  · refine clear_cons (fun b hb => by simp [Srbf.sampleInitial] at hb) (clear_cons (fun b hb => ?_) (clear_cons (fun b hb => ?_) clear_nil))
    · rw [f1, Option.some.injEq] at hb
      subst hb
      rw [p52]
      generalize (2 : ℝ) ^ (-1074 : ℤ) = e at *
      norm_num [abs_of_neg, abs_of_pos]
      linarith
    · rw [f2, Option.some.injEq] at hb
      subst hb
      rw [p52]
      generalize (2 : ℝ) ^ (-1074 : ℤ) = e at *
      norm_num [abs_of_neg, abs_of_pos]
      linarith
  · intro l v m hm hne
    match l, hm with
    | [], hm =>
      simp only [List.nil_append, List.cons.injEq] at hm
      rw [← hm.1]
      simp [exactRun, Srbf.adjust, Srbf.isImprovement, Srbf.sampleInitial, succtol, radiusMin]
      norm_num
    | [a], hm =>
      simp only [List.cons_append, List.nil_append, List.cons.injEq] at hm
      rw [← hm.1, ← hm.2.1]
      simp [exactRun, Srbf.adjust, Srbf.isImprovement, Srbf.sampleInitial, succtol, radiusMin]
      norm_num
    | [a, b], hm =>
      simp only [List.cons_append, List.nil_append, List.cons.injEq] at hm
      exact absurd hm.2.2.2.symm hne
    | a :: b :: c :: l, hm =>
      simp at hm

/-- Whatever the values: in double precision, too, the best value never increases, and a success is a strict decrease. -/
theorem C136_decrease (h : Nearest rnd) (z : StepState) (v b : ℝ) (hb : z.fbest = some b) (hd : IsDouble b) :
    (z.adjust rnd ftol mftol v).1.fbest = some b ∨ (v < b ∧ (z.adjust rnd ftol mftol v).1.fbest = some v) := by
  unfold StepState.adjust
  cases hi : z.improves rnd v <;> simp only [if_true, if_false, Bool.false_eq_true]
  · left
    split_ifs <;> exact hb
  · right
    unfold StepState.improves at hi
    rw [hb] at hi
    simp only [decide_eq_true_eq] at hi
    refine ⟨hi.trans_le (threshold_le h hd), ?_⟩
    split_ifs <;> rfl

/-- The value nearest below 3 - 0.003. -/
def edge : ℚ := 6748644041614688 / 2251799813685248

/-- The rounded level for a best value of 3 is `edge`, which is smaller than 2.997. -/
theorem threshold_three (h : Nearest rnd) : threshold rnd 3 = (edge : ℝ) := by
  have hc : rnd (1 / 1000) = 4611686018427388 * (2 : ℝ) ^ (-62 : ℤ) := by
    have := h.eq_of_close (x := 1 / 1000) (k := -10) (n := 4611686018427388) (by norm_num) (by norm_num) (by norm_num)
      (by norm_num [abs_lt])
    norm_num at this ⊢
    exact this
  unfold threshold
  have hp : rnd (rnd (1 / 1000) * |3|) = 3 * (4611686018427388 * (2 : ℝ) ^ (-62 : ℤ)) := by
    rw [hc, abs_of_pos (by norm_num : (0 : ℝ) < 3)]
    have := h.eq_of_close (x := 4611686018427388 * (2 : ℝ) ^ (-62 : ℤ) * 3) (k := -9) (n := 6917529027641082) (by norm_num) (by norm_num) (by norm_num)
      (by norm_num [abs_lt])
    rw [this]
    norm_num
  rw [hp]
  have := h.eq_of_close (x := 3 - 3 * (4611686018427388 * (2 : ℝ) ^ (-62 : ℤ))) (k := 1) (n := 6748644041614688) (by norm_num) (by norm_num)
    (by norm_num) (by norm_num [abs_lt])
  rw [this]
  unfold edge
  norm_num

/-- A value that improves the best value 3 by more than 0.1 % (2.99699999999999988631...), which the test in double precision
rejects. -/
theorem C136_refuted (h : Nearest rnd) : IsDouble ((edge : ℚ) : ℝ) ∧ edge < 3 - 1 / 1000 * |3| ∧
    (exactRun 4 16 (Srbf.sampleInitial ⟨0, 0, 0, none, [], 0⟩) [3, edge]).fbest = some edge ∧
    (doubleRun rnd 4 16 [3, ((edge : ℚ) : ℝ)]).fbest = some 3 := by
  have hlt : edge < 3 - 1 / 1000 * |3| := by unfold edge; norm_num
  refine ⟨?_, hlt, ?_, ?_⟩
  · refine ⟨6748644041614688, -51, by norm_num, by norm_num, ?_⟩
    unfold edge
    norm_num
  · have e0 : ∀ z : Srbf, z.fbest = some 3 → (z.adjust 4 16 edge).1.fbest = some edge := by
      intro z hz
      have hi : z.isImprovement edge = true := by
        unfold Srbf.isImprovement
        rw [hz]
        simpa using hlt
      unfold Srbf.adjust
      rw [hi]
      simp only [if_true]
      split_ifs <;> rfl
    rw [show [(3 : ℚ), edge] = [3] ++ [edge] from rfl, exactRun_snoc]
    exact e0 _ (by simp [exactRun, Srbf.adjust, Srbf.isImprovement, Srbf.sampleInitial, succtol])
  · have e1 : (doubleRun rnd 4 16 [3]).fbest = some 3 := by
      simp [doubleRun, StepState.adjust, StepState.improves, stepStart, succtol]
    rw [show [3, ((edge : ℚ) : ℝ)] = [3] ++ [((edge : ℚ) : ℝ)] from rfl, doubleRun_snoc]
    have e2 : StepState.improves rnd (doubleRun rnd 4 16 [3]) ((edge : ℚ) : ℝ) = false := by
      unfold StepState.improves
      rw [e1]
      simp [threshold_three h]
    unfold StepState.adjust
    rw [e2]
    simp only [if_false, Bool.false_eq_true]
    split_ifs <;> exact e1

end Verif.Props
