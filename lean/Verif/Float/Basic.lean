import Mathlib.Data.Real.Basic
import Mathlib.Algebra.Order.Round
import Mathlib.Data.Real.Archimedean
import Mathlib.Algebra.Order.Floor.Ring
import Mathlib.Algebra.Order.Archimedean.Basic
import Mathlib.Tactic.Linarith
import Mathlib.Tactic.NormNum
import Mathlib.Tactic.Ring
import Mathlib.Tactic.FieldSimp

/-!
# Double-precision numbers and rounding to nearest

The specification of the arithmetic that numpy performs on `float64` arrays (used by every function of
/repo/pySOT/utils.py:21-93).  A double is an integer of at most 53 bits times a power of two not below `2^-1074`; an
operation returns a double nearest to the exact result, and nothing is assumed about ties.  Overflow, infinities, NaN and
the sign of zero are not modelled.
-/

namespace Verif.Fl

/-- The real numbers that are finite doubles (no bound on the exponent from above). -/
def IsDouble (x : ℝ) : Prop := ∃ m e : ℤ, |m| < 2 ^ 53 ∧ -1074 ≤ e ∧ x = (m : ℝ) * (2 : ℝ) ^ e

/-- `rnd` rounds to a nearest double. -/
def Nearest (rnd : ℝ → ℝ) : Prop := ∀ x, IsDouble (rnd x) ∧ ∀ z, IsDouble z → |x - rnd x| ≤ |x - z|

/-! ## Doubles -/

theorem two_zpow_pos (e : ℤ) : (0 : ℝ) < (2 : ℝ) ^ e := zpow_pos (by norm_num) e

theorem isDouble_of_le {m e : ℤ} (hm : |m| ≤ 2 ^ 53) (he : -1074 ≤ e) : IsDouble ((m : ℝ) * (2 : ℝ) ^ e) := by
  rcases lt_or_eq_of_le hm with h | h
  · exact ⟨m, e, h, he, rfl⟩
  · have h2 : (2 : ℝ) ^ (e + 1) = 2 ^ e * 2 := zpow_add_one₀ (by norm_num) e
    rcases abs_eq (by norm_num : (0 : ℤ) ≤ 2 ^ 53) |>.mp h with h | h
    · exact ⟨2 ^ 52, e + 1, by norm_num, by omega, by rw [h, h2]; push_cast; ring⟩
    · exact ⟨-2 ^ 52, e + 1, by norm_num, by omega, by rw [h, h2]; push_cast; ring⟩

theorem isDouble_int {m : ℤ} (hm : |m| ≤ 2 ^ 53) : IsDouble (m : ℝ) := by
  have := isDouble_of_le (e := 0) hm (by norm_num)
  simpa using this

theorem isDouble_zero : IsDouble 0 := by simpa using isDouble_int (m := 0) (by norm_num)

theorem isDouble_one : IsDouble 1 := by simpa using isDouble_int (m := 1) (by norm_num)

theorem IsDouble.neg {x : ℝ} (h : IsDouble x) : IsDouble (-x) := by
  obtain ⟨m, e, hm, he, rfl⟩ := h
  exact ⟨-m, e, by rwa [abs_neg], he, by push_cast; ring⟩

theorem IsDouble.two_mul {x : ℝ} (h : IsDouble x) : IsDouble (2 * x) := by
  obtain ⟨m, e, hm, he, rfl⟩ := h
  exact ⟨m, e + 1, hm, by omega, by rw [zpow_add_one₀ (by norm_num)]; ring⟩

theorem isDouble_tiny : IsDouble ((2 : ℝ) ^ (-1074 : ℤ)) := by
  simpa using isDouble_of_le (m := 1) (e := -1074) (by norm_num) le_rfl

/-- Every double is an integer multiple of `2^f` for `f` not above its exponent. -/
theorem zpow_split {e f : ℤ} (h : f ≤ e) : (2 : ℝ) ^ e = ((2 ^ (e - f).toNat : ℤ) : ℝ) * (2 : ℝ) ^ f := by
  have : e = ((e - f).toNat : ℤ) + f := by omega
  conv_lhs => rw [this, zpow_add₀ (by norm_num), zpow_natCast]
  push_cast
  rfl

theorem IsDouble.mult {x : ℝ} (h : IsDouble x) : ∃ n : ℤ, x = (n : ℝ) * (2 : ℝ) ^ (-1074 : ℤ) := by
  obtain ⟨m, e, -, he, rfl⟩ := h
  exact ⟨m * 2 ^ (e - -1074).toNat, by rw [zpow_split he]; push_cast; ring⟩

/-- A double of absolute value at least `2^k` is a multiple of `2^(k-52)`. -/
theorem IsDouble.mult_of_ge {x : ℝ} (h : IsDouble x) {k : ℤ} (hk : (2 : ℝ) ^ k ≤ |x|) :
    ∃ n : ℤ, x = (n : ℝ) * (2 : ℝ) ^ (max (k - 52) (-1074)) := by
  obtain ⟨m, e, hm, he, rfl⟩ := h
  have hle : max (k - 52) (-1074) ≤ e := by
    refine max_le ?_ he
    by_contra hlt
    have h1 : e + 53 ≤ k := by omega
    have h2 : (2 : ℝ) ^ (e + 53) ≤ 2 ^ k := zpow_le_zpow_right₀ (by norm_num) h1
    have h3 : (2 : ℝ) ^ (e + 53) = 2 ^ e * 2 ^ 53 := by
      rw [zpow_add₀ (by norm_num)]; norm_num
    have h4 : |((m : ℤ) : ℝ)| < 2 ^ 53 := by
      have : ((|m| : ℤ) : ℝ) < ((2 ^ 53 : ℤ) : ℝ) := by exact_mod_cast hm
      rw [Int.cast_abs] at this
      push_cast at this
      norm_num at this ⊢
      exact this
    rw [abs_mul, abs_of_pos (two_zpow_pos e)] at hk
    nlinarith [two_zpow_pos e]
  exact ⟨m * 2 ^ (e - max (k - 52) (-1074)).toNat, by rw [zpow_split hle]; push_cast; ring⟩

/-- The binade of a nonzero number. -/
theorem exists_binade {x : ℝ} (hx : x ≠ 0) : ∃ k : ℤ, (2 : ℝ) ^ k ≤ |x| ∧ |x| < (2 : ℝ) ^ (k + 1) :=
  exists_mem_Ico_zpow (abs_pos.mpr hx) (by norm_num)

/-- The nearest multiple of the spacing. -/
noncomputable def onGrid (x s : ℝ) : ℝ := (round (x / s) : ℝ) * s

theorem onGrid_le {x s : ℝ} (hs : 0 < s) (n : ℤ) : |x - onGrid x s| ≤ |x - n * s| := by
  have h := round_le (x / s) n
  have e1 : x - onGrid x s = (x / s - round (x / s)) * s := by unfold onGrid; field_simp
  have e2 : x - n * s = (x / s - n) * s := by field_simp
  rw [e1, e2, abs_mul, abs_mul]
  exact mul_le_mul_of_nonneg_right h (abs_nonneg _)

theorem onGrid_half {x s : ℝ} (hs : 0 < s) : |x - onGrid x s| ≤ s / 2 := by
  have h := abs_sub_round (x / s)
  have e1 : x - onGrid x s = (x / s - round (x / s)) * s := by unfold onGrid; field_simp
  rw [e1, abs_mul, abs_of_pos hs]
  nlinarith

theorem onGrid_isDouble {x : ℝ} {k : ℤ} (hk : |x| < (2 : ℝ) ^ (k + 1)) :
    IsDouble (onGrid x ((2 : ℝ) ^ (max (k - 52) (-1074)))) := by
  set f := max (k - 52) (-1074) with hf
  have hs := two_zpow_pos f
  refine isDouble_of_le (m := round (x / (2 : ℝ) ^ f)) (e := f) ?_ (le_max_right _ _)
  have h1 : |x / 2 ^ f| < 2 ^ 53 := by
    rw [abs_div, abs_of_pos hs, div_lt_iff₀ hs]
    refine lt_of_lt_of_le hk ?_
    have : (2 : ℝ) ^ 53 * 2 ^ f = 2 ^ (f + 53) := by rw [zpow_add₀ (by norm_num)]; norm_num; ring
    rw [this]
    refine zpow_le_zpow_right₀ (by norm_num) ?_
    have := le_max_left (k - 52) (-1074)
    omega
  have h2 := abs_sub_round (x / (2 : ℝ) ^ f)
  rw [abs_lt] at h1
  rw [abs_le] at h2
  have h3 : ((round (x / (2 : ℝ) ^ f) : ℤ) : ℝ) < ((2 ^ 53 + 1 : ℤ) : ℝ) := by push_cast; linarith
  have h4 : ((-(2 ^ 53) - 1 : ℤ) : ℝ) < ((round (x / (2 : ℝ) ^ f) : ℤ) : ℝ) := by push_cast; linarith
  rw [abs_le]
  have h3' := Int.cast_lt.mp h3
  have h4' := Int.cast_lt.mp h4
  omega

theorem onGrid_nearest {x : ℝ} {k : ℤ} (hk1 : (2 : ℝ) ^ k ≤ |x|) {z : ℝ} (hz : IsDouble z) :
    |x - onGrid x ((2 : ℝ) ^ (max (k - 52) (-1074)))| ≤ |x - z| := by
  have hs := two_zpow_pos (max (k - 52) (-1074))
  rcases le_or_gt ((2 : ℝ) ^ k) |z| with h | h
  · obtain ⟨n, hn⟩ := hz.mult_of_ge h
    conv_rhs => rw [hn]
    exact onGrid_le hs n
  · rcases le_or_gt (-1074) k with hk | hk
    · have hle : max (k - 52) (-1074) ≤ k := max_le (by omega) hk
      have key : |x| - 2 ^ k ≤ |x - z| := by
        have := abs_sub_abs_le_abs_sub x z
        linarith
      rcases le_total 0 x with hx | hx
      · have := onGrid_le (x := x) hs (2 ^ (k - max (k - 52) (-1074)).toNat)
        rw [← zpow_split hle, abs_of_nonneg (a := x - 2 ^ k) (by rw [abs_of_nonneg hx] at hk1; linarith)] at this
        rw [abs_of_nonneg hx] at key
        linarith
      · have := onGrid_le (x := x) hs (-(2 ^ (k - max (k - 52) (-1074)).toNat))
        have e : x - ((-(2 ^ (k - max (k - 52) (-1074)).toNat) : ℤ) : ℝ) * 2 ^ (max (k - 52) (-1074)) = x + 2 ^ k := by
          conv_rhs => rw [zpow_split hle]
          push_cast; ring
        rw [abs_of_nonpos hx] at hk1 key
        rw [e, abs_of_nonpos (a := x + 2 ^ k) (by linarith)] at this
        linarith
    · have : max (k - 52) (-1074) = -1074 := max_eq_right (by omega)
      rw [this] at hs ⊢
      obtain ⟨n, hn⟩ := hz.mult
      conv_rhs => rw [hn]
      exact onGrid_le hs n

/-- Rounding to nearest exists, so statements about every `Nearest` are not void. -/
theorem exists_nearest : ∃ rnd, Nearest rnd := by
  have : ∀ x : ℝ, ∃ y, IsDouble y ∧ ∀ z, IsDouble z → |x - y| ≤ |x - z| := by
    intro x
    by_cases hx : x = 0
    · exact ⟨0, isDouble_zero, fun z _ => by simp [hx]⟩
    · obtain ⟨k, h1, h2⟩ := exists_binade hx
      exact ⟨_, onGrid_isDouble h2, fun z hz => onGrid_nearest h1 hz⟩
  choose r hr using this
  exact ⟨r, hr⟩

/-! ## Rounding -/

namespace Nearest

variable {rnd : ℝ → ℝ}

theorem double (h : Nearest rnd) (x : ℝ) : IsDouble (rnd x) := (h x).1

theorem exact (h : Nearest rnd) {x : ℝ} (hx : IsDouble x) : rnd x = x := by
  have := (h x).2 x hx
  rw [sub_self, abs_zero] at this
  have := abs_nonpos_iff.mp this
  linarith

theorem le (h : Nearest rnd) {x b : ℝ} (hb : IsDouble b) (hx : x ≤ b) : rnd x ≤ b := by
  by_contra hc
  push Not at hc
  have := (h x).2 b hb
  rw [abs_of_nonpos (by linarith), abs_of_nonpos (by linarith)] at this
  linarith

theorem ge (h : Nearest rnd) {x b : ℝ} (hb : IsDouble b) (hx : b ≤ x) : b ≤ rnd x := by
  by_contra hc
  push Not at hc
  have := (h x).2 b hb
  rw [abs_of_nonneg (by linarith), abs_of_nonneg (by linarith)] at this
  linarith

theorem mono (h : Nearest rnd) {x y : ℝ} (hxy : x ≤ y) : rnd x ≤ rnd y := by
  by_contra hc
  push Not at hc
  rcases le_or_gt x (rnd y) with h1 | h1
  · exact absurd (h.le (h.double y) h1) (not_le.mpr hc)
  rcases le_or_gt (rnd x) y with h2 | h2
  · exact absurd (h.ge (h.double x) h2) (not_le.mpr hc)
  have a := (h x).2 _ (h.double y)
  have b := (h y).2 _ (h.double x)
  rw [abs_of_nonpos (by linarith), abs_of_nonneg (by linarith)] at a
  rw [abs_of_nonneg (by linarith), abs_of_nonpos (by linarith)] at b
  have : x = y := by linarith
  subst this
  exact lt_irrefl _ hc

theorem zero (h : Nearest rnd) : rnd 0 = 0 := h.exact isDouble_zero

theorem one (h : Nearest rnd) : rnd 1 = 1 := h.exact isDouble_one

theorem nonneg (h : Nearest rnd) {x : ℝ} (hx : 0 ≤ x) : 0 ≤ rnd x := h.ge isDouble_zero hx

/-- The error is at most half the spacing of the binade. -/
theorem err_binade (h : Nearest rnd) {x : ℝ} {k : ℤ} (hk : |x| < (2 : ℝ) ^ (k + 1)) :
    |x - rnd x| ≤ (2 : ℝ) ^ (max (k - 52) (-1074)) / 2 :=
  ((h x).2 _ (onGrid_isDouble hk)).trans (onGrid_half (two_zpow_pos _))

/-- Relative error, and an absolute error for results close to zero. -/
theorem err (h : Nearest rnd) (x : ℝ) : |x - rnd x| ≤ (2 : ℝ) ^ (-53 : ℤ) * |x| + (2 : ℝ) ^ (-1075 : ℤ) := by
  have ht := two_zpow_pos (-1075)
  by_cases hx : x = 0
  · rw [hx, h.zero]; simp
  · obtain ⟨k, h1, h2⟩ := exists_binade hx
    refine (h.err_binade h2).trans ?_
    rcases max_cases (k - 52) (-1074) with ⟨e, -⟩ | ⟨e, -⟩ <;> rw [e]
    · have e1 : (2 : ℝ) ^ (k - 52) / 2 = 2 ^ (-53 : ℤ) * 2 ^ k := by
        rw [← zpow_add₀ (by norm_num), div_eq_mul_inv, ← zpow_neg_one, ← zpow_add₀ (by norm_num)]
        congr 1; ring
      have e2 : (2 : ℝ) ^ (-53 : ℤ) * 2 ^ k ≤ 2 ^ (-53 : ℤ) * |x| :=
        mul_le_mul_of_nonneg_left h1 (two_zpow_pos _).le
      linarith
    · have e1 : (2 : ℝ) ^ (-1074 : ℤ) / 2 = 2 ^ (-1075 : ℤ) := by
        rw [div_eq_mul_inv, ← zpow_neg_one, ← zpow_add₀ (by norm_num)]; norm_num
      have e2 : 0 ≤ (2 : ℝ) ^ (-53 : ℤ) * |x| := mul_nonneg (two_zpow_pos _).le (abs_nonneg _)
      rw [e1]
      exact le_add_of_nonneg_left e2

/-- Sums and differences of doubles have a relative error only. -/
theorem err_mult (h : Nearest rnd) {x : ℝ} (n : ℤ) (hn : x = (n : ℝ) * (2 : ℝ) ^ (-1074 : ℤ)) :
    |x - rnd x| ≤ (2 : ℝ) ^ (-53 : ℤ) * |x| := by
  by_cases hx : x = 0
  · rw [hx, h.zero]; simp
  · obtain ⟨k, h1, h2⟩ := exists_binade hx
    rcases le_or_gt (-1074) (k - 52) with hk | hk
    · refine (h.err_binade h2).trans ?_
      rw [max_eq_left hk]
      have e1 : (2 : ℝ) ^ (k - 52) / 2 = 2 ^ (-53 : ℤ) * 2 ^ k := by
        rw [← zpow_add₀ (by norm_num), div_eq_mul_inv, ← zpow_neg_one, ← zpow_add₀ (by norm_num)]
        congr 1; ring
      rw [e1]
      exact mul_le_mul_of_nonneg_left h1 (two_zpow_pos _).le
    · have hd : IsDouble x := by
        rw [hn]
        refine ⟨n, -1074, ?_, le_rfl, rfl⟩
        have h3 : |x| < (2 : ℝ) ^ (-1021 : ℤ) := h2.trans_le (zpow_le_zpow_right₀ (by norm_num) (by omega))
        rw [hn, abs_mul, abs_of_pos (two_zpow_pos _)] at h3
        have h4 : (2 : ℝ) ^ (-1021 : ℤ) = 2 ^ 53 * 2 ^ (-1074 : ℤ) := by
          rw [← zpow_natCast, ← zpow_add₀ (by norm_num)]; norm_num
        rw [h4] at h3
        have h5 := lt_of_mul_lt_mul_right h3 (two_zpow_pos _).le
        rw [← Int.cast_abs] at h5
        exact_mod_cast h5
      rw [h.exact hd]
      simp only [sub_self, abs_zero]
      exact mul_nonneg (two_zpow_pos _).le (abs_nonneg _)

theorem err_sub (h : Nearest rnd) {a b : ℝ} (ha : IsDouble a) (hb : IsDouble b) :
    |a - b - rnd (a - b)| ≤ (2 : ℝ) ^ (-53 : ℤ) * |a - b| := by
  obtain ⟨n, hn⟩ := ha.mult
  obtain ⟨m, hm⟩ := hb.mult
  exact h.err_mult (n - m) (by rw [hn, hm]; push_cast; ring)

theorem err_add (h : Nearest rnd) {a b : ℝ} (ha : IsDouble a) (hb : IsDouble b) :
    |a + b - rnd (a + b)| ≤ (2 : ℝ) ^ (-53 : ℤ) * |a + b| := by
  have := h.err_sub ha hb.neg
  simpa using this

/-- A difference of distinct doubles does not round to zero. -/
theorem sub_pos (h : Nearest rnd) {a b : ℝ} (ha : IsDouble a) (hb : IsDouble b) (hab : b < a) : 0 < rnd (a - b) := by
  obtain ⟨n, hn⟩ := ha.mult
  obtain ⟨m, hm⟩ := hb.mult
  have ht := two_zpow_pos (-1074)
  have h1 : (m : ℝ) < n := by
    rw [hn, hm] at hab
    exact lt_of_mul_lt_mul_right hab ht.le
  have h2 : ((m + 1 : ℤ) : ℝ) ≤ n := by exact_mod_cast h1
  have h3 : (2 : ℝ) ^ (-1074 : ℤ) ≤ a - b := by
    rw [hn, hm]; push_cast at h2; nlinarith
  exact ht.trans_le (h.ge isDouble_tiny h3)

/-- Mirroring a rounding to nearest. -/
theorem neg (h : Nearest rnd) : Nearest fun x => -rnd (-x) := by
  refine fun x => ⟨(h.double _).neg, fun z hz => ?_⟩
  have := (h (-x)).2 _ hz.neg
  have e1 : x - -rnd (-x) = -(-x - rnd (-x)) := by ring
  have e2 : x - z = -(-x - -z) := by ring
  rw [e1, e2, abs_neg, abs_neg]
  exact this

/-- A value strictly closer than half the spacing to a point of the grid rounds to it. -/
theorem eq_of_close (h : Nearest rnd) {x : ℝ} {k n : ℤ} (hk : -1022 ≤ k) (h1 : (2 : ℝ) ^ k ≤ x)
    (h2 : x < (2 : ℝ) ^ (k + 1)) (hc : |x - n * (2 : ℝ) ^ (k - 52)| < (2 : ℝ) ^ (k - 52) / 2) :
    rnd x = n * (2 : ℝ) ^ (k - 52) := by
  have hs := two_zpow_pos (k - 52)
  have hx0 : 0 ≤ x := (two_zpow_pos k).le.trans h1
  have hax : |x| = x := abs_of_nonneg hx0
  have hdk : IsDouble ((2 : ℝ) ^ k) := by
    simpa using isDouble_of_le (m := 1) (e := k) (by norm_num) (by omega)
  have hge : (2 : ℝ) ^ k ≤ |rnd x| := (h.ge hdk h1).trans (le_abs_self _)
  obtain ⟨m, hm⟩ := (h.double x).mult_of_ge hge
  rw [max_eq_left (by omega)] at hm
  have hgrid := h.err_binade (x := x) (k := k) (by rwa [hax])
  rw [max_eq_left (by omega), hm] at hgrid
  have : |((m : ℝ) - n) * (2 : ℝ) ^ (k - 52)| < (2 : ℝ) ^ (k - 52) := by
    have e : ((m : ℝ) - n) * (2 : ℝ) ^ (k - 52) = (x - n * (2 : ℝ) ^ (k - 52)) - (x - m * (2 : ℝ) ^ (k - 52)) := by ring
    rw [e]
    refine lt_of_le_of_lt (abs_sub _ _) ?_
    linarith
  rw [abs_mul, abs_of_pos hs] at this
  have h5 : |((m - n : ℤ) : ℝ)| < 1 := by
    push_cast
    by_contra hcon
    push Not at hcon
    nlinarith
  rw [← Int.cast_abs] at h5
  have h6 : |m - n| < 1 := by exact_mod_cast h5
  have h7 : m = n := by
    have := Int.abs_lt_one_iff.mp h6
    omega
  rw [hm, h7]

/-- A double below 1 is at most `1 - 2^-53`. -/
theorem _root_.Verif.Fl.IsDouble.lt_one {x : ℝ} (hx : IsDouble x) (h1 : x < 1) : x ≤ 1 - (2 : ℝ) ^ (-53 : ℤ) := by
  have ht := two_zpow_pos (-53)
  have e2 : ((2 ^ 53 : ℤ) : ℝ) * 2 ^ (-53 : ℤ) = 1 := by norm_num
  have hhalf : (2 : ℝ) ^ (-53 : ℤ) ≤ 1 / 2 := by norm_num
  generalize hu : (2 : ℝ) ^ (-53 : ℤ) = u at ht e2 hhalf ⊢
  rcases lt_or_ge x (1 / 2) with h | h
  · linarith
  · have hp : (0 : ℝ) < x := by linarith
    obtain ⟨n, hn⟩ := hx.mult_of_ge (k := -1) (by rw [abs_of_pos hp, zpow_neg_one]; linarith)
    have e : max ((-1 : ℤ) - 52) (-1074) = -53 := by norm_num
    rw [e, hu] at hn
    rw [hn, ← e2] at h1
    have h3 := lt_of_mul_lt_mul_right h1 ht.le
    have h4 : n + 1 ≤ 2 ^ 53 := by exact_mod_cast h3
    have h5 : (n : ℝ) + 1 ≤ ((2 ^ 53 : ℤ) : ℝ) := by exact_mod_cast h4
    rw [hn]
    have := mul_le_mul_of_nonneg_right h5 ht.le
    rw [e2] at this
    linarith

theorem _root_.Verif.Fl.zpow_add53 (e : ℤ) : (2 : ℝ) ^ (e + 53) = ((2 ^ 53 : ℤ) : ℝ) * 2 ^ e := by
  rw [zpow_add₀ (by norm_num)]; norm_num; ring

/-- Small differences are exact. -/
theorem _root_.Verif.Fl.IsDouble.sub_small {a b : ℝ} (ha : IsDouble a) (hb : IsDouble b) (h0 : 0 < a - b)
    (h1 : a - b < (2 : ℝ) ^ (-1021 : ℤ)) : IsDouble (a - b) := by
  obtain ⟨na, hna⟩ := ha.mult
  obtain ⟨nb, hnb⟩ := hb.mult
  have h5 : a - b = ((na - nb : ℤ) : ℝ) * 2 ^ (-1074 : ℤ) := by rw [hna, hnb]; push_cast; ring
  refine ⟨na - nb, -1074, ?_, le_rfl, h5⟩
  have h4 := zpow_add53 (-1074)
  rw [show (-1074 : ℤ) + 53 = -1021 by norm_num] at h4
  rw [h4, h5] at h1
  have h6 := lt_of_mul_lt_mul_right h1 (two_zpow_pos _).le
  have h7 : na - nb < 2 ^ 53 := by exact_mod_cast h6
  have h8 : 0 < na - nb := by
    rw [h5] at h0
    have := (mul_pos_iff_of_pos_right (two_zpow_pos (-1074))).mp h0
    exact_mod_cast this
  rw [abs_of_pos h8]
  exact h7

/-- The key fact about `lb + (ub - lb) * x` for `x < 1`: the product does not exceed the exact width, although the
computed width may. -/
theorem mul_width (h : Nearest rnd) {a b x : ℝ} (ha : IsDouble a) (hb : IsDouble b) (hab : b < a)
    (hx : x ≤ 1 - (2 : ℝ) ^ (-53 : ℤ)) : rnd (rnd (a - b) * x) ≤ a - b := by
  by_contra hc
  push Not at hc
  have hw := h.sub_pos ha hb hab
  have hnear := (h (a - b)).2
  have hwd := h.double (a - b)
  set w := rnd (a - b)
  have hu0 := two_zpow_pos (-53)
  have hwx : w * x ≤ w - w * (2 : ℝ) ^ (-53 : ℤ) := by
    have := mul_le_mul_of_nonneg_left hx hw.le
    linarith
  have hwx' : w * x ≤ w := by
    have : 0 ≤ w * (2 : ℝ) ^ (-53 : ℤ) := mul_nonneg hw.le hu0.le
    linarith
  have hqw : rnd (w * x) ≤ w := h.le hwd hwx'
  have hq : rnd (w * x) = w := by
    have := hnear _ (h.double (w * x))
    rw [abs_of_nonpos (by linarith), abs_of_nonpos (by linarith)] at this
    linarith
  rw [hq] at hc
  -- the exact width is not a double
  have hnd : ¬IsDouble (a - b) := fun hd => by
    have : w = a - b := h.exact hd
    linarith
  obtain ⟨k, hk1, hk2⟩ := exists_binade hw.ne'
  rw [abs_of_pos hw] at hk1 hk2
  have hk : -1022 ≤ k := by
    by_contra hlt
    push Not at hlt
    exact hnd (ha.sub_small hb (by linarith)
      (hc.trans (hk2.trans_le (zpow_le_zpow_right₀ (by norm_num) (by omega)))))
  have hs := two_zpow_pos (k - 53)
  have e52 : (2 : ℝ) ^ (k - 52) = 2 * 2 ^ (k - 53) := by
    rw [show k - 52 = (k - 53) + 1 by ring, zpow_add_one₀ (by norm_num)]; ring
  have e0 : (2 : ℝ) ^ k * 2 ^ (-53 : ℤ) = 2 ^ (k - 53) := by
    rw [← zpow_add₀ (by norm_num)]; rfl
  rcases eq_or_lt_of_le hk1 with he | hlt
  · -- power of two: the next double below is `2^k - 2^(k-53)`
    have hz : IsDouble ((2 : ℝ) ^ k - 2 ^ (k - 53)) ∨ k = -1022 := by
      rcases lt_or_ge k (-1021) with h' | h'
      · right; omega
      · left
        refine ⟨2 ^ 53 - 1, k - 53, by norm_num, by omega, ?_⟩
        have : (2 : ℝ) ^ k = ((2 ^ 53 : ℤ) : ℝ) * 2 ^ (k - 53) := by
          rw [← zpow_add53]; congr 1; ring
        rw [this]; push_cast; ring
    rcases hz with hz | hz
    · have := h.le hz (x := w * x) (by rw [← he] at hwx ⊢; rw [e0] at hwx; exact hwx)
      rw [hq, ← he] at this
      linarith
    · -- the exact width is below `2^-1022`, hence a double
      refine hnd (ha.sub_small hb (by linarith) (hc.trans ?_))
      rw [← he]
      exact zpow_lt_zpow_right₀ (by norm_num) (by omega)
  · -- otherwise it is `w - 2^(k-52)`
    obtain ⟨m, hm⟩ := hwd.mult_of_ge (k := k) (by rw [abs_of_pos hw]; exact hk1)
    rw [max_eq_left (by omega)] at hm
    have hz : IsDouble (w - 2 ^ (k - 52)) := by
      have hm1 : m ≤ 2 ^ 53 := by
        have : (2 : ℝ) ^ (k + 1) = ((2 ^ 53 : ℤ) : ℝ) * 2 ^ (k - 52) := by
          rw [← zpow_add53]; congr 1; ring
        rw [hm, this] at hk2
        have := lt_of_mul_lt_mul_right hk2 (two_zpow_pos _).le
        have : m < 2 ^ 53 := by exact_mod_cast this
        omega
      have hm0 : 0 < m := by
        have : (0 : ℝ) < (m : ℝ) * 2 ^ (k - 52) := by rw [← hm]; exact hw
        have := (mul_pos_iff_of_pos_right (two_zpow_pos _)).mp this
        exact_mod_cast this
      have := isDouble_of_le (m := m - 1) (e := k - 52) (by rw [abs_of_nonneg (by omega)]; omega) (by omega)
      have e : ((m - 1 : ℤ) : ℝ) * (2 : ℝ) ^ (k - 52) = w - 2 ^ (k - 52) := by rw [hm]; push_cast; ring
      rwa [e] at this
    have h1 := (h (w * x)).2 _ hz
    have h2 : (2 : ℝ) ^ (k - 53) < w * 2 ^ (-53 : ℤ) := by
      rw [← e0]; exact mul_lt_mul_of_pos_right hlt hu0
    rw [hq, abs_of_nonpos (by linarith)] at h1
    rcases le_total (w * x) (w - 2 ^ (k - 52)) with h3 | h3
    · rw [abs_of_nonpos (by linarith)] at h1
      rw [e52] at h1
      linarith
    · rw [abs_of_nonneg (by linarith)] at h1
      rw [e52] at h1
      linarith

end Nearest

end Verif.Fl
