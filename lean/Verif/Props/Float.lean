import Verif.Float.Model
import Verif.Props.Design
import Verif.Props.Problems

/-! # Property C92: bounds in double precision -/

namespace Verif.Props

open Verif.Num Verif.Spec Verif.Utils Verif.Design Verif.Fl Verif.Problems

variable {n d : ℕ} {rnd : ℝ → ℝ}

/-- A box with double bounds. -/
structure DoubleBox (lb ub : Pt d) : Prop where
  dlb : ∀ j, IsDouble (lb j)
  dub : ∀ j, IsDouble (ub j)
  lt : ∀ j, lb j < ub j

/-! ## One coordinate -/

/-- `from_unit_box` never falls below the lower bound. -/
theorem C92_lower (h : Nearest rnd) {lb ub x : ℝ} (hl : IsDouble lb) (hlu : lb < ub) (hx : 0 ≤ x) :
    lb ≤ fromUnit1 rnd x lb ub :=
  h.ge hl (le_add_of_nonneg_right (h.nonneg (mul_nonneg (h.nonneg (by linarith)) hx)))

/-- The lower bound is mapped to itself. -/
theorem C92_zero (h : Nearest rnd) {lb ub : ℝ} (hl : IsDouble lb) : fromUnit1 rnd 0 lb ub = lb := by
  unfold fromUnit1
  rw [mul_zero, h.zero, add_zero, h.exact hl]

/-- Monotone. -/
theorem C92_mono (h : Nearest rnd) {lb ub x y : ℝ} (hlu : lb < ub) (hxy : x ≤ y) :
    fromUnit1 rnd x lb ub ≤ fromUnit1 rnd y lb ub :=
  h.mono (by
    have := h.mono (mul_le_mul_of_nonneg_left hxy (h.nonneg (x := ub - lb) (by linarith)))
    linarith)

/-- If the width of the box is a double, the upper bound is respected, and attained at 1. -/
theorem C92_upper (h : Nearest rnd) {lb ub : ℝ} (hu : IsDouble ub) (hlu : lb < ub) (hw : IsDouble (ub - lb)) :
    fromUnit1 rnd 1 lb ub = ub ∧ ∀ x, x ≤ 1 → fromUnit1 rnd x lb ub ≤ ub := by
  have h1 : fromUnit1 rnd 1 lb ub = ub := by
    unfold fromUnit1
    rw [mul_one, h.exact (h.double _), h.exact hw]
    have : lb + (ub - lb) = ub := by ring
    rw [this, h.exact hu]
  exact ⟨h1, fun x hx => (C92_mono h hlu hx).trans h1.le⟩

/-- The widths that are doubles: integer bounds, boxes starting at zero and boxes symmetric about zero. -/
theorem C92_widths {lb ub : ℝ} (hu : IsDouble ub)
    (h : lb = 0 ∨ lb = -ub ∨ ∃ l u : ℤ, lb = l ∧ ub = u ∧ |u - l| ≤ 2 ^ 53) : IsDouble (ub - lb) := by
  rcases h with rfl | rfl | ⟨l, u, rfl, rfl, hlu⟩
  · simpa using hu
  · have := hu.two_mul
    have e : ub - -ub = 2 * ub := by ring
    rwa [e]
  · have := isDouble_int hlu
    push_cast at this
    exact this

/-- In general the upper bound is exceeded by at most a rounding error. -/
theorem C92_overshoot (h : Nearest rnd) {lb ub x : ℝ} (hl : IsDouble lb) (hu : IsDouble ub) (hlu : lb < ub) (hx : x ≤ 1) :
    fromUnit1 rnd x lb ub ≤ ub + (2 : ℝ) ^ (-52 : ℤ) * (|ub| + (ub - lb)) := by
  refine (C92_mono h hlu hx).trans ?_
  unfold fromUnit1
  rw [mul_one, h.exact (h.double _)]
  have e1 := h.err_sub hu hl
  rw [abs_of_pos (sub_pos.mpr hlu)] at e1
  have e2 := h.err_add hl (h.double (ub - lb))
  have w1 := (abs_le.mp e1).1
  have hw0 : 0 < ub - lb := by linarith
  set w := rnd (ub - lb)
  set u : ℝ := (2 : ℝ) ^ (-53 : ℤ) with hudef
  have hu0 : 0 < u := two_zpow_pos _
  have hu1 : u ≤ 1 / 2 := by rw [hudef]; norm_num
  have h52 : (2 : ℝ) ^ (-52 : ℤ) = 2 * u := by rw [hudef]; norm_num
  clear_value u w
  clear hudef
  have e3 := (abs_le.mp e2).1
  have w2 := (abs_le.mp e1).2
  have ha : |lb + w| ≤ |ub| + u * (ub - lb) := by
    have : lb + w = ub + (w - (ub - lb)) := by ring
    rw [this]
    refine (abs_add_le _ _).trans ?_
    rw [abs_sub_comm w]
    linarith
  have hm : u * |lb + w| ≤ u * (|ub| + u * (ub - lb)) := mul_le_mul_of_nonneg_left ha hu0.le
  have hm2 : u * (u * (ub - lb)) ≤ u * (ub - lb) := by
    refine mul_le_mul_of_nonneg_left ?_ hu0.le
    exact mul_le_of_le_one_left hw0.le (by linarith)
  have hm3 : 0 ≤ u * |ub| := mul_nonneg hu0.le (abs_nonneg _)
  rw [h52]
  nlinarith

/-- Below 1 the upper bound is always respected: only the end point of the unit interval can be mapped outside. -/
theorem C92_open (h : Nearest rnd) {lb ub x : ℝ} (hl : IsDouble lb) (hu : IsDouble ub) (hlu : lb < ub) (hx : IsDouble x)
    (h1 : x < 1) : fromUnit1 rnd x lb ub ≤ ub := by
  have := h.mul_width hu hl hlu (hx.lt_one h1)
  exact h.le hu (by linarith)

/-- Uniform draws are in the box, in every box with double bounds. -/
theorem C92_uniform (h : Nearest rnd) {lb ub y : ℝ} (hl : IsDouble lb) (hu : IsDouble ub) (hlu : lb < ub)
    (hy : UniformReturns rnd lb ub y) : lb ≤ y ∧ y ≤ ub := by
  obtain ⟨u, hd, h0, h1, rfl⟩ := hy
  exact ⟨C92_lower h hl hlu h0, C92_open h hl hu hlu hd h1⟩

/-- `to_unit_box` maps the box into the unit interval, the bounds to 0 and 1, and keeps the order. -/
theorem C92_to_unit (h : Nearest rnd) {lb ub : ℝ} (hl : IsDouble lb) (hu : IsDouble ub) (hlu : lb < ub) :
    toUnit1 rnd lb lb ub = 0 ∧ toUnit1 rnd ub lb ub = 1 ∧
    (∀ x, lb ≤ x → x ≤ ub → 0 ≤ toUnit1 rnd x lb ub ∧ toUnit1 rnd x lb ub ≤ 1) ∧
    ∀ x y, x ≤ y → toUnit1 rnd x lb ub ≤ toUnit1 rnd y lb ub := by
  have hw := h.sub_pos hu hl hlu
  have h0 : toUnit1 rnd lb lb ub = 0 := by unfold toUnit1; rw [sub_self, h.zero, zero_div, h.zero]
  have h1 : toUnit1 rnd ub lb ub = 1 := by unfold toUnit1; rw [div_self hw.ne', h.one]
  have hm : ∀ x y, x ≤ y → toUnit1 rnd x lb ub ≤ toUnit1 rnd y lb ub := fun x y hxy =>
    h.mono (div_le_div_of_nonneg_right (h.mono (by linarith)) hw.le)
  exact ⟨h0, h1, fun x a b => ⟨h0 ▸ hm _ _ a, h1 ▸ hm _ _ b⟩, hm⟩

/-- `unit_rescale` of a vector of doubles: all ones if the entries are equal, and otherwise values in the unit interval in
the same order, 0 exactly at smallest entries and 1 at largest entries. -/
theorem C92_rescale (h : Nearest rnd) {m : ℕ} (x : Fin (m + 1) → ℝ) (hx : ∀ i, IsDouble (x i)) :
    (∀ i, 0 ≤ Fl.unitRescale rnd x i ∧ Fl.unitRescale rnd x i ≤ 1) ∧
    (∀ i k, x i ≤ x k → Fl.unitRescale rnd x i ≤ Fl.unitRescale rnd x k) ∧
    (∀ i, (∀ k, x k ≤ x i) → Fl.unitRescale rnd x i = 1) ∧
    (∀ i, (∀ k, x i ≤ x k) → (∃ k, x k ≠ x i) → Fl.unitRescale rnd x i = 0) := by
  have hmax : ∀ i, x i ≤ vmax x := fun i => Finset.le_sup' x (Finset.mem_univ i)
  have hmin : ∀ i, vmin x ≤ x i := fun i => Finset.inf'_le x (Finset.mem_univ i)
  obtain ⟨a, -, ha⟩ := Finset.exists_mem_eq_sup' Finset.univ_nonempty x
  obtain ⟨b, -, hb⟩ := Finset.exists_mem_eq_inf' Finset.univ_nonempty x
  have ha' : vmax x = x a := ha
  have hb' : vmin x = x b := hb
  unfold Fl.unitRescale
  split
  · rename_i he
    refine ⟨fun i => ⟨zero_le_one, le_rfl⟩, fun _ _ _ => le_rfl, fun _ _ => rfl, fun i hi ⟨k, hk⟩ => ?_⟩
    exfalso
    have := hmax k; have := hmin i; have := hmin k; have := hmax i
    exact hk (by linarith)
  · rename_i he
    have hlt : vmin x < vmax x := lt_of_le_of_ne ((hmin a).trans (hmax a)) (Ne.symm he)
    obtain ⟨h0, h1, h2, h3⟩ := C92_to_unit h (hb' ▸ hx b) (ha' ▸ hx a) hlt
    refine ⟨fun i => h2 _ (hmin i) (hmax i), fun i k hik => h3 _ _ hik, fun i hi => ?_, fun i hi _ => ?_⟩
    · have : x i = vmax x := le_antisymm (hmax i) (ha' ▸ hi a)
      beta_reduce
      rw [this]; exact h1
    · have : x i = vmin x := le_antisymm (hb' ▸ hi b) (hmin i)
      beta_reduce
      rw [this]; exact h0

/-! ## Points and designs -/

/-- Mapping a point of the unit cube: a continuous coordinate respects the lower bound and exceeds the upper bound by at
most a rounding error, not at all if the width of the box is a double; an integer coordinate is always in the box. -/
theorem C92_point (h : Nearest rnd) {lb ub : Pt d} (hb : DoubleBox lb ub) (iv : List (Fin d)) (x : Pt d)
    (hx : InBox (fun _ => 0) (fun _ => 1) x) (j : Fin d) :
    lb j ≤ mapPoint rnd lb ub iv x j ∧
    mapPoint rnd lb ub iv x j ≤ ub j + (2 : ℝ) ^ (-52 : ℤ) * (|ub j| + (ub j - lb j)) ∧
    (j ∈ iv ∨ IsDouble (ub j - lb j) → mapPoint rnd lb ub iv x j ≤ ub j) := by
  have hlt := hb.lt j
  have hpos : 0 ≤ (2 : ℝ) ^ (-52 : ℤ) * (|ub j| + (ub j - lb j)) :=
    mul_nonneg (two_zpow_pos _).le (by have := abs_nonneg (ub j); linarith)
  unfold mapPoint
  rw [roundVars_apply]
  split
  · have h1 : lb j ≤ clip (lb j) (ub j) (rint (Fl.fromUnitBox rnd x lb ub j)) := le_min (le_max_right _ _) hlt.le
    have h2 : clip (lb j) (ub j) (rint (Fl.fromUnitBox rnd x lb ub j)) ≤ ub j := min_le_right _ _
    exact ⟨h1, by linarith, fun _ => h2⟩
  · rename_i hj
    refine ⟨C92_lower h (hb.dlb j) hlt (hx j).1, C92_overshoot h (hb.dlb j) (hb.dub j) hlt (hx j).2, fun hc => ?_⟩
    exact (C92_upper h (hb.dub j) hlt (hc.resolve_left hj)).2 _ (hx j).2

/-- The computed symmetric Latin hypercube stays in the unit cube and has a point with any given coordinate equal to 1. -/
theorem slhd_unit (h : Nearest rnd) (hn : 2 ≤ n) (coin : ℕ → ℕ → Bool) (σ : ℕ → Equiv.Perm (Fin (n / 2))) :
    (∀ i, InBox (fun _ => 0) (fun _ => 1) (Fl.slhd rnd n d coin σ i)) ∧ ∀ j, ∃ i, Fl.slhd rnd n d coin σ i j = 1 := by
  refine ⟨fun i j => ⟨h.nonneg (C43_cube hn coin σ i j).1, h.le isDouble_one (C43_cube hn coin σ i j).2⟩, fun j => ?_⟩
  obtain ⟨i, hi, -⟩ := C43_latin hn coin σ j (n - 1) (by omega)
  refine ⟨i, ?_⟩
  have hp := pred_pos hn
  have e : ((n - 1 : ℕ) : ℝ) = (n : ℝ) - 1 := by push_cast [Nat.cast_sub (by omega : 1 ≤ n)]; ring
  unfold Fl.slhd
  rw [hi, e, div_self hp.ne', h.one]

/-- In each coordinate at most one point of a symmetric Latin hypercube is outside the box, the one on the last level. -/
theorem C92_slhd_one (h : Nearest rnd) (hn : 2 ≤ n) (hn' : n ≤ 2 ^ 53) {lb ub : Pt d} (hb : DoubleBox lb ub)
    (iv : List (Fin d)) (X : Des n d) (hX : SlhdReturns rnd lb ub iv X) (j : Fin d) (i i' : Fin n)
    (hi : ub j < X i j) (hi' : ub j < X i' j) : i = i' := by
  obtain ⟨coin, σ, rfl⟩ := hX
  have hp := pred_pos hn
  have key : ∀ i : Fin n, ub j < mapPoint rnd lb ub iv (Fl.slhd rnd n d coin σ i) j →
      Design.slhd n d coin σ i j = ((n - 1 : ℕ) : ℝ) / ((n : ℝ) - 1) := by
    intro i hi
    have e : ((n - 1 : ℕ) : ℝ) = (n : ℝ) - 1 := by push_cast [Nat.cast_sub (by omega : 1 ≤ n)]; ring
    rw [e, div_self hp.ne']
    by_contra hne
    have hlt : Design.slhd n d coin σ i j < 1 := lt_of_le_of_ne (C43_cube hn coin σ i j).2 hne
    have hd1 : IsDouble (1 - (2 : ℝ) ^ (-53 : ℤ)) := by
      refine ⟨2 ^ 53 - 1, -53, by norm_num, by norm_num, ?_⟩
      norm_num
    have hle : Design.slhd n d coin σ i j ≤ 1 - (2 : ℝ) ^ (-53 : ℤ) := by
      rw [slhd_apply] at hlt ⊢
      rw [div_lt_one hp] at hlt
      rw [div_le_iff₀ hp]
      have h1 : (slhdArr n d coin σ i j : ℝ) < n := by linarith
      have h2 : slhdArr n d coin σ i j + 1 ≤ (n : ℤ) := by exact_mod_cast h1
      have h3 : (slhdArr n d coin σ i j : ℝ) + 1 ≤ n := by exact_mod_cast h2
      have h4 : (2 : ℝ) ^ (-53 : ℤ) * ((n : ℝ) - 1) ≤ 1 := by
        have : (n : ℝ) ≤ 2 ^ 53 := by exact_mod_cast hn'
        have e2 : (2 : ℝ) ^ (-53 : ℤ) * 2 ^ 53 = 1 := by norm_num
        have := mul_le_mul_of_nonneg_left (show (n : ℝ) - 1 ≤ 2 ^ 53 by linarith) (two_zpow_pos (-53)).le
        linarith
      linarith
    have hlt1 : Fl.slhd rnd n d coin σ i j < 1 :=
      lt_of_le_of_lt (h.le hd1 hle) (by have := two_zpow_pos (-53); linarith)
    have hin := (slhd_unit (d := d) h hn coin σ).1 i
    have := (C92_point h hb iv _ hin j).2.2
    by_cases hj : j ∈ iv
    · exact absurd (this (.inl hj)) (not_le.mpr hi)
    · unfold mapPoint at hi
      rw [roundVars_apply, if_neg hj] at hi
      exact absurd (C92_open h (hb.dlb j) (hb.dub j) (hb.lt j) (h.double _) hlt1) (not_le.mpr hi)
  obtain ⟨k, -, huniq⟩ := C43_latin (d := d) hn coin σ j (n - 1) (by omega)
  rw [huniq i (key i hi), huniq i' (key i' hi')]

/-- Designs in a box all of whose widths are doubles: every point is in the box. -/
theorem C92_designs (h : Nearest rnd) {lb ub : Pt d} (hb : DoubleBox lb ub) (iv : List (Fin d))
    (hw : ∀ j, j ∉ iv → IsDouble (ub j - lb j)) :
    (∀ x ∈ twoFactorial rnd d lb ub iv, InBox lb ub x) ∧
    (2 ≤ n → ∀ X : Des n d, SlhdReturns rnd lb ub iv X → ∀ i, InBox lb ub (X i)) := by
  have key : ∀ x, InBox (fun _ => 0) (fun _ => 1) x → InBox lb ub (mapPoint rnd lb ub iv x) := fun x hx j => by
    obtain ⟨h1, -, h3⟩ := C92_point h hb iv x hx j
    refine ⟨h1, h3 ?_⟩
    by_cases hj : j ∈ iv
    · exact .inl hj
    · exact .inr (hw j hj)
  constructor
  · intro x hx
    obtain ⟨y, hy, rfl⟩ := List.mem_map.mp hx
    refine key y fun j => ?_
    rcases (mem_product01 d y).mp hy j with e | e <;> rw [e] <;> constructor <;> norm_num
  · rintro hn X ⟨coin, σ, rfl⟩ i
    exact key _ ((slhd_unit h hn coin σ).1 i)

/-- The double nearest to 1.7. -/
noncomputable def u17 : ℝ := ((0x1b333333333333 : ℤ) : ℝ) * (2 : ℝ) ^ (-52 : ℤ)

theorem u17_double : IsDouble u17 := ⟨_, _, by norm_num, by norm_num, rfl⟩

theorem u17_near : |u17 - 1.7| ≤ (2 : ℝ) ^ (-53 : ℤ) := by
  unfold u17
  norm_num [abs_le]

theorem m5_double : IsDouble (-5) := by simpa using isDouble_int (m := -5) (by norm_num)

theorem m5_lt : (-5 : ℝ) < u17 := by unfold u17; norm_num

/-! ## Candidates drawn from a truncated normal distribution -/

theorem trunc_upper (h : Nearest rnd) {lb ub x sigma y : ℝ} (hu : IsDouble ub) (hx : IsDouble x)
    (h1 : lb ≤ x) (h2 : x ≤ ub) (hs : 0 < sigma) (hy : TruncReturns rnd lb ub x sigma y) :
    y ≤ ub + ((2 : ℝ) ^ (-49 : ℤ) * (|lb| + |ub|) + (2 : ℝ) ^ (-1073 : ℤ) * (sigma + 1)) := by
  obtain ⟨z, -, hz, rfl⟩ := hy
  have hD : 0 ≤ ub - x := by linarith
  have e1 := h.err_sub hu hx
  rw [abs_of_nonneg hD] at e1
  have hD' := h.nonneg hD
  set D' := rnd (ub - x)
  have hq : 0 ≤ D' / sigma := div_nonneg hD' hs.le
  have e2 := h.err (D' / sigma)
  rw [abs_of_nonneg hq] at e2
  have hb := h.nonneg hq
  set b := rnd (D' / sigma)
  have e3 := h.err (b * sigma)
  rw [abs_of_nonneg (mul_nonneg hb hs.le)] at e3
  have hp := h.nonneg (mul_nonneg hb hs.le)
  have m1 : rnd (z * sigma) ≤ rnd (b * sigma) := h.mono (mul_le_mul_of_nonneg_right hz hs.le)
  have m2 : rnd (rnd (z * sigma) + x) ≤ rnd (rnd (b * sigma) + x) := h.mono (by linarith)
  have e4 := h.err_add (h.double (b * sigma)) hx
  set p := rnd (b * sigma)
  refine m2.trans ?_
  have hqs : D' / sigma * sigma = D' := div_mul_cancel₀ _ hs.ne'
  generalize rnd (p + x) = r at e4 ⊢
  set u : ℝ := (2 : ℝ) ^ (-53 : ℤ) with hud
  set t : ℝ := (2 : ℝ) ^ (-1075 : ℤ) with htd
  have hu0 : 0 < u := two_zpow_pos _
  have ht0 : 0 < t := two_zpow_pos _
  have hu1 : u ≤ 1 / 16 := by rw [hud]; norm_num
  have c1 : (2 : ℝ) ^ (-49 : ℤ) = 16 * u := by rw [hud]; norm_num
  have c2 : (2 : ℝ) ^ (-1073 : ℤ) = 4 * t := by
    have : (4 : ℝ) = 2 ^ (2 : ℤ) := by norm_num
    rw [htd, this, ← zpow_add₀ (by norm_num)]; norm_num
  rw [c1, c2]
  clear_value u t D' b p
  clear hud htd c1 c2 m1 m2 hz
  have a1 : D' ≤ (1 + u) * (ub - x) := by have := (abs_le.mp e1).1; linarith
  have a2 : b * sigma ≤ (1 + u) * D' + t * sigma := by
    have : b ≤ (1 + u) * (D' / sigma) + t := by have := (abs_le.mp e2).1; linarith
    have := mul_le_mul_of_nonneg_right this hs.le
    calc b * sigma ≤ ((1 + u) * (D' / sigma) + t) * sigma := this
      _ = (1 + u) * (D' / sigma * sigma) + t * sigma := by ring
      _ = _ := by rw [hqs]
  have a3 : p ≤ (1 + u) * (b * sigma) + t := by have := (abs_le.mp e3).1; linarith
  have a4 : p ≤ (1 + u) * ((1 + u) * ((1 + u) * (ub - x)) + t * sigma) + t := by
    refine a3.trans ?_
    have : b * sigma ≤ (1 + u) * ((1 + u) * (ub - x)) + t * sigma := by
      have := mul_le_mul_of_nonneg_left a1 (by linarith : 0 ≤ 1 + u)
      linarith
    have := mul_le_mul_of_nonneg_left this (by linarith : 0 ≤ 1 + u)
    linarith
  have a5 : (1 + u) * ((1 + u) * (1 + u)) ≤ 1 + 4 * u := by
    have v1 : u * u ≤ u * (1 / 16) := mul_le_mul_of_nonneg_left hu1 hu0.le
    have v2 : u * (u * u) ≤ u * (1 / 16) := mul_le_mul_of_nonneg_left (by linarith) hu0.le
    have : (1 + u) * ((1 + u) * (1 + u)) = 1 + 3 * u + 3 * (u * u) + u * (u * u) := by ring
    linarith
  have a6 : p ≤ (1 + 4 * u) * (ub - x) + 2 * t * (sigma + 1) := by
    have b1 := mul_le_mul_of_nonneg_right a5 hD
    have b2 : u * (t * sigma) ≤ t * sigma := mul_le_of_le_one_left (by positivity) (by linarith)
    nlinarith
  have hW : ub - x ≤ |lb| + |ub| := by
    have := neg_abs_le lb; have := le_abs_self ub; linarith
  have a7 : p + x ≤ ub + 4 * u * (|lb| + |ub|) + 2 * t * (sigma + 1) := by
    have := mul_le_mul_of_nonneg_left hW (by linarith : 0 ≤ 4 * u)
    nlinarith
  have hA : 0 ≤ |lb| + |ub| := add_nonneg (abs_nonneg _) (abs_nonneg _)
  have hT : 0 ≤ 2 * t * (sigma + 1) := by positivity
  have a8 : |p + x| ≤ (1 + 4 * u) * (|lb| + |ub|) + 2 * t * (sigma + 1) := by
    have := neg_abs_le lb; have := le_abs_self ub; have := abs_nonneg lb; have := abs_nonneg ub
    have h0 : 0 ≤ 4 * u * (|lb| + |ub|) := mul_nonneg (by linarith) hA
    rw [abs_le]
    constructor <;> nlinarith
  have a9 : u * |p + x| ≤ 2 * u * (|lb| + |ub|) + 2 * t * (sigma + 1) := by
    have b1 := mul_le_mul_of_nonneg_left a8 hu0.le
    have b2 : u * (2 * t * (sigma + 1)) ≤ 2 * t * (sigma + 1) := mul_le_of_le_one_left hT (by linarith)
    have b3 : u * ((1 + 4 * u) * (|lb| + |ub|)) ≤ 2 * u * (|lb| + |ub|) := by
      have : u * (1 + 4 * u) ≤ 2 * u := by nlinarith
      have := mul_le_mul_of_nonneg_right this hA
      linarith
    nlinarith
  have a10 := (abs_le.mp e4).1
  have : 0 ≤ u * (|lb| + |ub|) := mul_nonneg hu0.le hA
  nlinarith

/-- A perturbed coordinate of a candidate is in the box up to a rounding error. -/
theorem C92_trunc (h : Nearest rnd) {lb ub x sigma y : ℝ} (hl : IsDouble lb) (hu : IsDouble ub) (hx : IsDouble x)
    (h1 : lb ≤ x) (h2 : x ≤ ub) (hs : 0 < sigma) (hy : TruncReturns rnd lb ub x sigma y) :
    lb - ((2 : ℝ) ^ (-49 : ℤ) * (|lb| + |ub|) + (2 : ℝ) ^ (-1073 : ℤ) * (sigma + 1)) ≤ y ∧
    y ≤ ub + ((2 : ℝ) ^ (-49 : ℤ) * (|lb| + |ub|) + (2 : ℝ) ^ (-1073 : ℤ) * (sigma + 1)) := by
  refine ⟨?_, trunc_upper h hu hx h1 h2 hs hy⟩
  obtain ⟨z, hz1, hz2, rfl⟩ := hy
  have key : TruncReturns (fun x => -rnd (-x)) (-ub) (-lb) (-x) sigma (-rnd (rnd (z * sigma) + x)) := by
    refine ⟨-z, ?_, ?_, ?_⟩
    · have e2 : -(-rnd (-(-ub - -x)) / sigma) = rnd (ub - x) / sigma := by
        rw [show -(-ub - -x) = ub - x by ring]; ring
      beta_reduce
      rw [e2]
      exact neg_le_neg hz2
    · have e2 : -(-rnd (-(-lb - -x)) / sigma) = rnd (lb - x) / sigma := by
        rw [show -(-lb - -x) = lb - x by ring]; ring
      beta_reduce
      rw [e2]
      exact neg_le_neg hz1
    · have e1 : -(-z * sigma) = z * sigma := by ring
      beta_reduce
      rw [e1]
      have e2 : -(-rnd (z * sigma) + -x) = rnd (z * sigma) + x := by ring
      rw [e2]
  have := trunc_upper h.neg hl.neg hx.neg (neg_le_neg h2) (neg_le_neg h1) hs key
  rw [abs_neg, abs_neg, add_comm |ub|] at this
  linarith

/-- Concrete case: the box [-5, 1.7], center 0, standard deviation 1, the largest possible draw. -/
example : ∃ rnd, Nearest rnd ∧ TruncReturns rnd (-5) u17 0 1 u17 := by
  obtain ⟨rnd, h⟩ := exists_nearest
  refine ⟨rnd, h, u17, ?_, ?_, ?_⟩
  · rw [sub_zero, div_one, h.exact (h.double _), h.exact m5_double]; exact m5_lt.le
  · rw [sub_zero, div_one, h.exact (h.double _), h.exact u17_double]
  · rw [mul_one, add_zero, h.exact (h.double _), h.exact u17_double]

/-! ## The bundled problems -/

/-- A bound as written in the source: a nonnegative literal (or `np.pi`), possibly negated, rounded to a double. -/
noncomputable def literal (rnd : ℝ → ℝ) (c : ℝ) : ℝ := if c < 0 then -rnd (-c) else rnd c

theorem literal_double (h : Nearest rnd) (c : ℝ) : IsDouble (literal rnd c) := by
  unfold literal; split
  · exact (h.double _).neg
  · exact h.double _

theorem literal_width (h : Nearest rnd) {l u : ℝ} (hl : l ≤ 0) (hu : 1 ≤ u)
    (hw : l = 0 ∨ l = -u ∨ ∃ a b : ℤ, l = a ∧ u = b ∧ |a| ≤ 2 ^ 53 ∧ |b| ≤ 2 ^ 53 ∧ |b - a| ≤ 2 ^ 53) :
    literal rnd l < literal rnd u ∧ IsDouble (literal rnd u - literal rnd l) := by
  have hlu : literal rnd u = rnd u := by unfold literal; rw [if_neg (by linarith)]
  have hu1 : 1 ≤ rnd u := h.ge isDouble_one hu
  have hll : literal rnd l ≤ 0 := by
    unfold literal; split
    · have := h.nonneg (x := -l) (by linarith); linarith
    · have : l = 0 := by linarith
      rw [this, h.zero]
  refine ⟨by linarith, ?_⟩
  refine C92_widths (literal_double h u) ?_
  rcases hw with rfl | rfl | ⟨a, b, rfl, rfl, ha, hb, hab⟩
  · left; unfold literal; simp [h.zero]
  · right; left
    unfold literal
    rw [if_pos (by linarith), if_neg (by linarith), neg_neg]
  · right; right
    refine ⟨a, b, ?_, ?_, hab⟩
    · unfold literal; split
      · rw [h.exact (isDouble_int ha).neg, neg_neg]
      · rw [h.exact (isDouble_int ha)]
    · rw [hlu, h.exact (isDouble_int hb)]

/-- The box of each bundled problem has double widths, so that the designs respect its bounds (`C92_designs`). -/
theorem C92_bundled (h : Nearest rnd) {P : Problem} (hP : Bundled P) (i : ℕ) (hi : i < P.dim) :
    literal rnd (P.lb.getD i 0) < literal rnd (P.ub.getD i 0) ∧
    IsDouble (literal rnd (P.ub.getD i 0) - literal rnd (P.lb.getD i 0)) := by
  have key : ∀ (n : ℕ) (l u : ℝ), i < n → l ≤ 0 → 1 ≤ u →
      (l = 0 ∨ l = -u ∨ ∃ a b : ℤ, l = a ∧ u = b ∧ |a| ≤ 2 ^ 53 ∧ |b| ≤ 2 ^ 53 ∧ |b - a| ≤ 2 ^ 53) →
      literal rnd ((const n l).getD i 0) < literal rnd ((const n u).getD i 0) ∧
      IsDouble (literal rnd ((const n u).getD i 0) - literal rnd ((const n l).getD i 0)) := by
    intro n l u hn hl hu hw
    have e : ∀ c : ℝ, (const n c).getD i 0 = c := fun c => by
      unfold const; simp [List.getD, hn]
    rw [e, e]
    exact literal_width h hl hu hw
  have hpi : (1 : ℝ) ≤ Real.pi := by have := Real.two_le_pi; linarith
  cases hP
  case michalewicz d => exact key d 0 Real.pi hi le_rfl hpi (.inl rfl)
  case hartmann3 => exact key 3 0 1 hi le_rfl le_rfl (.inl rfl)
  case hartmann6 => exact key 6 0 1 hi le_rfl le_rfl (.inl rfl)
  case ackley d =>
    exact key d (-15) 20 hi (by norm_num) (by norm_num)
      (.inr (.inr ⟨-15, 20, by norm_num, by norm_num, by norm_num, by norm_num, by norm_num⟩))
  case zakharov d =>
    exact key d (-5) 10 hi (by norm_num) (by norm_num)
      (.inr (.inr ⟨-5, 10, by norm_num, by norm_num, by norm_num, by norm_num, by norm_num⟩))
  all_goals exact key _ _ _ hi (by norm_num) (by norm_num) (.inr (.inl (by norm_num)))

/-! ## The upper bound is violated -/

/-- In the interval [-5, 1.7] the point 1 of the unit interval is mapped to 1.7000000000000002, above the bound, by
every rounding to nearest. -/
theorem fromUnit_overshoots (h : Nearest rnd) : u17 < fromUnit1 rnd 1 (-5) u17 := by
  have h1 : rnd (u17 - -5) = ((0x1acccccccccccd : ℤ) : ℝ) * (2 : ℝ) ^ ((2 : ℤ) - 52) := by
    refine h.eq_of_close (k := 2) (by norm_num) ?_ ?_ ?_
    · unfold u17; norm_num
    · unfold u17; norm_num
    · unfold u17; norm_num [abs_lt]
  unfold fromUnit1
  rw [mul_one, h.exact (h.double _), h1]
  have e : (-5 : ℝ) + ((0x1acccccccccccd : ℤ) : ℝ) * (2 : ℝ) ^ ((2 : ℤ) - 52) =
      ((0x1b333333333334 : ℤ) : ℝ) * (2 : ℝ) ^ (-52 : ℤ) := by norm_num
  rw [e, h.exact ⟨_, _, by norm_num, by norm_num, rfl⟩]
  unfold u17
  norm_num

/-- There is a box with double bounds for which every symmetric Latin hypercube of at least two points, and the
two-factorial design, have a point outside the box in each coordinate, whatever the random choices and the rounding of
ties. -/
theorem C92_refuted (d : ℕ) (hd : 0 < d) : ∃ lb ub : Pt d, DoubleBox lb ub ∧ ∀ rnd, Nearest rnd →
    (∀ n, 2 ≤ n → ∀ X : Des n d, SlhdReturns rnd lb ub [] X → ∀ j, ∃ i, ub j < X i j) ∧
    ∃ x ∈ twoFactorial rnd d lb ub [], ∀ j, ub j < x j := by
  refine ⟨fun _ => -5, fun _ => u17, ⟨fun _ => m5_double, fun _ => u17_double, fun _ => m5_lt⟩, fun rnd h => ⟨?_, ?_⟩⟩
  · rintro n hn X ⟨coin, σ, rfl⟩ j
    obtain ⟨i, hi⟩ := (slhd_unit h hn coin σ).2 j
    refine ⟨i, ?_⟩
    beta_reduce
    unfold mapPoint
    rw [roundVars_apply, if_neg (by simp)]
    unfold Fl.fromUnitBox
    rw [hi]
    exact fromUnit_overshoots h
  · refine ⟨_, List.mem_map_of_mem ((mem_product01 d fun _ => 1).mpr fun _ => .inr rfl), fun j => ?_⟩
    unfold mapPoint
    rw [roundVars_apply, if_neg (by simp)]
    exact fromUnit_overshoots h

/-- The value one half is drawn by `np.random.uniform` in the box of the counterexample. -/
example : ∃ rnd, Nearest rnd ∧ UniformReturns rnd (-5) u17 (fromUnit1 rnd (1 / 2) (-5) u17) := by
  obtain ⟨rnd, h⟩ := exists_nearest
  refine ⟨rnd, h, 1 / 2, ?_, by norm_num, by norm_num, rfl⟩
  have := isDouble_of_le (m := 1) (e := -1) (by norm_num) (by norm_num)
  norm_num at this
  convert this using 1

/-- Concrete cases: the box of the statement is not degenerate, rounding to nearest exists, and the box `[-15, 20]` of the
Ackley problem meets the hypotheses of the positive statements. -/
example : (∃ rnd, Nearest rnd) ∧ DoubleBox (d := 2) (fun _ => -5) (fun _ => u17) ∧
    DoubleBox (d := 2) (fun _ => -15) (fun _ => 20) ∧ IsDouble (20 - -15) := by
  have hi : ∀ m : ℤ, |m| ≤ 2 ^ 53 → IsDouble (m : ℝ) := fun m => isDouble_int
  refine ⟨exists_nearest, ⟨fun _ => m5_double, fun _ => u17_double, fun _ => m5_lt⟩,
    ⟨fun _ => by simpa using hi (-15) (by norm_num), fun _ => by simpa using hi 20 (by norm_num), fun _ => by norm_num⟩, ?_⟩
  exact C92_widths (by simpa using hi 20 (by norm_num)) (.inr (.inr ⟨-15, 20, by norm_num, by norm_num, by norm_num⟩))

end Verif.Props
