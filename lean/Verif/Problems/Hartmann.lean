import Verif.Problems.Model
import Mathlib.Analysis.Convex.SpecificFunctions.Basic
import Mathlib.Analysis.Complex.Exponential

/-!
# A verified bound for sums of Gaussians `Σ αᵢ exp (-qᵢ x)` with four separable quadratic forms (Hartmann3, Hartmann6)

The values `(q₁ x, …, q₄ x)` are covered by boxes (a tree of splits).  In a box each exponential is below a chord, the sum of
the chords is a concave separable quadratic function of `x`, and its maximum is known in closed form.  All computations
are with natural numbers, and are run by the kernel.
-/

namespace Verif.Problems

/-- Scale of the exponents: arguments are multiples of `1/8192`. -/
abbrev hK : ℕ := 8192

/-- Scale of the values: `2^60`. -/
abbrev hS : ℕ := 1152921504606846976

/-- Upper bound of `2^60 * exp (-1/8192)`. -/
abbrev hR : ℕ := 1152780775708076726

def mulUp (a b : ℕ) : ℕ := a * b / hS + 1

/-- Upper bound of `2^60 * exp (-k/8192)`, by repeated squaring. -/
def expUp : ℕ → ℕ → ℕ
  | 0, _ => hS
  | f + 1, k =>
    if k = 0 then hS
    else
      let e := expUp f (k / 2)
      let e2 := mulUp e e
      if k % 2 = 0 then e2 else mulUp e2 hR

theorem mulUp_ge {a b : ℕ} {x y : ℝ} (hx : 0 ≤ x) (hy : 0 ≤ y) (ha : x ≤ a / hS) (hb : y ≤ b / hS) :
    x * y ≤ mulUp a b / hS := by
  have h1 : a * b ≤ (a * b / hS + 1) * hS := by
    have := Nat.div_add_mod (a * b) hS
    have := Nat.mod_lt (a * b) (show 0 < hS by decide)
    have e : (a * b / hS + 1) * hS = hS * (a * b / hS) + hS := by ring
    omega
  have hs : (0 : ℝ) < (hS : ℕ) := by norm_num
  have h2 : ((a * b : ℕ) : ℝ) ≤ ((a * b / hS + 1) * hS : ℕ) := by exact_mod_cast h1
  push_cast at h2
  have h3 : x * y ≤ (a / hS) * (b / hS) := mul_le_mul ha hb hy (by positivity)
  refine h3.trans ?_
  unfold mulUp
  rw [div_mul_div_comm, div_le_div_iff₀ (by positivity) hs]
  push_cast
  nlinarith

theorem exp_first : Real.exp (-(1 / (hK : ℕ) : ℝ)) ≤ (hR : ℕ) / (hS : ℕ) := by
  have h := Real.exp_bound' (x := 1 / (hK : ℕ)) (by norm_num) (by norm_num) (n := 4) (by norm_num)
  have hb : |Real.exp (-(1 / (hK : ℕ) : ℝ)) - ∑ m ∈ Finset.range 5, (-(1 / (hK : ℕ) : ℝ)) ^ m / m.factorial| ≤
      |(-(1 / (hK : ℕ) : ℝ))| ^ 5 * ((Nat.succ 5) / ((Nat.factorial 5) * 5)) :=
    Real.exp_bound (by rw [abs_neg, abs_of_nonneg] <;> norm_num) (by norm_num)
  have := (abs_le.1 hb).2
  rw [abs_neg, abs_of_nonneg (by norm_num)] at this
  simp only [Finset.sum_range_succ, Finset.sum_range_zero, Nat.factorial] at this
  norm_num at this ⊢
  linarith

theorem expUp_ge (f k : ℕ) : Real.exp (-((k : ℝ) / (hK : ℕ))) ≤ (expUp f k : ℝ) / (hS : ℕ) := by
  have hone : ∀ k : ℕ, Real.exp (-((k : ℝ) / (hK : ℕ))) ≤ ((hS : ℕ) : ℝ) / (hS : ℕ) := by
    intro k
    rw [div_self (by norm_num)]
    apply Real.exp_le_one_iff.2
    have : (0 : ℝ) ≤ (k : ℝ) / (hK : ℕ) := by positivity
    linarith
  induction f generalizing k with
  | zero => exact hone k
  | succ f ih =>
    unfold expUp
    by_cases hk : k = 0
    · rw [if_pos hk]; exact hone k
    · rw [if_neg hk]
      have hi := ih (k / 2)
      have h2 := mulUp_ge (Real.exp_pos _).le (Real.exp_pos _).le hi hi
      rw [← Real.exp_add] at h2
      by_cases he : k % 2 = 0
      · simp only [he, if_true]
        convert h2 using 2
        have : k = 2 * (k / 2) := by omega
        have : (k : ℝ) = 2 * ((k / 2 : ℕ) : ℝ) := by exact_mod_cast this
        rw [this]; ring
      · simp only [he, if_false]
        have h3 := mulUp_ge (Real.exp_pos _).le (Real.exp_pos _).le h2 exp_first
        rw [← Real.exp_add] at h3
        convert h3 using 2
        have : k = 2 * (k / 2) + 1 := by omega
        have : (k : ℝ) = 2 * ((k / 2 : ℕ) : ℝ) + 1 := by exact_mod_cast this
        rw [this]; ring

/-- An interval of exponents, in units of `1/8192`; `none` is unbounded above. -/
structure Iv where
  lo : ℕ
  hi : Option ℕ

def Iv.has (v : Iv) (t : ℝ) : Prop := (v.lo : ℝ) ≤ (hK : ℕ) * t ∧ ∀ u ∈ v.hi, (hK : ℕ) * t ≤ (u : ℝ)

/-- A decreasing line `a - b * k` above `2^60 * exp (-k/8192)` on the interval. -/
def Iv.line (v : Iv) : ℕ × ℕ :=
  match v.hi with
  | none => (expUp 20 v.lo, 0)
  | some u =>
    let el := expUp 20 v.lo
    let eu := expUp 20 u
    let b := (el - eu) / (u - v.lo)
    (max (el + b * v.lo) (eu + b * u), b)

theorem Iv.line_ge {v : Iv} {t : ℝ} (h : v.has t) :
    (hS : ℕ) * Real.exp (-t) ≤ v.line.1 - v.line.2 * ((hK : ℕ) * t) := by
  have hs : (0 : ℝ) < (hS : ℕ) := by norm_num
  have hk : (0 : ℝ) < (hK : ℕ) := by norm_num
  have hup : ∀ k : ℕ, (hS : ℕ) * Real.exp (-((k : ℝ) / (hK : ℕ))) ≤ expUp 20 k := by
    intro k
    have := expUp_ge 20 k
    rwa [le_div_iff₀ hs, mul_comm] at this
  obtain ⟨lo, hi⟩ := v
  obtain ⟨h1, h2⟩ := h
  simp only at h1 h2
  set s := ((hK : ℕ) : ℝ) * t with hs'
  have ht : t = s / (hK : ℕ) := by rw [hs']; field_simp
  cases hi with
  | none =>
    simp only [Iv.line]
    have : Real.exp (-t) ≤ Real.exp (-((lo : ℝ) / (hK : ℕ))) := by
      apply Real.exp_le_exp.2
      rw [ht]
      have := div_le_div_of_nonneg_right h1 hk.le
      linarith
    have h3 := mul_le_mul_of_nonneg_left this hs.le
    have := hup lo
    push_cast
    linarith
  | some u =>
    have h2 : s ≤ u := h2 u rfl
    simp only [Iv.line]
    set el := expUp 20 lo
    set eu := expUp 20 u
    set b := (el - eu) / (u - lo)
    have ha : (el : ℝ) ≤ (max (el + b * lo) (eu + b * u) : ℕ) - b * lo := by
      have : el + b * lo ≤ max (el + b * lo) (eu + b * u) := le_max_left _ _
      have : ((el + b * lo : ℕ) : ℝ) ≤ (max (el + b * lo) (eu + b * u) : ℕ) := by exact_mod_cast this
      push_cast at this ⊢
      linarith
    have hb : (eu : ℝ) ≤ (max (el + b * lo) (eu + b * u) : ℕ) - b * u := by
      have : eu + b * u ≤ max (el + b * lo) (eu + b * u) := le_max_right _ _
      have : ((eu + b * u : ℕ) : ℝ) ≤ (max (el + b * lo) (eu + b * u) : ℕ) := by exact_mod_cast this
      push_cast at this ⊢
      linarith
    set a := max (el + b * lo) (eu + b * u)
    have hl := hup lo
    have hu := hup u
    rcases eq_or_lt_of_le (h1.trans h2) with he | hlt
    · have : s = lo := by linarith
      rw [ht, this]; linarith
    · -- the chord
      have hd : (0 : ℝ) < u - lo := by linarith
      have hc := convexOn_exp.2 (Set.mem_univ (-((lo : ℝ) / (hK : ℕ)))) (Set.mem_univ (-((u : ℝ) / (hK : ℕ))))
        (show (0 : ℝ) ≤ (u - s) / (u - lo) from div_nonneg (by linarith) hd.le)
        (show (0 : ℝ) ≤ (s - lo) / (u - lo) from div_nonneg (by linarith) hd.le)
        (by field_simp; ring)
      have e : ((u - s) / (u - lo)) • (-((lo : ℝ) / (hK : ℕ))) + ((s - lo) / (u - lo)) • (-((u : ℝ) / (hK : ℕ))) = -t := by
        rw [ht]; simp only [smul_eq_mul]; field_simp; ring
      rw [e] at hc
      simp only [smul_eq_mul] at hc
      have hp : (0 : ℝ) ≤ (u - s) / (u - lo) := div_nonneg (by linarith) hd.le
      have hq : (0 : ℝ) ≤ (s - lo) / (u - lo) := div_nonneg (by linarith) hd.le
      have hsum : (u - s) / (u - lo) + (s - lo) / (u - lo) = 1 := by field_simp; ring
      have hcomb : (u - s) / (u - lo) * (lo : ℝ) + (s - lo) / (u - lo) * u = s := by field_simp; ring
      set p := (u - s) / (u - lo)
      set q := (s - lo) / (u - lo)
      calc (hS : ℕ) * Real.exp (-t) ≤ (hS : ℕ) * (p * Real.exp (-((lo : ℝ) / (hK : ℕ))) + q * Real.exp (-((u : ℝ) / (hK : ℕ)))) :=
            mul_le_mul_of_nonneg_left hc hs.le
        _ = p * ((hS : ℕ) * Real.exp (-((lo : ℝ) / (hK : ℕ)))) + q * ((hS : ℕ) * Real.exp (-((u : ℝ) / (hK : ℕ)))) := by ring
        _ ≤ p * (a - b * lo) + q * (a - b * u) :=
            add_le_add (mul_le_mul_of_nonneg_left (hl.trans ha) hp) (mul_le_mul_of_nonneg_left (hu.trans hb) hq)
        _ = a * (p + q) - b * (p * lo + q * u) := by ring
        _ = a - b * s := by rw [hsum, hcomb]; ring

/-- One coordinate of the four quadratic forms: `qᵢ x = Σⱼ aᵢⱼ/20 * (xⱼ - pᵢⱼ/10^4)^2`. -/
structure Col where
  a0 : ℕ
  a1 : ℕ
  a2 : ℕ
  a3 : ℕ
  p0 : ℕ
  p1 : ℕ
  p2 : ℕ
  p3 : ℕ

/-- Lower bound of `Σᵢ wᵢ (y - pᵢ)^2` with `wᵢ = αᵢ bᵢ aᵢ`, `α = (10, 12, 30, 32)`. -/
def Col.low (c : Col) (b0 b1 b2 b3 : ℕ) : ℕ :=
  let w0 := 10 * b0 * c.a0
  let w1 := 12 * b1 * c.a1
  let w2 := 30 * b2 * c.a2
  let w3 := 32 * b3 * c.a3
  let s0 := w0 + w1 + w2 + w3
  let s1 := w0 * c.p0 + w1 * c.p1 + w2 * c.p2 + w3 * c.p3
  let s2 := w0 * c.p0 * c.p0 + w1 * c.p1 * c.p1 + w2 * c.p2 * c.p2 + w3 * c.p3 * c.p3
  s2 - (s1 * s1 / s0 + 1)

theorem Col.low_le (c : Col) (b0 b1 b2 b3 : ℕ) (y : ℝ) :
    (c.low b0 b1 b2 b3 : ℝ) ≤ 10 * b0 * c.a0 * (y - c.p0) ^ 2 + 12 * b1 * c.a1 * (y - c.p1) ^ 2
      + 30 * b2 * c.a2 * (y - c.p2) ^ 2 + 32 * b3 * c.a3 * (y - c.p3) ^ 2 := by
  unfold Col.low
  simp only
  set w0 := 10 * b0 * c.a0 with h0
  set w1 := 12 * b1 * c.a1 with h1
  set w2 := 30 * b2 * c.a2 with h2
  set w3 := 32 * b3 * c.a3 with h3
  have e0 : (10 * b0 * c.a0 : ℝ) = w0 := by rw [h0]; push_cast; ring
  have e1 : (12 * b1 * c.a1 : ℝ) = w1 := by rw [h1]; push_cast; ring
  have e2 : (30 * b2 * c.a2 : ℝ) = w2 := by rw [h2]; push_cast; ring
  have e3 : (32 * b3 * c.a3 : ℝ) = w3 := by rw [h3]; push_cast; ring
  rw [e0, e1, e2, e3]
  clear_value w0 w1 w2 w3
  clear h0 h1 h2 h3 e0 e1 e2 e3
  set s0 := w0 + w1 + w2 + w3 with hs0
  set s1 := w0 * c.p0 + w1 * c.p1 + w2 * c.p2 + w3 * c.p3 with hs1
  set s2 := w0 * c.p0 * c.p0 + w1 * c.p1 * c.p1 + w2 * c.p2 * c.p2 + w3 * c.p3 * c.p3 with hs2
  have hq : (w0 * (y - c.p0) ^ 2 + w1 * (y - c.p1) ^ 2 + w2 * (y - c.p2) ^ 2 + w3 * (y - c.p3) ^ 2 : ℝ) =
      s0 * y ^ 2 - 2 * s1 * y + s2 := by
    rw [hs0, hs1, hs2]; push_cast; ring
  have hpos : (0 : ℝ) ≤ w0 * (y - c.p0) ^ 2 + w1 * (y - c.p1) ^ 2 + w2 * (y - c.p2) ^ 2 + w3 * (y - c.p3) ^ 2 := by
    positivity
  by_cases hz : s2 ≤ s1 * s1 / s0 + 1
  · rw [Nat.sub_eq_zero_of_le hz]; simpa using hpos
  · rw [hq, Nat.cast_sub (by omega)]
    rcases Nat.eq_zero_or_pos s0 with h | h
    · exfalso
      have : w0 = 0 ∧ w1 = 0 ∧ w2 = 0 ∧ w3 = 0 := by omega
      obtain ⟨r0, r1, r2, r3⟩ := this
      have hz2 : s2 = 0 := by simp [hs2, r0, r1, r2, r3]
      exact hz (by rw [hz2]; exact Nat.zero_le _)
    · have hd : s1 * s1 ≤ (s1 * s1 / s0 + 1) * s0 := by
        have := Nat.div_add_mod (s1 * s1) s0
        have := Nat.mod_lt (s1 * s1) h
        have e : (s1 * s1 / s0 + 1) * s0 = s0 * (s1 * s1 / s0) + s0 := by ring
        omega
      have hd : ((s1 * s1 : ℕ) : ℝ) ≤ ((s1 * s1 / s0 + 1) * s0 : ℕ) := by exact_mod_cast hd
      rw [Nat.cast_mul, Nat.cast_mul] at hd
      set d : ℕ := s1 * s1 / s0 + 1
      have h : (0 : ℝ) < s0 := by exact_mod_cast h
      have hsq := sq_nonneg (s0 * y - s1 : ℝ)
      have : 0 ≤ (s0 : ℝ) * (s0 * y ^ 2 - 2 * s1 * y + d) := by nlinarith
      have := nonneg_of_mul_nonneg_right this h
      linarith

/-- Boxes in the space of the four exponents. -/
structure Cell where
  v0 : Iv
  v1 : Iv
  v2 : Iv
  v3 : Iv

/-- The quadratic form with coefficients `a`, `p` at `x`. -/
noncomputable def quad (a p : Col → ℕ) : List Col → List ℝ → ℝ
  | c :: cs, x :: xs => (a c : ℝ) / 20 * (x - (p c : ℝ) / 10000) ^ 2 + quad a p cs xs
  | _, _ => 0

/-- The sum of Gaussians. -/
noncomputable def gauss (cols : List Col) (x : List ℝ) : ℝ :=
  1 * Real.exp (-quad Col.a0 Col.p0 cols x) + 1.2 * Real.exp (-quad Col.a1 Col.p1 cols x)
    + 3 * Real.exp (-quad Col.a2 Col.p2 cols x) + 3.2 * Real.exp (-quad Col.a3 Col.p3 cols x)

def lowSum (cols : List Col) (b0 b1 b2 b3 : ℕ) : ℕ :=
  match cols with
  | [] => 0
  | c :: cs => c.low b0 b1 b2 b3 + lowSum cs b0 b1 b2 b3

theorem lowSum_le (cols : List Col) (b0 b1 b2 b3 : ℕ) (x : List ℝ) (hx : x.length = cols.length) :
    (lowSum cols b0 b1 b2 b3 : ℝ) ≤ 2000000000 * (10 * b0 * quad Col.a0 Col.p0 cols x + 12 * b1 * quad Col.a1 Col.p1 cols x
      + 30 * b2 * quad Col.a2 Col.p2 cols x + 32 * b3 * quad Col.a3 Col.p3 cols x) := by
  induction cols generalizing x with
  | nil => simp [lowSum, quad]
  | cons c cs ih =>
    cases x with
    | nil => simp at hx
    | cons x xs =>
      have h1 := c.low_le b0 b1 b2 b3 (10000 * x)
      have h2 := ih xs (by simpa using hx)
      simp only [lowSum, quad]
      push_cast
      nlinarith

/-- Is the sum of Gaussians at most `M / 10^5` in this box? (sufficient test) -/
def leafOk (M : ℕ) (cols : List Col) (c : Cell) : Bool :=
  let l0 := c.v0.line
  let l1 := c.v1.line
  let l2 := c.v2.line
  let l3 := c.v3.line
  Nat.ble (2000000000 * (10 * l0.1 + 12 * l1.1 + 30 * l2.1 + 32 * l3.1))
    (200000 * hS * M + hK * lowSum cols l0.2 l1.2 l2.2 l3.2)

theorem leafOk_sound {M : ℕ} {cols : List Col} {c : Cell} (h : leafOk M cols c = true) {x : List ℝ}
    (hx : x.length = cols.length) (h0 : c.v0.has (quad Col.a0 Col.p0 cols x)) (h1 : c.v1.has (quad Col.a1 Col.p1 cols x))
    (h2 : c.v2.has (quad Col.a2 Col.p2 cols x)) (h3 : c.v3.has (quad Col.a3 Col.p3 cols x)) :
    gauss cols x ≤ M / 100000 := by
  unfold leafOk at h
  simp only at h
  have h := Nat.le_of_ble_eq_true h
  have h : ((2000000000 * (10 * c.v0.line.1 + 12 * c.v1.line.1 + 30 * c.v2.line.1 + 32 * c.v3.line.1) : ℕ) : ℝ) ≤
    ((200000 * hS * M + hK * lowSum cols c.v0.line.2 c.v1.line.2 c.v2.line.2 c.v3.line.2 : ℕ) : ℝ) := by exact_mod_cast h
  have hl := lowSum_le cols c.v0.line.2 c.v1.line.2 c.v2.line.2 c.v3.line.2 x hx
  have g0 := Iv.line_ge h0
  have g1 := Iv.line_ge h1
  have g2 := Iv.line_ge h2
  have g3 := Iv.line_ge h3
  unfold gauss
  push_cast at h g0 g1 g2 g3
  generalize Real.exp (-quad Col.a0 Col.p0 cols x) = e0 at *
  generalize Real.exp (-quad Col.a1 Col.p1 cols x) = e1 at *
  generalize Real.exp (-quad Col.a2 Col.p2 cols x) = e2 at *
  generalize Real.exp (-quad Col.a3 Col.p3 cols x) = e3 at *
  linarith

/-- Trees of splits: exponent `i` is split at `m / 8192`. -/
inductive Tree
  | l
  | n (i m : ℕ) (a b : Tree)

def Cell.below (c : Cell) (i m : ℕ) : Cell :=
  match i with
  | 0 => { c with v0 := ⟨c.v0.lo, some m⟩ }
  | 1 => { c with v1 := ⟨c.v1.lo, some m⟩ }
  | 2 => { c with v2 := ⟨c.v2.lo, some m⟩ }
  | _ => { c with v3 := ⟨c.v3.lo, some m⟩ }

def Cell.above (c : Cell) (i m : ℕ) : Cell :=
  match i with
  | 0 => { c with v0 := ⟨m, c.v0.hi⟩ }
  | 1 => { c with v1 := ⟨m, c.v1.hi⟩ }
  | 2 => { c with v2 := ⟨m, c.v2.hi⟩ }
  | _ => { c with v3 := ⟨m, c.v3.hi⟩ }

/-- Every box of the tree passes the test. -/
def Tree.check (M : ℕ) (cols : List Col) : Tree → Cell → Bool
  | .l, c => leafOk M cols c
  | .n i m a b, c => a.check M cols (c.below i m) && b.check M cols (c.above i m)

theorem Iv.split (v : Iv) (m : ℕ) {t : ℝ} (h : v.has t) : Iv.has ⟨v.lo, some m⟩ t ∨ Iv.has ⟨m, v.hi⟩ t := by
  rcases le_total ((hK : ℕ) * t) (m : ℝ) with hm | hm
  · left; refine ⟨h.1, fun u hu => ?_⟩
    cases hu; exact hm
  · exact .inr ⟨hm, h.2⟩

theorem Tree.check_sound {M : ℕ} {cols : List Col} {x : List ℝ} (hx : x.length = cols.length) (t : Tree) :
    ∀ c : Cell, t.check M cols c = true → c.v0.has (quad Col.a0 Col.p0 cols x) → c.v1.has (quad Col.a1 Col.p1 cols x) →
      c.v2.has (quad Col.a2 Col.p2 cols x) → c.v3.has (quad Col.a3 Col.p3 cols x) → gauss cols x ≤ M / 100000 := by
  induction t with
  | l => intro c h h0 h1 h2 h3; exact leafOk_sound h hx h0 h1 h2 h3
  | n i m a b iha ihb =>
    intro c h h0 h1 h2 h3
    simp only [Tree.check, Bool.and_eq_true] at h
    match i, h with
    | 0, h => exact (c.v0.split m h0).elim (fun k => iha _ h.1 k h1 h2 h3) (fun k => ihb _ h.2 k h1 h2 h3)
    | 1, h => exact (c.v1.split m h1).elim (fun k => iha _ h.1 h0 k h2 h3) (fun k => ihb _ h.2 h0 k h2 h3)
    | 2, h => exact (c.v2.split m h2).elim (fun k => iha _ h.1 h0 h1 k h3) (fun k => ihb _ h.2 h0 h1 k h3)
    | _ + 3, h => exact (c.v3.split m h3).elim (fun k => iha _ h.1 h0 h1 h2 k) (fun k => ihb _ h.2 h0 h1 h2 k)

theorem quad_nonneg (a p : Col → ℕ) (cols : List Col) (x : List ℝ) : 0 ≤ quad a p cols x := by
  induction cols generalizing x with
  | nil => simp [quad]
  | cons c cs ih =>
    cases x with
    | nil => simp [quad]
    | cons x xs => simp only [quad]; have := ih xs; positivity

/-! ### Lower bounds of exponentials -/

/-- `n` squarings, rounded down. -/
def sqDown : ℕ → ℕ → ℕ
  | 0, a => a
  | n + 1, a => sqDown n (a * a / hS)

theorem sqDown_le (n a : ℕ) {y : ℝ} (hy : 0 ≤ y) (h : (a : ℝ) / (hS : ℕ) ≤ y) : (sqDown n a : ℝ) / (hS : ℕ) ≤ y ^ 2 ^ n := by
  induction n generalizing a y with
  | zero => simpa [sqDown] using h
  | succ n ih =>
    have hs : (0 : ℝ) < (hS : ℕ) := by norm_num
    rw [pow_succ', pow_mul]
    refine ih (a * a / hS) (by positivity) ?_
    have h1 : ((a * a / hS : ℕ) : ℝ) ≤ ((a * a : ℕ) : ℝ) / (hS : ℕ) := Nat.cast_div_le
    have h2 : ((a * a / hS : ℕ) : ℝ) / (hS : ℕ) ≤ ((a * a : ℕ) : ℝ) / (hS : ℕ) / (hS : ℕ) := div_le_div_of_nonneg_right h1 hs.le
    have h3 : ((a * a : ℕ) : ℝ) / (hS : ℕ) / (hS : ℕ) = (a / (hS : ℕ)) ^ 2 := by push_cast; field_simp
    rw [h3] at h2
    exact h2.trans (pow_le_pow_left₀ (by positivity) h 2)

/-- `exp (-t)` is at least `(1 - t/2^n)^(2^n)`. -/
theorem exp_ge (n a : ℕ) {t : ℝ} (h : (a : ℝ) / (hS : ℕ) ≤ 1 - t / 2 ^ n) : (sqDown n a : ℝ) / (hS : ℕ) ≤ Real.exp (-t) := by
  have h1 : (a : ℝ) / (hS : ℕ) ≤ Real.exp (-(t / 2 ^ n)) := h.trans (by have := Real.add_one_le_exp (-(t / 2 ^ n)); linarith)
  have h2 := sqDown_le n a (Real.exp_pos _).le h1
  rwa [← Real.exp_nat_mul, show ((2 ^ n : ℕ) : ℝ) * -(t / 2 ^ n) = -t by push_cast; field_simp] at h2

/-- The box of all exponents. -/
def Cell.all : Cell := ⟨⟨0, none⟩, ⟨0, none⟩, ⟨0, none⟩, ⟨0, none⟩⟩

theorem gauss_le {M : ℕ} {cols : List Col} {x : List ℝ} (hx : x.length = cols.length) (t : Tree)
    (h : t.check M cols .all = true) : gauss cols x ≤ M / 100000 := by
  have hv : ∀ (a p : Col → ℕ), Iv.has ⟨0, none⟩ (quad a p cols x) := by
    intro a p
    refine ⟨?_, by simp⟩
    have := quad_nonneg a p cols x
    simp only [Nat.cast_zero]
    positivity
  exact t.check_sound hx .all h (hv _ _) (hv _ _) (hv _ _) (hv _ _)

end Verif.Problems
