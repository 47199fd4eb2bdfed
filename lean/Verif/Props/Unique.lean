import Verif.Props.Problems

/-! # Property C133: the stated minimizer of a bundled test problem is its only minimizer -/

namespace Verif.Spec

open Verif.Problems

/-- The attribute `minimum` is feasible, and every other feasible point has a strictly larger value. -/
def OnlyMinimizer (p : Problem) : Prop :=
  ∃ z, p.minimum = some z ∧ InBounds p z ∧
    ∀ x, InBounds p x → x ≠ z → ∃ v w, p.eval z = some v ∧ p.eval x = some w ∧ v < w

end Verif.Spec

namespace Verif.Props

open Verif.Problems Verif.Spec Finset

variable {d : ℕ}

/-! ## Helpers -/

theorem onlyMinimizer_of {p : Problem} (h : StatedMinimum p)
    (hu : ∀ m z x, p.min = some m → p.minimum = some z → InBounds p x → p.eval x = some m → x = z) :
    OnlyMinimizer p := by
  obtain ⟨m, z, hm, hz, hb, he, hle⟩ := h
  refine ⟨z, hz, hb, fun x hx hne => ?_⟩
  obtain ⟨w, hw, hmw⟩ := hle x hx
  refine ⟨m, w, he, hw, lt_of_le_of_ne hmw fun e => hne (hu m z x hm hz hx ?_)⟩
  rw [hw, e]

theorem not_onlyMinimizer_of {p : Problem} {m : ℝ} {z x : List ℝ} (hz : p.minimum = some z) (hx : InBounds p x)
    (hne : x ≠ z) (hez : p.eval z = some m) (hex : p.eval x = some m) : ¬ OnlyMinimizer p := by
  rintro ⟨z', hz', _, h⟩
  obtain rfl : z = z' := Option.some.inj (hz.symm.trans hz')
  obtain ⟨v, w, hv, hw, hlt⟩ := h x hx hne
  rw [hez] at hv; rw [hex] at hw
  cases hv; cases hw
  exact lt_irrefl _ hlt

/-- For a problem whose value at every point is a function `F` that vanishes only at the constant point `c`. -/
theorem onlyMinimizer_const {p : Problem} {n : ℕ} {c : ℝ} (hd : p.dim = n) (hm : p.min = some 0)
    (hz : p.minimum = some (const n c)) (h : StatedMinimum p) (F : (Fin n → ℝ) → ℝ)
    (hF : ∀ x, p.body (List.ofFn x) = F x)
    (h0 : ∀ x : Fin n → ℝ, InBounds p (List.ofFn x) → F x = 0 → ∀ i, x i = c) : OnlyMinimizer p := by
  refine onlyMinimizer_of h fun m z x hm' hz' hx he => ?_
  rw [hm] at hm'; rw [hz] at hz'
  cases hm'; cases hz'
  obtain ⟨x, rfl⟩ := ofFn_of_length (hx.1.trans hd)
  obtain ⟨_, he⟩ := eval_eq_some.1 he
  rw [hF] at he
  rw [const_eq]
  congr 1
  exact funext (h0 x hx he)

theorem eq_zero_of_sum_sq {n : ℕ} {x : Fin n → ℝ} (h : ∑ j, x j ^ 2 ≤ 0) (i : Fin n) : x i = 0 := by
  have h1 := Finset.single_le_sum (f := fun j => x j ^ 2) (fun j _ => sq_nonneg (x j)) (Finset.mem_univ i)
  have h2 : x i ^ 2 ≤ 0 := h1.trans h
  exact pow_eq_zero_iff two_ne_zero |>.1 (le_antisymm h2 (sq_nonneg _))

/-! ## The problems with one minimizer -/

theorem C133_sphere_partial : OnlyMinimizer (sphere d) :=
  onlyMinimizer_const (n := d) rfl rfl rfl C57_sphere.1 _ sphere_formula fun _ _ h => eq_zero_of_sum_sq h.le

theorem C133_sum_of_squares_partial : OnlyMinimizer (sumOfSquares d) :=
  onlyMinimizer_const (n := d) rfl rfl rfl C57_sum_of_squares.1 _ sumOfSquares_formula fun x _ h => eq_zero_of_sum_sq <| by
    rw [← h]
    refine Finset.sum_le_sum fun j _ => ?_
    have : (0 : ℝ) ≤ (j : ℕ) := Nat.cast_nonneg _
    nlinarith [sq_nonneg (x j)]

theorem C133_zakharov_partial : OnlyMinimizer (zakharov d) :=
  onlyMinimizer_const (n := d) rfl rfl rfl C57_zakharov.1 _ zakharov_formula fun x _ h => eq_zero_of_sum_sq <| by
    rw [← h, zakharovDoc]
    have h1 := sq_nonneg (∑ j : Fin d, 0.5 * ((j : ℝ) + 1) * x j)
    have h2 : 0 ≤ (∑ j : Fin d, 0.5 * ((j : ℝ) + 1) * x j) ^ 4 := by positivity
    linarith

theorem C133_rastrigin_partial : OnlyMinimizer (rastrigin d) :=
  onlyMinimizer_const (n := d) rfl rfl rfl C57_rastrigin.1 _ rastrigin_formula fun x _ h => eq_zero_of_sum_sq <| by
    rw [← h, rastriginUsual]
    have : ∑ j : Fin d, (x j ^ 2 - 10) ≤ ∑ j, (x j ^ 2 - 10 * Real.cos (2 * Real.pi * x j)) :=
      Finset.sum_le_sum fun j _ => by have := Real.cos_le_one (2 * Real.pi * x j); linarith
    rw [Finset.sum_sub_distrib, Finset.sum_const, Finset.card_univ, Fintype.card_fin, nsmul_eq_mul] at this
    linarith

theorem C133_griewank_partial : OnlyMinimizer (griewank d) :=
  onlyMinimizer_const (n := d) rfl rfl rfl C57_griewank.1 _ griewank_formula fun x _ h => eq_zero_of_sum_sq <| by
    have h1 := abs_prod_cos_le (fun j : Fin d => x j / Real.sqrt ((j : ℝ) + 1))
    rw [griewankDoc] at h
    linarith

theorem C133_ackley_partial (hd : 0 < d) : OnlyMinimizer (ackley d) :=
  onlyMinimizer_const (n := d) rfl rfl rfl (C57_ackley hd).1 _ ackley_formula fun x _ h => eq_zero_of_sum_sq <| by
    by_contra hpos
    have hn' : (0 : ℝ) < d := by exact_mod_cast hd
    have h0 : 0 < Real.sqrt (1 / d * ∑ j, x j ^ 2) := Real.sqrt_pos.2 (mul_pos (by positivity) (not_le.1 hpos))
    have h1 : Real.exp (-0.2 * Real.sqrt (1 / d * ∑ j, x j ^ 2)) < 1 := Real.exp_lt_one_iff.2 (by nlinarith)
    have h2 : 1 / (d : ℝ) * ∑ j, Real.cos (2 * Real.pi * x j) ≤ 1 := by
      have : ∑ j, Real.cos (2 * Real.pi * x j) ≤ d := by
        calc _ ≤ ∑ _j : Fin d, (1 : ℝ) := Finset.sum_le_sum fun j _ => Real.cos_le_one _
          _ = d := by simp
      rw [one_div, inv_mul_le_iff₀ hn']; simpa using this
    have h3 := Real.exp_le_exp.2 h2
    unfold ackleyUsual at h; linarith

/-- Rosenbrock, from two variables on. -/
theorem C133_rosenbrock_partial (hd : 2 ≤ d) : OnlyMinimizer (rosenbrock d) := by
  obtain ⟨n, rfl⟩ : ∃ n, d = n + 1 := ⟨d - 1, by omega⟩
  refine onlyMinimizer_const (n := n + 1) rfl rfl rfl (C57_rosenbrock (by omega)).1 _ rosenbrock_formula fun x _ h => ?_
  have hterm : ∀ j : Fin n, 100 * (x j.castSucc ^ 2 - x j.succ) ^ 2 + (1 - x j.castSucc) ^ 2 = 0 := fun j =>
    (Finset.sum_eq_zero_iff_of_nonneg fun j _ => by positivity).1 h j (Finset.mem_univ j)
  have h1 : ∀ j : Fin n, x j.castSucc = 1 := fun j => by
    have := hterm j
    have h2 : (1 - x j.castSucc) ^ 2 = 0 := by nlinarith [sq_nonneg (x j.castSucc ^ 2 - x j.succ), sq_nonneg (1 - x j.castSucc)]
    have := pow_eq_zero_iff two_ne_zero |>.1 h2
    linarith
  have h2 : ∀ j : Fin n, x j.succ = 1 := fun j => by
    have := hterm j
    rw [h1 j] at this
    have h2 : (1 - x j.succ) ^ 2 = 0 := by nlinarith [sq_nonneg (1 - x j.succ)]
    have := pow_eq_zero_iff two_ne_zero |>.1 h2
    linarith
  intro i
  refine Fin.lastCases ?_ h1 i
  obtain ⟨k, rfl⟩ : ∃ k, n = k + 1 := ⟨n - 1, by omega⟩
  exact h2 (Fin.last k)

/-- Exponential, over the box. -/
theorem C133_exponential_partial (hd : 0 < d) : OnlyMinimizer (exponential d) := by
  obtain ⟨n, rfl⟩ : ∃ n, d = n + 1 := ⟨d - 1, by omega⟩
  refine onlyMinimizer_const (n := n + 1) rfl rfl rfl (C57_exponential (by omega)) _ exponential_formula fun x hx h => ?_
  have hb : ∀ i, -5.12 ≤ x i := fun i => by
    have := (hx.2 i i.isLt).1
    rw [List.getD_eq_getElem _ _ (by simpa [exponential, const] using i.is_le), List.getD_eq_getElem _ _ (by simpa using i.is_le)] at this
    simpa only [exponential, const, List.getElem_replicate, List.getElem_ofFn, Fin.eta] using this
  unfold exponentialDoc at h
  rw [← Finset.sum_sub_distrib] at h
  have hpos : ∀ j : Fin (n + 1), (0 : ℝ) < (j : ℕ) + 1 := fun j => by positivity
  have hterm := (Finset.sum_eq_zero_iff_of_nonneg fun (j : Fin (n + 1)) _ =>
    sub_nonneg.2 (Real.exp_le_exp.2 (by nlinarith [hb (j - 1), hpos j]))).1 h
  intro i
  have h1 := hterm (i + 1) (Finset.mem_univ _)
  have h2 := Real.exp_injective (sub_eq_zero.1 h1)
  have h3 := hpos (i + 1)
  simp only [add_sub_cancel_right] at h2
  have h4 : (((i + 1 : Fin (n + 1)) : ℕ) + 1 : ℝ) * (x i - -5.12) = 0 := by rw [mul_sub, h2]; ring
  rcases mul_eq_zero.1 h4 with h | h
  · exact absurd h h3.ne'
  · linarith

theorem goldsteinPrice_eq {a b : ℝ}
    (h : (1 + (a + b + 1) ^ 2 * (19 - 14 * a + 3 * a ^ 2 - 14 * b + 6 * a * b + 3 * b ^ 2)) *
      (30 + (2 * a - 3 * b) ^ 2 * (18 - 32 * a + 12 * a ^ 2 + 48 * b - 36 * a * b + 27 * b ^ 2)) = 3) :
    a = 0 ∧ b = -1 := by
  have hq : 0 < 19 - 14 * a + 3 * a ^ 2 - 14 * b + 6 * a * b + 3 * b ^ 2 := by
    nlinarith [sq_nonneg (a + b - 7 / 3)]
  have e : 30 + (2 * a - 3 * b) ^ 2 * (18 - 32 * a + 12 * a ^ 2 + 48 * b - 36 * a * b + 27 * b ^ 2) =
      3 + ((2 * a - 3 * b) - 3) ^ 2 * (3 * ((2 * a - 3 * b) + 1 / 3) ^ 2 + 8 / 3) := by ring
  rw [e] at h
  have hr : 0 < 3 * ((2 * a - 3 * b) + 1 / 3) ^ 2 + 8 / 3 := by positivity
  generalize 19 - 14 * a + 3 * a ^ 2 - 14 * b + 6 * a * b + 3 * b ^ 2 = q at h hq
  generalize 3 * ((2 * a - 3 * b) + 1 / 3) ^ 2 + 8 / 3 = r at h hr
  have h1 : 0 ≤ (a + b + 1) ^ 2 * q := by positivity
  have h2 : 0 ≤ ((2 * a - 3 * b) - 3) ^ 2 * r := by positivity
  have h3 : (a + b + 1) ^ 2 * q = 0 := by nlinarith [mul_nonneg h1 h2]
  have h4 : ((2 * a - 3 * b) - 3) ^ 2 * r = 0 := by nlinarith [mul_nonneg h1 h2]
  have h5 := (mul_eq_zero.1 h3).resolve_right hq.ne'
  have h6 := (mul_eq_zero.1 h4).resolve_right hr.ne'
  have h7 := pow_eq_zero_iff two_ne_zero |>.1 h5
  have h8 := pow_eq_zero_iff two_ne_zero |>.1 h6
  constructor <;> linarith

theorem C133_goldstein_price_partial : OnlyMinimizer goldsteinPrice := by
  refine onlyMinimizer_of C57_goldstein_price.1 fun m z x hm hz hx he => ?_
  cases hm; cases hz
  obtain ⟨hl, he⟩ := eval_eq_some.1 he
  obtain ⟨a, b, rfl⟩ := List.length_eq_two.1 hl
  obtain ⟨h1, h2⟩ := goldsteinPrice_eq (a := a) (b := b) he
  rw [h1, h2]

/-- Levy in one variable. -/
theorem C133_levy_partial : OnlyMinimizer (levy 1) := by
  refine onlyMinimizer_of (C57_levy one_pos).1 fun m z x hm hz hx he => ?_
  cases hm; cases hz
  obtain ⟨hl, he⟩ := eval_eq_some.1 he
  obtain ⟨a, rfl⟩ := List.length_eq_one_iff.1 hl
  have e : (levy 1).body [a] = Real.sin (Real.pi * (1 + (a - 1) / 4)) ^ 2 +
      ((a - 1) / 4) ^ 2 * (1 + Real.sin (2 * Real.pi * (1 + (a - 1) / 4)) ^ 2) := by
    simp [levy, idx]
  rw [e] at he
  have h1 := sq_nonneg (Real.sin (Real.pi * (1 + (a - 1) / 4)))
  have h2 := mul_nonneg (sq_nonneg ((a - 1) / 4)) (sq_nonneg (Real.sin (2 * Real.pi * (1 + (a - 1) / 4))))
  have h3 : ((a - 1) / 4) ^ 2 = 0 := le_antisymm (by linarith) (sq_nonneg _)
  have h4 := pow_eq_zero_iff two_ne_zero |>.1 h3
  have : a = 1 := by linarith
  rw [this]; rfl

/-! ## The problems with several minimizers -/

/-- Levy, from two variables on: the first variable is left out of the middle sum, so `(-3, 1, …, 1)` is as good as the
stated minimizer. -/
theorem C133_levy_refuted (hd : 2 ≤ d) : ¬ OnlyMinimizer (levy d) := by
  obtain ⟨n, rfl⟩ : ∃ n, d = n + 2 := ⟨d - 2, by omega⟩
  obtain ⟨hb, hne, he, _⟩ := C58_levy_refuted (n := n)
  exact not_onlyMinimizer_of rfl hb (fun h => hne (by rw [h]; rfl))
    (eval_eq_some.2 ⟨by simp [levy, const], levy_one _ (by omega)⟩) he

/-- Perm in two variables. -/
theorem C133_perm_refuted : ¬ OnlyMinimizer (perm 2) := by
  refine not_onlyMinimizer_of (m := 0) (x := [11 / 23, 45 / 46]) rfl ⟨rfl, fun i hi => ?_⟩ ?_ (eval_eq_some.2 ⟨by simp [perm], ?_⟩)
    (eval_eq_some.2 ⟨rfl, ?_⟩)
  · change i < 2 at hi
    have : i = 0 ∨ i = 1 := by omega
    rcases this with rfl | rfl <;> norm_num [perm, const]
  · intro h
    have := congrArg (fun l => l.getD 0 0) h
    norm_num [List.range_succ] at this
  · norm_num [perm, loopSum, List.range_succ, idx]
  · norm_num [perm, loopSum, List.range_succ, idx]

/-- Rosenbrock in one variable is constant. -/
theorem C133_rosenbrock_refuted : ¬ OnlyMinimizer (rosenbrock 1) := by
  refine not_onlyMinimizer_of (m := 0) (x := [0]) rfl ⟨rfl, fun i hi => ?_⟩ ?_ (eval_eq_some.2 ⟨by simp [rosenbrock, const], ?_⟩)
    (eval_eq_some.2 ⟨rfl, ?_⟩)
  · change i < 1 at hi
    obtain rfl : i = 0 := by omega
    norm_num [rosenbrock, const]
  · simp [const]
  · simp [rosenbrock, const, loopSum]
  · simp [rosenbrock, loopSum]

/-- Six-hump camel: the function is even. -/
theorem C133_camel_refuted : ¬ OnlyMinimizer sixHumpCamel := by
  refine not_onlyMinimizer_of (x := [-0.0898, 0.7126]) rfl ⟨rfl, fun i hi => ?_⟩ ?_ (eval_eq_some.2 ⟨rfl, rfl⟩)
    (eval_eq_some.2 ⟨rfl, ?_⟩)
  · change i < 2 at hi
    have : i = 0 ∨ i = 1 := by omega
    rcases this with rfl | rfl <;> norm_num [sixHumpCamel, const]
  · norm_num
  · norm_num [sixHumpCamel, idx]

/-- Branin: the stated minimizer is outside the box of the problem. -/
theorem C133_branin_refuted : ¬ OnlyMinimizer branin := by
  rintro ⟨z, hz, hb, _⟩
  obtain ⟨z', hz', hb'⟩ := C70_branin_refuted.1
  obtain rfl : z = z' := Option.some.inj (hz.symm.trans hz')
  exact hb' hb

/-- Weierstrass: the minimizers are exactly the points with integer coordinates, `11 ^ d` of them in the box. -/
theorem C133_weierstrass_refuted (hd : 0 < d) : (∀ x : Fin d → ℝ,
    (weierstrass d).eval (List.ofFn x) = some 0 ↔ ∀ i, ∃ k : ℤ, x i = k) ∧ ¬ OnlyMinimizer (weierstrass d) := by
  have hn : (0 : ℝ) < d := by exact_mod_cast hd
  have key : ∀ x : Fin d → ℝ, (weierstrass d).eval (List.ofFn x) = some 0 ↔ ∀ i, ∃ k : ℤ, x i = k := by
    intro x
    have hval : (weierstrass d).eval (List.ofFn x) = some (weierstrassDoc x) := eval_formula (weierstrass_formula x) rfl
    have e1 : ∑ k ∈ range 12, (1 / 2 : ℝ) ^ k * Real.cos (Real.pi * 3 ^ k) = ∑ k ∈ range 12, -(1 / 2 : ℝ) ^ k :=
      Finset.sum_congr rfl fun k _ => by rw [cos_pi_three_pow]; ring
    have e2 : weierstrassDoc x = 10 * (1 / d * ∑ i, ∑ k ∈ range 12,
        (1 / 2) ^ k * (1 + Real.cos (2 * Real.pi * 3 ^ k * (x i + 1 / 2)))) ^ 3 := by
      unfold weierstrassDoc
      rw [e1]
      congr 2
      simp only [mul_add, mul_one, Finset.sum_add_distrib, Finset.sum_neg_distrib, Finset.sum_const, Finset.card_univ,
        Fintype.card_fin, nsmul_eq_mul]
      field_simp
      ring
    have hnn : ∀ i k, 0 ≤ (1 / 2 : ℝ) ^ k * (1 + Real.cos (2 * Real.pi * 3 ^ k * (x i + 1 / 2))) := fun i k =>
      mul_nonneg (by positivity) (by linarith [Real.neg_one_le_cos (2 * Real.pi * 3 ^ k * (x i + 1 / 2))])
    rw [hval, Option.some.injEq, e2]
    constructor
    · intro h i
      have h1 : ∑ i, ∑ k ∈ range 12, (1 / 2 : ℝ) ^ k * (1 + Real.cos (2 * Real.pi * 3 ^ k * (x i + 1 / 2))) = 0 := by
        have := (mul_eq_zero.1 h).resolve_left (by norm_num)
        have := pow_eq_zero_iff (by norm_num) |>.1 this
        exact (mul_eq_zero.1 this).resolve_left (by positivity)
      have h2 := (Finset.sum_eq_zero_iff_of_nonneg fun i _ => Finset.sum_nonneg fun k _ => hnn i k).1 h1 i (Finset.mem_univ i)
      have h3 := (Finset.sum_eq_zero_iff_of_nonneg fun k _ => hnn i k).1 h2 0 (by simp)
      have h4 : Real.cos (2 * Real.pi * (x i + 1 / 2)) = -1 := by
        simp only [pow_zero, one_mul, mul_one] at h3
        linarith
      obtain ⟨k, hk⟩ := Real.cos_eq_neg_one_iff.1 h4
      refine ⟨k, ?_⟩
      have hp := Real.pi_pos.ne'
      have : 2 * Real.pi * (x i - k) = 0 := by linear_combination -hk
      rcases mul_eq_zero.1 this with h | h
      · exact absurd h (by positivity)
      · linarith
    · intro h
      have : ∀ i, ∑ k ∈ range 12, (1 / 2 : ℝ) ^ k * (1 + Real.cos (2 * Real.pi * 3 ^ k * (x i + 1 / 2))) = 0 := fun i => by
        obtain ⟨m, hm⟩ := h i
        refine Finset.sum_eq_zero fun k _ => ?_
        have e : 2 * Real.pi * 3 ^ k * (x i + 1 / 2) = Real.pi * 3 ^ k + ((3 ^ k * m : ℤ) : ℝ) * (2 * Real.pi) := by
          rw [hm]; push_cast; ring
        rw [e, Real.cos_add_int_mul_two_pi, cos_pi_three_pow]
        ring
      rw [Finset.sum_eq_zero fun i _ => this i]
      norm_num
  refine ⟨key, not_onlyMinimizer_of (m := 0) (x := const d 1) rfl (inBounds_const rfl rfl (by norm_num) (by norm_num)) ?_ ?_ ?_⟩
  · intro h
    have := congrArg (fun l => l.getD 0 0) h
    simp [const, hd] at this
  · rw [const_eq]; exact (key _).2 fun i => ⟨0, by simp⟩
  · rw [const_eq]; exact (key _).2 fun i => ⟨1, by simp⟩

/-! ## Witnesses -/

example : ∃ v w, (ackley 3).eval (const 3 0) = some v ∧ (ackley 3).eval [1, 2, 3] = some w ∧ v < w := by
  obtain ⟨z, hz, _, h⟩ := C133_ackley_partial (d := 3) (by norm_num)
  cases hz
  refine h [1, 2, 3] ⟨rfl, fun i hi => ?_⟩ (by simp [const, List.replicate])
  change i < 3 at hi
  have : i = 0 ∨ i = 1 ∨ i = 2 := by omega
  rcases this with rfl | rfl | rfl <;> norm_num [ackley, const]

end Verif.Props
