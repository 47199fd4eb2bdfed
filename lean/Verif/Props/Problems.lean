import Verif.Problems.Schwefel
import Verif.Problems.Camel
import Mathlib.Tactic.FinCases

/-! # Properties C57–C59, C69, C70: the bundled test problems -/

namespace Verif.Props

open Verif.Problems Verif.Spec Verif.Utils

variable {d : ℕ}

/-! ## C57: the stated minimum is the global minimum -/

theorem C57_ackley (hd : 0 < d) : StatedMinimum (ackley d) ∧ MinimumOfAll (ackley d) := by
  have h : ∀ x : List ℝ, x.length = d → 0 ≤ (ackley d).body x := fun x hx => by
    obtain ⟨x, rfl⟩ := ofFn_of_length hx
    rw [ackley_formula]; exact ackley_nonneg hd x
  refine ⟨statedMinimum_of rfl rfl (inBounds_const rfl rfl (by norm_num) (by norm_num)) ?_ fun x hx => h x hx.1,
    minimumOfAll_of rfl h⟩
  rw [const_eq]; exact (ackley_formula (n := d) _).trans (ackley_zero hd)

theorem C57_exponential (hd : 0 < d) : StatedMinimum (exponential d) := by
  obtain ⟨n, rfl⟩ : ∃ n, d = n + 1 := ⟨d - 1, by omega⟩
  refine statedMinimum_of rfl rfl (inBounds_const rfl rfl le_rfl (by norm_num)) ?_ fun x hx => ?_
  · rw [const_eq]; exact (exponential_formula (n := n) _).trans exponential_min
  · obtain ⟨x, rfl⟩ := ofFn_of_length (d := n + 1) hx.1
    rw [exponential_formula]
    refine exponential_nonneg _ fun j => ?_
    have := (hx.2 (j - 1 : Fin (n + 1)) (j - 1 : Fin (n + 1)).isLt).1
    rw [List.getD_eq_getElem _ _ (by simpa [exponential, const] using (j - 1).is_le), List.getD_eq_getElem _ _ (by simpa using (j - 1).is_le)] at this
    simpa only [exponential, const, List.getElem_replicate, List.getElem_ofFn, Fin.eta] using this

theorem C57_goldstein_price : StatedMinimum goldsteinPrice ∧ MinimumOfAll goldsteinPrice := by
  have h : ∀ x : List ℝ, x.length = 2 → 3 ≤ goldsteinPrice.body x := fun x _ => goldsteinPrice_ge (idx x 0) (idx x 1)
  refine ⟨statedMinimum_of rfl rfl ⟨rfl, fun i hi => ?_⟩ ?_ fun x hx => h x hx.1, minimumOfAll_of rfl h⟩
  · change i < 2 at hi
    have : i = 0 ∨ i = 1 := by omega
    rcases this with rfl | rfl <;> norm_num [goldsteinPrice, const]
  · simp [goldsteinPrice, idx]; norm_num

theorem C57_griewank : StatedMinimum (griewank d) ∧ MinimumOfAll (griewank d) := by
  have h : ∀ x : List ℝ, x.length = d → 0 ≤ (griewank d).body x := fun x hx => by
    obtain ⟨x, rfl⟩ := ofFn_of_length hx
    rw [griewank_formula]; exact griewank_nonneg x
  refine ⟨statedMinimum_of rfl rfl (inBounds_const rfl rfl (by norm_num) (by norm_num)) ?_ fun x hx => h x hx.1,
    minimumOfAll_of rfl h⟩
  rw [const_eq]; exact (griewank_formula (n := d) _).trans griewank_zero

theorem C57_levy (hd : 0 < d) : StatedMinimum (levy d) ∧ MinimumOfAll (levy d) :=
  ⟨statedMinimum_of rfl rfl (inBounds_const rfl rfl (by norm_num) (by norm_num)) (levy_one d hd)
    fun x _ => levy_nonneg x d, minimumOfAll_of rfl fun x _ => levy_nonneg x d⟩

theorem C57_perm : StatedMinimum (perm d) ∧ MinimumOfAll (perm d) := by
  have h : ∀ x : List ℝ, x.length = d → 0 ≤ (perm d).body x := fun x hx => by
    obtain ⟨x, rfl⟩ := ofFn_of_length hx
    rw [perm_formula]; exact perm_nonneg x
  have e : (List.range d).map (fun (i : ℕ) => 1 / ((i : ℝ) + 1)) = List.ofFn (fun i : Fin d => 1 / ((i : ℝ) + 1)) := by
    apply List.ext_getElem <;> simp
  refine ⟨statedMinimum_of rfl rfl ⟨by simp [perm], fun i hi => ?_⟩ ?_ fun x hx => h x hx.1, minimumOfAll_of rfl h⟩
  · change i < d at hi
    have h1 : (0 : ℝ) ≤ 1 / ((i : ℝ) + 1) := by positivity
    have h2 : 1 / ((i : ℝ) + 1) ≤ 1 := by rw [div_le_one (by positivity)]; linarith [Nat.cast_nonneg (α := ℝ) i]
    rw [one_div] at h1 h2
    simp [perm, const, hi]
    constructor <;> linarith
  · rw [e]; exact (perm_formula (n := d) _).trans perm_zero

theorem C57_rastrigin : StatedMinimum (rastrigin d) ∧ MinimumOfAll (rastrigin d) := by
  have h : ∀ x : List ℝ, x.length = d → 0 ≤ (rastrigin d).body x := fun x hx => by
    obtain ⟨x, rfl⟩ := ofFn_of_length hx
    rw [rastrigin_formula]; exact rastrigin_nonneg x
  refine ⟨statedMinimum_of rfl rfl (inBounds_const rfl rfl (by norm_num) (by norm_num)) ?_ fun x hx => h x hx.1,
    minimumOfAll_of rfl h⟩
  rw [const_eq]; exact (rastrigin_formula (n := d) _).trans rastrigin_zero

theorem C57_rosenbrock (hd : 0 < d) : StatedMinimum (rosenbrock d) ∧ MinimumOfAll (rosenbrock d) := by
  obtain ⟨n, rfl⟩ : ∃ n, d = n + 1 := ⟨d - 1, by omega⟩
  have h : ∀ x : List ℝ, x.length = n + 1 → 0 ≤ (rosenbrock (n + 1)).body x := fun x hx => by
    obtain ⟨x, rfl⟩ := ofFn_of_length hx
    rw [rosenbrock_formula]; exact rosenbrock_nonneg x
  refine ⟨statedMinimum_of rfl rfl (inBounds_const rfl rfl (by norm_num) (by norm_num)) ?_ fun x hx => h x hx.1,
    minimumOfAll_of rfl h⟩
  rw [const_eq]; exact (rosenbrock_formula (n := n) _).trans rosenbrock_one

theorem C57_sphere : StatedMinimum (sphere d) ∧ MinimumOfAll (sphere d) := by
  have h : ∀ x : List ℝ, x.length = d → 0 ≤ (sphere d).body x := fun x hx => by
    obtain ⟨x, rfl⟩ := ofFn_of_length hx
    rw [sphere_formula]; exact sphere_nonneg x
  refine ⟨statedMinimum_of rfl rfl (inBounds_const rfl rfl (by norm_num) (by norm_num)) ?_ fun x hx => h x hx.1,
    minimumOfAll_of rfl h⟩
  rw [const_eq]; exact (sphere_formula (n := d) _).trans sphere_zero

theorem C57_sum_of_squares : StatedMinimum (sumOfSquares d) ∧ MinimumOfAll (sumOfSquares d) := by
  have h : ∀ x : List ℝ, x.length = d → 0 ≤ (sumOfSquares d).body x := fun x hx => by
    obtain ⟨x, rfl⟩ := ofFn_of_length hx
    rw [sumOfSquares_formula]; exact sumOfSquares_nonneg x
  refine ⟨statedMinimum_of rfl rfl (inBounds_const rfl rfl (by norm_num) (by norm_num)) ?_ fun x hx => h x hx.1,
    minimumOfAll_of rfl h⟩
  rw [const_eq]; exact (sumOfSquares_formula (n := d) _).trans sumOfSquares_zero

theorem C57_weierstrass (hd : 0 < d) : StatedMinimum (weierstrass d) ∧ MinimumOfAll (weierstrass d) := by
  have h : ∀ x : List ℝ, x.length = d → 0 ≤ (weierstrass d).body x := fun x hx => by
    obtain ⟨x, rfl⟩ := ofFn_of_length hx
    rw [weierstrass_formula]; exact weierstrass_nonneg hd x
  refine ⟨statedMinimum_of rfl rfl (inBounds_const rfl rfl (by norm_num) (by norm_num)) ?_ fun x hx => h x hx.1,
    minimumOfAll_of rfl h⟩
  rw [const_eq]; exact (weierstrass_formula (n := d) _).trans (weierstrass_zero hd)

theorem C57_zakharov : StatedMinimum (zakharov d) ∧ MinimumOfAll (zakharov d) := by
  have h : ∀ x : List ℝ, x.length = d → 0 ≤ (zakharov d).body x := fun x hx => by
    obtain ⟨x, rfl⟩ := ofFn_of_length hx
    rw [zakharov_formula]; exact zakharov_nonneg x
  refine ⟨statedMinimum_of rfl rfl (inBounds_const rfl rfl (by norm_num) (by norm_num)) ?_ fun x hx => h x hx.1,
    minimumOfAll_of rfl h⟩
  rw [const_eq]; exact (zakharov_formula (n := d) _).trans zakharov_zero

/-- Himmelblau: the stated value has 15 decimal digits; it is right up to `1e-10`. -/
theorem C57_himmelblau (hd : 0 < d) : StatedMinimumUpTo 1e-10 (himmelblau d) := by
  have hd' : (0 : ℝ) < d := by exact_mod_cast hd
  refine ⟨_, _, rfl, rfl, inBounds_const rfl rfl (by norm_num) (by norm_num), ⟨_, eval_eq_some.2 ⟨by simp [const, himmelblau], rfl⟩, ?_⟩,
    fun x hx => ⟨_, eval_eq_some.2 ⟨hx.1, rfl⟩, ?_⟩⟩
  · have e : (himmelblau d).body (const d (-2.903534027771178)) =
        0.5 * ((-2.903534027771178) ^ 4 - 16 * (-2.903534027771178) ^ 2 + 5 * (-2.903534027771178)) := by
      rw [const_eq]
      refine (himmelblau_formula (n := d) _).trans ?_
      simp only [himmelblauUsual, Finset.sum_const, Finset.card_univ, Fintype.card_fin, nsmul_eq_mul]
      have : (d : ℝ) ≠ 0 := hd'.ne'
      field_simp; norm_num
    rw [e, abs_le]; constructor <;> norm_num
  · obtain ⟨x, rfl⟩ := ofFn_of_length (d := d) hx.1
    rw [himmelblau_formula, himmelblauUsual]
    have h : ∑ _j : Fin d, (2 * (-39.166165703771412 - 1e-10) : ℝ) ≤ ∑ j, (x j ^ 4 - 16 * x j ^ 2 + 5 * x j) :=
      Finset.sum_le_sum fun j _ => himmelblau_ge (x j)
    simp only [Finset.sum_const, Finset.card_univ, Fintype.card_fin, nsmul_eq_mul] at h
    rw [one_div, le_inv_mul_iff₀ (by positivity)]
    linarith

/-- The hypotheses are met in every positive dimension; the claim for a point that is not the minimizer. -/
example : ∃ v, (ackley 3).eval [1, 2, 3] = some v ∧ 0 ≤ v := by
  obtain ⟨_, m, hm, h⟩ := C57_ackley (d := 3) (by norm_num)
  cases hm
  exact h [1, 2, 3] rfl

/-! ## C70: Branin

Full statement: the attributes of the Branin problem are right. -/

/-- Over the whole plane: the formula is the documented one, the stated minimizer attains the smallest value, which is
`10/(8π)` exactly, and the stated `min` is right up to `1e-6`. -/
theorem C70_branin_partial : (∀ a b, branin.eval [a, b] = some (braninDoc a b)) ∧
    branin.minimum = some [-Real.pi, 12.275] ∧ branin.eval [-Real.pi, 12.275] = some (10 / (8 * Real.pi)) ∧
    (∀ x v, branin.eval x = some v → 10 / (8 * Real.pi) ≤ v) ∧
    ∃ m, branin.min = some m ∧ |10 / (8 * Real.pi) - m| ≤ 1e-6 := by
  have hf : ∀ a b, branin.eval [a, b] = some (braninDoc a b) := fun a b =>
    eval_eq_some.2 ⟨rfl, branin_formula a b⟩
  refine ⟨hf, rfl, by rw [hf, branin_min], fun x v h => ?_, _, rfl, branin_const⟩
  obtain ⟨hl, rfl⟩ := eval_eq_some.1 h
  obtain ⟨a, b, rfl⟩ := List.length_eq_two.1 (show x.length = 2 from hl)
  rw [branin_formula]; exact branin_ge a b

/-- The stated minimizer violates the bounds of the problem, and no feasible point comes within `0.09` of the stated
minimum: an optimizer that respects the bounds can never reach it. -/
theorem C70_branin_refuted : (∃ z, branin.minimum = some z ∧ ¬ InBounds branin z) ∧
    ∀ x v, InBounds branin x → branin.eval x = some v → 0.397887 + 0.09 ≤ v := by
  refine ⟨⟨_, rfl, fun h => ?_⟩, fun x v hx h => ?_⟩
  · have := (h.2 1 (by decide)).2
    norm_num [branin, const] at this
  · obtain ⟨hl, rfl⟩ := eval_eq_some.1 h
    obtain ⟨a, b, rfl⟩ := List.length_eq_two.1 (show x.length = 2 from hl)
    have ha := hx.2 0 (by decide)
    simp only [branin, const, List.getD_cons_zero, List.getD_replicate _ (show 0 < 2 by decide)] at ha
    rw [branin_formula]
    have hp := Real.pi_gt_d6
    have hp' := Real.pi_lt_d6
    have hc : -Real.cos (Real.pi - 3) ≤ Real.cos a := by
      rw [Real.cos_pi_sub, neg_neg, ← Real.cos_abs a]
      exact Real.cos_le_cos_of_nonneg_of_le_pi (abs_nonneg _) (by linarith) (abs_le.2 ⟨by linarith, by linarith⟩)
    have hc2 : Real.cos (Real.pi - 3) ≤ 0.99002 := by
      have h := (abs_le.1 (Real.cos_bound (x := Real.pi - 3) (abs_le.2 ⟨by linarith, by linarith⟩))).2
      rw [abs_of_nonneg (by linarith)] at h
      have h1 : (0.14159 : ℝ) ^ 2 ≤ (Real.pi - 3) ^ 2 := by gcongr; linarith
      have h2 : (Real.pi - 3) ^ 4 ≤ (0.1416 : ℝ) ^ 4 := by gcongr <;> linarith
      norm_num at h1 h2 h ⊢
      linarith
    have h2 : (0 : ℝ) ≤ 1 - 1 / (8 * Real.pi) := by
      rw [sub_nonneg, div_le_one (by positivity)]; linarith
    have h3 : 1 / (8 * Real.pi) ≥ 0.0397 := by
      rw [ge_iff_le, le_div_iff₀ (by positivity)]; linarith
    unfold braninDoc
    have h4 := mul_le_mul_of_nonneg_left (hc.trans' (neg_le_neg hc2)) h2
    have h5 := sq_nonneg (b - 5.1 / (4 * Real.pi ^ 2) * a ^ 2 + 5 / Real.pi * a - 6)
    norm_num at h3 h4 h5 ⊢
    linarith

/-! ## C58: the documented formula is computed

Full statement: `eval` computes the formula of the docstring (or of the page it cites), for every point. -/

/-- True for these problems, in every dimension. -/
theorem C58_formula_partial {n : ℕ} :
    (∀ x : Fin n → ℝ, (griewank n).eval (List.ofFn x) = some (griewankDoc x)) ∧
    (∀ x : Fin n → ℝ, (michalewicz n).eval (List.ofFn x) = some (michalewiczDoc x)) ∧
    (∀ x : Fin (n + 1) → ℝ, (rosenbrock (n + 1)).eval (List.ofFn x) = some (rosenbrockDoc x)) ∧
    (∀ x : Fin n → ℝ, (sphere n).eval (List.ofFn x) = some (sphereDoc x)) ∧
    (∀ x : Fin n → ℝ, (sumOfSquares n).eval (List.ofFn x) = some (sumOfSquaresDoc x)) ∧
    (∀ x : Fin n → ℝ, (perm n).eval (List.ofFn x) = some (permDoc x)) ∧
    (∀ x : Fin n → ℝ, (zakharov n).eval (List.ofFn x) = some (zakharovDoc x)) ∧
    (∀ x : Fin n → ℝ, (weierstrass n).eval (List.ofFn x) = some (weierstrassDoc x)) ∧
    (∀ a b, branin.eval [a, b] = some (braninDoc a b)) := by
  refine ⟨fun x => ?_, fun x => ?_, fun x => ?_, fun x => ?_, fun x => ?_, fun x => ?_, fun x => ?_, fun x => ?_,
    C70_branin_partial.1⟩
  · exact eval_formula (griewank_formula x) rfl
  · exact eval_formula (michalewicz_formula x) rfl
  · exact eval_formula (rosenbrock_formula x) rfl
  · exact eval_formula (sphere_formula x) rfl
  · exact eval_formula (sumOfSquares_formula x) rfl
  · exact eval_formula (perm_formula x) rfl
  · exact eval_formula (zakharov_formula x) rfl
  · exact eval_formula (weierstrass_formula x) rfl

/-- Ackley, Rastrigin and Himmelblau compute the function usually known under the name, not the one of the docstring. -/
theorem C58_usual_partial {n : ℕ} :
    (∀ x : Fin n → ℝ, (ackley n).eval (List.ofFn x) = some (ackleyUsual x)) ∧
    (∀ x : Fin n → ℝ, (rastrigin n).eval (List.ofFn x) = some (rastriginUsual x)) ∧
    (∀ x : Fin n → ℝ, (himmelblau n).eval (List.ofFn x) = some (himmelblauUsual x)) := by
  refine ⟨fun x => ?_, fun x => ?_, fun x => ?_⟩
  · exact eval_formula (ackley_formula x) rfl
  · exact eval_formula (rastrigin_formula x) rfl
  · exact eval_formula (himmelblau_formula x) rfl

/-- Ackley: the docstring subtracts `e` where the code adds it, so the two differ at every point. -/
theorem C58_ackley_refuted {n : ℕ} (x : Fin n → ℝ) : (ackley n).eval (List.ofFn x) ≠ some (ackleyDoc x) := by
  rw [C58_usual_partial.1, Ne, Option.some.injEq, ackleyUsual, ackleyDoc]
  intro h
  have := Real.exp_pos 1
  linarith

/-- Rastrigin: the sign of the sum is wrong in the docstring; at the minimizer it gives `20 n`. -/
theorem C58_rastrigin_refuted {n : ℕ} (hn : 0 < n) : (rastrigin n).eval (List.ofFn fun _ : Fin n => 0) = some 0 ∧
    rastriginDoc (fun _ : Fin n => 0) = 20 * n ∧ (20 * n : ℝ) ≠ 0 := by
  refine ⟨?_, ?_, by positivity⟩
  · exact eval_formula ((rastrigin_formula _).trans rastrigin_zero) rfl
  · simp [rastriginDoc]; ring

/-- Himmelblau: the docstring has another sign and another constant; the two agree only where the value is `5 n`. -/
theorem C58_himmelblau_refuted {n : ℕ} (hn : 0 < n) :
    (himmelblau n).eval (List.ofFn fun _ : Fin n => 0) = some 0 ∧ himmelblauDoc (fun _ : Fin n => 0) = 10 * n ∧
    (10 * n : ℝ) ≠ 0 := by
  refine ⟨?_, ?_, by positivity⟩
  · exact eval_formula ((himmelblau_formula _).trans (by simp [himmelblauUsual])) rfl
  · simp [himmelblauDoc]

/-- Exponential: the code uses the variable before the one of the docstring (the last one in the first term), so the two
differ for example at `(0, 1)`; and the point `0` of the docstring is not a minimizer in any dimension. -/
theorem C58_exponential_refuted :
    (exponential 2).eval (List.ofFn ![0, 1]) = some (exponentialDoc ![1, 0]) ∧
    exponentialDoc ![1, 0] < exponentialDoc ![0, 1] ∧
    ∀ n : ℕ, ∃ v, (exponential (n + 1)).eval (List.ofFn fun _ : Fin (n + 1) => 0) = some v ∧ 0 < v := by
  refine ⟨?_, ?_, fun n => ⟨_, eval_formula (exponential_formula _) rfl, ?_⟩⟩
  · refine eval_formula ((exponential_formula _).trans ?_) rfl
    congr 1
    funext i
    fin_cases i <;> simp
  · simp only [exponentialDoc, Fin.sum_univ_two]
    have : Real.exp 1 < Real.exp 2 := Real.exp_lt_exp.2 (by norm_num)
    norm_num
    linarith
  · rw [exponentialDoc, ← Finset.sum_sub_distrib]
    refine Finset.sum_pos (fun j _ => sub_pos.2 (Real.exp_lt_exp.2 ?_)) ⟨0, Finset.mem_univ _⟩
    have : (0 : ℝ) ≤ (j : ℕ) := Nat.cast_nonneg _
    rw [mul_zero]
    nlinarith

/-- Levy: the middle sum of the code leaves out the first variable.  In every dimension from 2 on, the feasible point
`(-3, 1, …, 1)` is a second global minimizer of the code, where the documented function is at least 1. -/
theorem C58_levy_refuted {n : ℕ} : let x : Fin (n + 2) → ℝ := fun i => if i = 0 then -3 else 1
    InBounds (levy (n + 2)) (List.ofFn x) ∧ (levy (n + 2)).minimum ≠ some (List.ofFn x) ∧
    (levy (n + 2)).eval (List.ofFn x) = some 0 ∧ 1 ≤ levyDoc x := by
  intro x
  refine ⟨⟨by simp [levy], fun i hi => ?_⟩, ?_, ?_, ?_⟩
  · change i < n + 2 at hi
    rw [List.getD_eq_getElem _ _ (by simp [levy, const]; omega), List.getD_eq_getElem _ _ (by simp; omega),
      List.getD_eq_getElem _ _ (by simp [levy, const]; omega)]
    simp only [levy, const, List.getElem_replicate, List.getElem_ofFn, x]
    split_ifs <;> norm_num
  · change some (const (n + 2) 1) ≠ _
    rw [const_eq, Ne, Option.some.injEq]
    intro h
    have := congrFun (List.ofFn_injective h) 0
    norm_num [x] at this
  · refine eval_formula ((levy_formula _).trans ?_) rfl
    have hl : Fin.last (n + 1) ≠ 0 := Fin.last_pos.ne'
    norm_num [x, hl, Fin.succ_ne_zero]
  · have h0 : (0 : Fin (n + 1)).castSucc = 0 := rfl
    have hsum : 1 ≤ ∑ j : Fin (n + 1), ((1 + (x j.castSucc - 1) / 4) - 1) ^ 2 *
        (1 + 10 * Real.sin (Real.pi * (1 + (x j.castSucc - 1) / 4) + 1) ^ 2) := by
      refine le_trans ?_ (Finset.single_le_sum (f := fun j : Fin (n + 1) => ((1 + (x j.castSucc - 1) / 4) - 1) ^ 2 *
        (1 + 10 * Real.sin (Real.pi * (1 + (x j.castSucc - 1) / 4) + 1) ^ 2))
        (fun j _ => by positivity) (Finset.mem_univ 0))
      simp only [h0, x, if_true]
      norm_num
      positivity
    unfold levyDoc
    dsimp only
    have := sq_nonneg (Real.sin (Real.pi * (1 + (x 0 - 1) / 4)))
    have h3 : 0 ≤ (1 + (x (Fin.last (n + 1)) - 1) / 4 - 1) ^ 2 *
      (1 + Real.sin (2 * Real.pi * (1 + (x (Fin.last (n + 1)) - 1) / 4)) ^ 2) := by positivity
    linarith

/-- Schwefel: the constant of the code is smaller than the one of the docstring, so the two differ at every point. -/
theorem C58_schwefel_refuted {n : ℕ} (hn : 0 < n) (x : Fin n → ℝ) :
    ∃ v, (schwefel n).eval (List.ofFn x) = some v ∧ schwefelDoc x - v = 0.000097 * n ∧ v ≠ schwefelDoc x := by
  have e : schwefelDoc x - (schwefel n).body (List.ofFn x) = 0.000097 * n := by
    rw [schwefel_formula, schwefelDoc]
    have : ∑ j, -x j * Real.sin (Real.sqrt |x j|) = -∑ j, x j * Real.sin (Real.sqrt |x j|) := by
      simp [Finset.sum_neg_distrib]
    rw [this]; ring
  refine ⟨_, eval_formula (d := n) (x := x) rfl rfl, e, fun h => ?_⟩
  rw [h, sub_self] at e
  have : (0 : ℝ) < n := by exact_mod_cast hn
  linarith

/-- Zakharov: the docstring gives the value 1 at the minimizer, the code 0. -/
theorem C58_zakharov_refuted {n : ℕ} : (zakharov n).eval (List.ofFn fun _ : Fin n => 0) = some 0 := by
  exact eval_formula ((zakharov_formula _).trans zakharov_zero) rfl

/-! ## C59: wrong dimension is refused -/

/-- All bundled problems. -/
inductive Bundled : Problem → Prop
  | ackley (d : ℕ) : Bundled (ackley d)
  | branin : Bundled branin
  | exponential (d : ℕ) : Bundled (exponential d)
  | goldsteinPrice : Bundled goldsteinPrice
  | griewank (d : ℕ) : Bundled (griewank d)
  | hartmann3 : Bundled hartmann3
  | hartmann6 : Bundled hartmann6
  | himmelblau (d : ℕ) : Bundled (himmelblau d)
  | levy (d : ℕ) : Bundled (levy d)
  | michalewicz (d : ℕ) : Bundled (michalewicz d)
  | perm (d : ℕ) : Bundled (perm d)
  | rastrigin (d : ℕ) : Bundled (rastrigin d)
  | rosenbrock (d : ℕ) : Bundled (rosenbrock d)
  | schwefel (d : ℕ) : Bundled (schwefel d)
  | sixHumpCamel : Bundled sixHumpCamel
  | sphere (d : ℕ) : Bundled (sphere d)
  | sumOfSquares (d : ℕ) : Bundled (sumOfSquares d)
  | weierstrass (d : ℕ) : Bundled (weierstrass d)
  | zakharov (d : ℕ) : Bundled (zakharov d)

/-- `eval` raises exactly for the vectors whose length is not the dimension. -/
theorem C59_dimension {p : Problem} (_h : Bundled p) (x : List ℝ) : p.eval x = none ↔ x.length ≠ p.dim := by
  unfold Problem.eval checkInput
  split_ifs with h <;> simp_all

example : (ackley 3).eval [1, 2] = none := (C59_dimension (.ackley 3) [1, 2]).2 (by decide)

/-! ## C69: every bundled problem is accepted by the strategies -/

/-- `check_opt_prob` accepts every bundled problem, in every dimension; all variables are continuous. -/
theorem C69_accepted {p : Problem} (h : Bundled p) : checkOptProb p.asProb = true ∧ p.asProb.int = [] := by
  have key : ∀ (q : Problem) (l u : ℝ), l < u → q.lb = const q.dim l → q.ub = const q.dim u → q.cont = arange q.dim →
      q.int = [] → checkOptProb q.asProb = true ∧ q.asProb.int = [] := by
    intro q l u hlu hl hu hc hi
    refine ⟨?_, hi⟩
    unfold checkOptProb Problem.asProb
    simp only [hl, hu, hc, hi, const, arange]
    simp +contextual [hlu]
  have hpi := Real.pi_pos
  cases h
  case michalewicz d => exact key _ 0 Real.pi hpi rfl rfl rfl rfl
  all_goals first
    | exact key _ (-15) 20 (by norm_num) rfl rfl rfl rfl
    | exact key _ (-3) 3 (by norm_num) rfl rfl rfl rfl
    | exact key _ (-5.12) 5.12 (by norm_num) rfl rfl rfl rfl
    | exact key _ (-2) 2 (by norm_num) rfl rfl rfl rfl
    | exact key _ (-512) 512 (by norm_num) rfl rfl rfl rfl
    | exact key _ 0 1 (by norm_num) rfl rfl rfl rfl
    | exact key _ (-5) 5 (by norm_num) rfl rfl rfl rfl
    | exact key _ (-2.048) 2.048 (by norm_num) rfl rfl rfl rfl
    | exact key _ (-5) 10 (by norm_num) rfl rfl rfl rfl

/-! ## C71: Schwefel -/

theorem abs_le_of_inBounds {d : ℕ} {x : Fin d → ℝ} (h : InBounds (schwefel d) (List.ofFn x)) (j : Fin d) :
    |x j| ≤ 512 := by
  have := h.2 j j.isLt
  rw [List.getD_eq_getElem _ _ (by simp [schwefel, const]), List.getD_eq_getElem _ _ (by simp),
    List.getD_eq_getElem _ _ (by simp [schwefel, const])] at this
  simp only [schwefel, const, List.getElem_replicate, List.getElem_ofFn, Fin.eta] at this
  exact abs_le.2 this

/-- No feasible point of the Schwefel problem has a negative value, and the value at the stated minimizer is `0` up to
`2e-5` per variable: the stated minimum is right up to `2e-5 d`, in every dimension. -/
theorem C71_schwefel {d : ℕ} : StatedMinimumUpTo (2e-5 * d) (schwefel d) ∧
    ∀ x v, InBounds (schwefel d) x → (schwefel d).eval x = some v → 0 ≤ v := by
  have hge : ∀ x, InBounds (schwefel d) x → 0 ≤ (schwefel d).body x := fun x hx => by
    obtain ⟨x, rfl⟩ := ofFn_of_length (d := d) hx.1
    rw [schwefel_formula]
    have h : ∑ j, x j * Real.sin (Real.sqrt |x j|) ≤ ∑ _j : Fin d, (418.9829 : ℝ) :=
      Finset.sum_le_sum fun j _ => schwefel_term_le (abs_le_of_inBounds hx j)
    simp only [Finset.sum_const, Finset.card_univ, Fintype.card_fin, nsmul_eq_mul] at h
    linarith
  have hb : InBounds (schwefel d) (const d 420.968746) :=
    inBounds_const (p := schwefel d) rfl rfl (by norm_num) (by norm_num)
  refine ⟨⟨0, _, rfl, rfl, hb, ⟨_, eval_eq_some.2 ⟨hb.1, rfl⟩, ?_⟩,
    fun x hx => ⟨_, eval_eq_some.2 ⟨hx.1, rfl⟩, ?_⟩⟩, fun x v hx h => ?_⟩
  · rw [sub_zero, abs_of_nonneg (hge _ hb), const_eq, schwefel_formula]
    simp only [Finset.sum_const, Finset.card_univ, Fintype.card_fin, nsmul_eq_mul]
    have h := mul_le_mul_of_nonneg_left schwefel_term_min (Nat.cast_nonneg (α := ℝ) d)
    norm_num at h ⊢
    linarith
  · have h1 := hge x hx
    have h2 : (0 : ℝ) ≤ 2e-5 * d := by positivity
    linarith
  · obtain ⟨_, rfl⟩ := eval_eq_some.1 h
    exact hge x hx

/-! ## C72: six-hump camel -/

/-- The stated minimum of the six-hump camel problem is right up to `1e-4` (it has four decimal digits), over the whole
plane. -/
theorem C72_camel : StatedMinimumUpTo 1e-4 sixHumpCamel ∧
    ∀ x v, sixHumpCamel.eval x = some v → -1.0317 ≤ v := by
  have hge : ∀ x, -1.0317 ≤ sixHumpCamel.body x := fun x => camel_ge (idx x 0) (idx x 1)
  refine ⟨⟨_, _, rfl, rfl, ⟨rfl, fun i hi => ?_⟩, ⟨_, eval_eq_some.2 ⟨rfl, rfl⟩, ?_⟩,
    fun x hx => ⟨_, eval_eq_some.2 ⟨hx.1, rfl⟩, ?_⟩⟩, fun x v h => ?_⟩
  · change i < 2 at hi
    have : i = 0 ∨ i = 1 := by omega
    rcases this with rfl | rfl <;> norm_num [sixHumpCamel, const]
  · rw [abs_le]
    constructor <;> norm_num [sixHumpCamel, idx]
  · have := hge x
    norm_num at this ⊢
    linarith
  · obtain ⟨_, rfl⟩ := eval_eq_some.1 h
    exact hge x

end Verif.Props
