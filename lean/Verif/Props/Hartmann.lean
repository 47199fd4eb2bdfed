import Mathlib.Tactic.IntervalCases
import Verif.Problems.HartmannCert
import Verif.Problems.Minima
import Verif.Problems.Spec

/-! # Property C83: the Hartmann functions; additions to C58 -/

namespace Verif.Props

open Verif.Problems Verif.Spec

/-! ## The coefficients as natural numbers (`A * 20`, `P * 10^4`) -/

def hartmann3Cols : List Col :=
  [⟨60, 2, 60, 2, 3689, 4699, 1091, 381⟩, ⟨200, 200, 200, 200, 1170, 4387, 8732, 5743⟩,
   ⟨600, 700, 600, 700, 2673, 7470, 5547, 8828⟩]

def hartmann6Cols : List Col :=
  [⟨200, 1, 60, 340, 1312, 2329, 2348, 4047⟩, ⟨60, 200, 70, 160, 1696, 4135, 1451, 8828⟩,
   ⟨340, 340, 34, 1, 5569, 8307, 3522, 8732⟩, ⟨70, 2, 200, 200, 124, 3736, 2883, 5743⟩,
   ⟨34, 160, 340, 2, 8283, 1004, 3047, 1091⟩, ⟨160, 280, 160, 280, 5886, 9991, 6650, 381⟩]

theorem idx_nat (x : List ℝ) (k : ℕ) : idx x (k : ℤ) = x.getD k 0 := by simp [idx]

theorem hartmann3_body (a b c : ℝ) : hartmann3.body [a, b, c] = -gauss hartmann3Cols [a, b, c] := by
  simp only [hartmann3, hartmannLoop, loopSum, gauss, quad, hartmann3Cols, hartmann3A, hartmann3P, List.range, List.range.loop,
    List.foldl, idx_nat, List.getD_cons_zero, List.getD_cons_succ]
  norm_num
  ring_nf

theorem hartmann6_body (a b c d e f : ℝ) :
    hartmann6.body [a, b, c, d, e, f] = -gauss hartmann6Cols [a, b, c, d, e, f] := by
  simp only [hartmann6, hartmannLoop, loopSum, gauss, quad, hartmann6Cols, hartmann6A, hartmann6P, List.range, List.range.loop,
    List.foldl, idx_nat, List.getD_cons_zero, List.getD_cons_succ]
  norm_num
  ring_nf

set_option maxRecDepth 100000 in
theorem hartmann3_check : hartmann3Tree.check 386278 hartmann3Cols .all = true := by decide +kernel

set_option maxRecDepth 100000 in
theorem hartmann6_check : hartmann6Tree.check 332237 hartmann6Cols .all = true := by decide +kernel

theorem three_of_length {x : List ℝ} (h : x.length = 3) : ∃ a b c, x = [a, b, c] := by
  obtain ⟨a, b, c, rfl⟩ := List.length_eq_three.1 h
  exact ⟨a, b, c, rfl⟩

theorem six_of_length {x : List ℝ} (h : x.length = 6) : ∃ a b c d e f, x = [a, b, c, d, e, f] := by
  match x, h with
  | [a, b, c, d, e, f], _ => exact ⟨a, b, c, d, e, f, rfl⟩

theorem hartmann3_ge {x : List ℝ} (h : x.length = 3) : -3.86278 ≤ hartmann3.body x := by
  obtain ⟨a, b, c, rfl⟩ := three_of_length h
  have := gauss_le (x := [a, b, c]) (cols := hartmann3Cols) rfl _ hartmann3_check
  rw [hartmann3_body]
  norm_num at this ⊢
  linarith

theorem hartmann6_ge {x : List ℝ} (h : x.length = 6) : -3.32237 ≤ hartmann6.body x := by
  obtain ⟨a, b, c, d, e, f, rfl⟩ := six_of_length h
  have := gauss_le (x := [a, b, c, d, e, f]) (cols := hartmann6Cols) rfl _ hartmann6_check
  rw [hartmann6_body]
  norm_num at this ⊢
  linarith

theorem exp_ge' (n a m : ℕ) {t : ℝ} (h : (a : ℝ) / (hS : ℕ) ≤ 1 - t / 2 ^ n) (hm : Nat.ble m (sqDown n a) = true) :
    (m : ℝ) / (hS : ℕ) ≤ Real.exp (-t) := by
  refine le_trans (div_le_div_of_nonneg_right ?_ (by positivity)) (exp_ge n a h)
  exact_mod_cast Nat.le_of_ble_eq_true hm

theorem hartmann3_at : hartmann3.body [0.114614, 0.555649, 0.852547] ≤ -3.86278 + 1e-6 := by
  rw [hartmann3_body]
  have h0 := exp_ge' 26 1152921291687535373 4779201496099 (t := quad Col.a0 Col.p0 hartmann3Cols [0.114614, 0.555649, 0.852547])
    (by simp only [quad, hartmann3Cols]; norm_num) (by decide +kernel)
  have h1 := exp_ge' 26 1152921495341753446 672333847450933298 (t := quad Col.a1 Col.p1 hartmann3Cols [0.114614, 0.555649, 0.852547])
    (by simp only [quad, hartmann3Cols]; norm_num) (by decide +kernel)
  have h2 := exp_ge' 26 1152921441559086710 29376401659496463 (t := quad Col.a2 Col.p2 hartmann3Cols [0.114614, 0.555649, 0.852547])
    (by simp only [quad, hartmann3Cols]; norm_num) (by decide +kernel)
  have h3 := exp_ge' 26 1152921503986695315 1112046022459598331 (t := quad Col.a3 Col.p3 hartmann3Cols [0.114614, 0.555649, 0.852547])
    (by simp only [quad, hartmann3Cols]; norm_num) (by decide +kernel)
  unfold gauss
  generalize Real.exp (-quad Col.a0 Col.p0 hartmann3Cols [0.114614, 0.555649, 0.852547]) = e0 at h0 ⊢
  generalize Real.exp (-quad Col.a1 Col.p1 hartmann3Cols [0.114614, 0.555649, 0.852547]) = e1 at h1 ⊢
  generalize Real.exp (-quad Col.a2 Col.p2 hartmann3Cols [0.114614, 0.555649, 0.852547]) = e2 at h2 ⊢
  generalize Real.exp (-quad Col.a3 Col.p3 hartmann3Cols [0.114614, 0.555649, 0.852547]) = e3 at h3 ⊢
  norm_num at h0 h1 h2 h3 ⊢
  linarith

theorem hartmann6_at : hartmann6.body [0.20169, 0.150011, 0.476874, 0.275332, 0.311652, 0.6573] ≤ -3.32237 + 3e-6 := by
  rw [hartmann6_body]
  have h0 := exp_ge' 26 1152921489261668721 471937942971629554 (t := quad Col.a0 Col.p0 hartmann6Cols [0.20169, 0.150011, 0.476874, 0.275332, 0.311652, 0.6573])
    (by simp only [quad, hartmann6Cols]; norm_num) (by decide +kernel)
  have h1 := exp_ge' 26 1152921421865886601 9336173704550532 (t := quad Col.a1 Col.p1 hartmann6Cols [0.20169, 0.150011, 0.476874, 0.275332, 0.311652, 0.6573])
    (by simp only [quad, hartmann6Cols]; norm_num) (by decide +kernel)
  have h2 := exp_ge' 26 1152921504043777019 1115747043294176510 (t := quad Col.a2 Col.p2 hartmann6Cols [0.20169, 0.150011, 0.476874, 0.275332, 0.311652, 0.6573])
    (by simp only [quad, hartmann6Cols]; norm_num) (by decide +kernel)
  have h3 := exp_ge' 26 1152921310990480170 14700080133137 (t := quad Col.a3 Col.p3 hartmann6Cols [0.20169, 0.150011, 0.476874, 0.275332, 0.311652, 0.6573])
    (by simp only [quad, hartmann6Cols]; norm_num) (by decide +kernel)
  unfold gauss
  generalize Real.exp (-quad Col.a0 Col.p0 hartmann6Cols [0.20169, 0.150011, 0.476874, 0.275332, 0.311652, 0.6573]) = e0 at h0 ⊢
  generalize Real.exp (-quad Col.a1 Col.p1 hartmann6Cols [0.20169, 0.150011, 0.476874, 0.275332, 0.311652, 0.6573]) = e1 at h1 ⊢
  generalize Real.exp (-quad Col.a2 Col.p2 hartmann6Cols [0.20169, 0.150011, 0.476874, 0.275332, 0.311652, 0.6573]) = e2 at h2 ⊢
  generalize Real.exp (-quad Col.a3 Col.p3 hartmann6Cols [0.20169, 0.150011, 0.476874, 0.275332, 0.311652, 0.6573]) = e3 at h3 ⊢
  norm_num at h0 h1 h2 h3 ⊢
  linarith

/-! ## C58: the formulas -/

theorem C58_hartmann3 (x : Fin 3 → ℝ) :
    hartmann3.eval (List.ofFn x) = some (hartmannDoc hartmann3ADoc hartmann3PDoc x) := by
  refine eval_eq_some.2 ⟨by simp [hartmann3], ?_⟩
  have h4 : ∀ f : ℕ → ℝ, loopSum 4 0 f = ∑ i : Fin 4, f i := fun f => by rw [loopSum_fin, zero_add]
  have h3 : ∀ f : ℕ → ℝ, loopSum 3 0 f = ∑ i : Fin 3, f i := fun f => by rw [loopSum_fin, zero_add]
  simp only [hartmann3, hartmannLoop, hartmannDoc, h3, h4, idx_ofFn]
  refine congrArg Neg.neg (Finset.sum_congr rfl fun i _ => ?_)
  refine congrArg₂ _ (by fin_cases i <;> rfl) (congrArg _ (congrArg Neg.neg (Finset.sum_congr rfl fun j _ => ?_)))
  refine congrArg₂ _ ?_ (congrArg (· ^ 2) (congrArg _ ?_))
  · fin_cases i <;> fin_cases j <;> rfl
  · fin_cases i <;> fin_cases j <;> simp [hartmann3P, hartmann3PDoc] <;> norm_num

theorem C58_hartmann6 (x : Fin 6 → ℝ) :
    hartmann6.eval (List.ofFn x) = some (hartmannDoc hartmann6ADoc hartmann6PDoc x) := by
  refine eval_eq_some.2 ⟨by simp [hartmann6], ?_⟩
  have h4 : ∀ f : ℕ → ℝ, loopSum 4 0 f = ∑ i : Fin 4, f i := fun f => by rw [loopSum_fin, zero_add]
  have h3 : ∀ f : ℕ → ℝ, loopSum 6 0 f = ∑ i : Fin 6, f i := fun f => by rw [loopSum_fin, zero_add]
  simp only [hartmann6, hartmannLoop, hartmannDoc, h3, h4, idx_ofFn]
  refine congrArg Neg.neg (Finset.sum_congr rfl fun i _ => ?_)
  refine congrArg₂ _ (by fin_cases i <;> rfl) (congrArg _ (congrArg Neg.neg (Finset.sum_congr rfl fun j _ => ?_)))
  refine congrArg₂ _ ?_ (congrArg (· ^ 2) (congrArg _ ?_))
  · fin_cases i <;> fin_cases j <;> rfl
  · fin_cases i <;> fin_cases j <;> simp [hartmann6P, hartmann6PDoc] <;> norm_num

/-! ## C83 -/

/-- Hartmann3: nothing in the whole space is below the stated minimum, and the stated minimizer attains it up to `1e-6`. -/
theorem C83_hartmann3 : StatedMinimumUpTo 1e-6 hartmann3 ∧ MinimumOfAll hartmann3 := by
  refine ⟨⟨_, _, rfl, rfl, ⟨rfl, fun i hi => ?_⟩, ⟨_, eval_eq_some.2 ⟨rfl, rfl⟩, ?_⟩, fun x hx => ⟨_, eval_eq_some.2 ⟨hx.1, rfl⟩, ?_⟩⟩,
    minimumOfAll_of rfl fun x hx => hartmann3_ge hx⟩
  · have hi : i < 3 := hi
    interval_cases i <;> refine ⟨?_, ?_⟩ <;> norm_num [hartmann3, const]
  · have h1 := hartmann3_at
    have h2 := hartmann3_ge (x := [0.114614, 0.555649, 0.852547]) rfl
    rw [abs_le]; constructor <;> linarith
  · have := hartmann3_ge (x := x) hx.1
    linarith

/-- Hartmann6: nothing in the whole space is below the stated minimum, and the stated minimizer attains it up to `3e-6`. -/
theorem C83_hartmann6 : StatedMinimumUpTo 3e-6 hartmann6 ∧ MinimumOfAll hartmann6 := by
  refine ⟨⟨_, _, rfl, rfl, ⟨rfl, fun i hi => ?_⟩, ⟨_, eval_eq_some.2 ⟨rfl, rfl⟩, ?_⟩, fun x hx => ⟨_, eval_eq_some.2 ⟨hx.1, rfl⟩, ?_⟩⟩,
    minimumOfAll_of rfl fun x hx => hartmann6_ge hx⟩
  · have hi : i < 6 := hi
    interval_cases i <;> refine ⟨?_, ?_⟩ <;> norm_num [hartmann6, const]
  · have h1 := hartmann6_at
    have h2 := hartmann6_ge (x := [0.20169, 0.150011, 0.476874, 0.275332, 0.311652, 0.6573]) rfl
    rw [abs_le]; constructor <;> linarith
  · have := hartmann6_ge (x := x) hx.1
    linarith

end Verif.Props
