import Verif.Problems.Model
import Mathlib.Algebra.BigOperators.Group.List.Basic
import Mathlib.Data.List.GetD
import Mathlib.Tactic.Linarith

/-! # Sums, loops and indices of the problem model in terms of `Finset` sums -/

namespace Verif.Problems

open Finset

theorem ofFn_of_length {d : ℕ} {l : List ℝ} (h : l.length = d) : ∃ x : Fin d → ℝ, l = List.ofFn x := by
  subst h
  exact ⟨fun i => l.get i, (List.ofFn_get l).symm⟩

theorem eval_ofFn (p : Problem) {d : ℕ} (hd : p.dim = d) (x : Fin d → ℝ) :
    p.eval (List.ofFn x) = some (p.body (List.ofFn x)) := by
  simp [Problem.eval, checkInput, hd]

theorem eval_formula {p : Problem} {d : ℕ} {x : Fin d → ℝ} {v : ℝ} (h : p.body (List.ofFn x) = v) (hd : p.dim = d) :
    p.eval (List.ofFn x) = some v := by rw [eval_ofFn p hd, h]

theorem eval_eq_some {p : Problem} {l : List ℝ} {v : ℝ} :
    p.eval l = some v ↔ l.length = p.dim ∧ p.body l = v := by
  unfold Problem.eval checkInput
  split_ifs with h <;> simp_all

theorem const_eq (d : ℕ) (c : ℝ) : const d c = List.ofFn (fun _ : Fin d => c) := by
  simp [const, List.ofFn_const]

theorem foldl_add (l : List ℕ) (a : ℝ) (f : ℕ → ℝ) :
    l.foldl (fun s i => s + f i) a = a + (l.map f).sum := by
  induction l generalizing a with
  | nil => simp
  | cons i l ih => simp [ih, add_assoc]

theorem loopSum_eq (n : ℕ) (a : ℝ) (f : ℕ → ℝ) : loopSum n a f = a + ∑ i ∈ range n, f i := by
  rw [loopSum, foldl_add]
  congr 1

theorem loopSum_fin (n : ℕ) (a : ℝ) (f : ℕ → ℝ) : loopSum n a f = a + ∑ i : Fin n, f i := by
  rw [loopSum_eq, Fin.sum_univ_eq_sum_range]

theorem sum_map_ofFn {d : ℕ} (x : Fin d → ℝ) (f : ℝ → ℝ) : ((List.ofFn x).map f).sum = ∑ i, f (x i) := by
  rw [List.map_ofFn, List.sum_ofFn]; rfl

theorem idx_ofFn {d : ℕ} (x : Fin d → ℝ) (i : Fin d) : idx (List.ofFn x) (i : ℕ) = x i := by
  simp [idx, List.getD_eq_getElem]

theorem withIndex_ofFn {d : ℕ} (f : ℕ → ℝ → ℝ) (x : Fin d → ℝ) :
    withIndex f (List.ofFn x) = List.ofFn (fun i => f i (x i)) := by
  apply List.ext_getElem
  · simp [withIndex]
  · intro i h1 h2
    simp [withIndex]

theorem foldl_mul_ofFn {d : ℕ} (g : Fin d → ℝ) : (List.ofFn g).foldl (· * ·) 1 = ∏ i, g i := by
  rw [← List.prod_eq_foldl, List.prod_ofFn]

/-- The range of the loop of `weierstrass`: both accumulators. -/
theorem foldl_pair (l : List ℕ) (a b : ℝ) (f g : ℕ → ℝ) :
    l.foldl (fun (s : ℝ × ℝ) k => (s.1 + f k, s.2 + g k)) (a, b) = (a + (l.map f).sum, b + (l.map g).sum) := by
  induction l generalizing a b with
  | nil => simp
  | cons i l ih => simp [ih, add_assoc]

end Verif.Problems
