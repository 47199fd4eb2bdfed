import Mathlib.Data.Real.Basic
import Mathlib.Data.Real.Sqrt
import Mathlib.Data.Fin.Tuple.Basic
import Mathlib.Algebra.Order.Floor.Ring
import Mathlib.Algebra.Order.Round
import Mathlib.Algebra.BigOperators.Fin
import Mathlib.Tactic.Linarith
import Mathlib.Tactic.Ring
import Mathlib.Tactic.NormNum
import Mathlib.Tactic.Positivity

/-!
# Numbers, points and numpy primitives

Floats are modelled by real numbers (no rounding, no overflow).  Where the code uses `inf` and may produce `nan`
the type `Fl` is used.
-/

namespace Verif.Num

/-- A point with `d` coordinates (a row of a numpy array). (E.g. `record.params[0]`, ss.py:213-220.) -/
abbrev Pt (d : ℕ) := Fin d → ℝ

/-- `np.argmin` of a nonempty one-dimensional array of comparable numbers: the first position of the minimum.
(Used at candidate_srbf.py:49, 92, utils.py:310, 321, 368.) -/
def argmin {α : Type} [LinearOrder α] : {m : ℕ} → (Fin (m + 1) → α) → Fin (m + 1)
  | 0, _ => 0
  | m + 1, f =>
    let j := (argmin (fun i : Fin (m + 1) => f i.succ)).succ
    if f 0 ≤ f j then 0 else j

theorem argmin_le {α : Type} [LinearOrder α] {m : ℕ} (f : Fin (m + 1) → α) (j : Fin (m + 1)) : f (argmin f) ≤ f j := by
  induction m with
  | zero => rw [show j = argmin f by omega]
  | succ m ih =>
    have h := ih (fun i => f i.succ)
    simp only [argmin]
    split
    · rename_i hle
      refine Fin.cases le_rfl (fun i => ?_) j
      exact hle.trans (h i)
    · rename_i hle
      refine Fin.cases (le_of_lt (not_le.mp hle)) (fun i => ?_) j
      exact h i

/-- Earlier positions have larger values. -/
theorem argmin_first {α : Type} [LinearOrder α] {m : ℕ} (f : Fin (m + 1) → α) (j : Fin (m + 1)) (hj : j < argmin f) :
    f (argmin f) < f j := by
  induction m with
  | zero => rw [show j = argmin f by omega] at hj; exact absurd hj (lt_irrefl _)
  | succ m ih =>
    simp only [argmin] at hj ⊢
    split at hj
    · exact absurd hj (Fin.not_lt_zero j)
    · rename_i hle
      rw [if_neg hle]
      revert hj
      refine Fin.cases (fun _ => not_le.mp hle) (fun i hi => ?_) j
      exact ih (fun i => f i.succ) i (Fin.succ_lt_succ_iff.mp hi)

/-- Uniqueness: `np.argmin` is characterized by minimality and being first. -/
theorem argmin_unique {α : Type} [LinearOrder α] {m : ℕ} (f : Fin (m + 1) → α) (k : Fin (m + 1))
    (h1 : ∀ j, f k ≤ f j) (h2 : ∀ j < k, f k < f j) : argmin f = k := by
  rcases lt_trichotomy (argmin f) k with h | h | h
  · exact absurd (argmin_le f k) (not_le.mpr (h2 _ h))
  · exact h
  · exact absurd (h1 (argmin f)) (not_le.mpr (argmin_first f k h))

/-- Euclidean distance: `scipy.spatial.distance.cdist` / `euclidean`.
(Used at candidate_srbf.py:35, ei_merit.py:29, utils.py:518, sop_strategy.py:372-383.) -/
noncomputable def eucl {d : ℕ} (x y : Pt d) : ℝ := Real.sqrt (∑ i, (x i - y i) ^ 2)

theorem eucl_nonneg {d : ℕ} (x y : Pt d) : 0 ≤ eucl x y := Real.sqrt_nonneg _

@[simp] theorem eucl_self {d : ℕ} (x : Pt d) : eucl x x = 0 := by simp [eucl]

theorem eucl_comm {d : ℕ} (x y : Pt d) : eucl x y = eucl y x := by
  unfold eucl
  congr 1
  exact Finset.sum_congr rfl fun i _ => by ring

theorem eucl_pos {d : ℕ} {x y : Pt d} (h : x ≠ y) : 0 < eucl x y := by
  apply Real.sqrt_pos.mpr
  obtain ⟨i, hi⟩ := Function.ne_iff.mp h
  have hp : 0 < (x i - y i) ^ 2 := by have := sub_ne_zero.mpr hi; positivity
  exact lt_of_lt_of_le hp (Finset.single_le_sum (fun j _ => sq_nonneg (x j - y j)) (Finset.mem_univ i))

theorem eucl_eq_zero {d : ℕ} {x y : Pt d} : eucl x y = 0 ↔ x = y := by
  refine ⟨fun h => ?_, fun h => by rw [h, eucl_self]⟩
  by_contra hn
  exact absurd h (ne_of_gt (eucl_pos hn))

/-- `np.round`: rounding to the nearest integer, ties to even. (Used at utils.py:86, 297.) -/
noncomputable def rint (x : ℝ) : ℤ :=
  if x - ⌊x⌋ < 1 / 2 then ⌊x⌋
  else if 1 / 2 < x - ⌊x⌋ then ⌊x⌋ + 1
  else if ⌊x⌋ % 2 = 0 then ⌊x⌋ else ⌊x⌋ + 1

theorem floor_le_rint (x : ℝ) : ⌊x⌋ ≤ rint x := by
  unfold rint; split_ifs <;> omega

theorem rint_le_floor_add_one (x : ℝ) : rint x ≤ ⌊x⌋ + 1 := by
  unfold rint; split_ifs <;> omega

theorem abs_sub_rint_le (x : ℝ) : |x - rint x| ≤ 1 / 2 := by
  have h0 := Int.floor_le x
  have h1 := Int.lt_floor_add_one x
  unfold rint
  split_ifs <;> push_cast <;> rw [abs_le] <;> constructor <;> linarith

@[simp] theorem rint_intCast (n : ℤ) : rint (n : ℝ) = n := by
  unfold rint; simp

/-- Rounding does not cross an integer. -/
theorem le_rint {n : ℤ} {x : ℝ} (h : (n : ℝ) ≤ x) : n ≤ rint x :=
  (Int.le_floor.mpr h).trans (floor_le_rint x)

theorem rint_le {n : ℤ} {x : ℝ} (h : x ≤ (n : ℝ)) : rint x ≤ n := by
  by_cases hx : x = n
  · rw [hx, rint_intCast]
  · have : ⌊x⌋ < n := Int.floor_lt.mpr (lt_of_le_of_ne h hx)
    have := rint_le_floor_add_one x
    omega

/-- A nearest integer is at least as close as any integer. -/
theorem rint_nearest (x : ℝ) (z : ℤ) : |x - rint x| ≤ |x - z| := by
  by_cases hz : z = rint x
  · rw [hz]
  · have h1 := abs_sub_rint_le x
    have h2 : (1 : ℝ) ≤ |(z : ℝ) - rint x| := by
      have : 1 ≤ |z - rint x| := Int.one_le_abs (sub_ne_zero.mpr hz)
      have : ((1 : ℤ) : ℝ) ≤ ((|z - rint x| : ℤ) : ℝ) := by exact_mod_cast this
      simpa using this
    have h3 : |(z : ℝ) - rint x| ≤ |(z : ℝ) - x| + |x - rint x| := abs_sub_le _ _ _
    rw [abs_sub_comm (z : ℝ) x] at h3
    linarith

end Verif.Num
