import Verif.Num.Basic
import Mathlib.Data.List.Nodup

/-!
# Model of the box utilities

Source: /repo/pySOT/utils.py:21-148 (`to_unit_box`, `from_unit_box`, `unit_rescale`, `round_vars`, `check_opt_prob`).
Functions on arrays of points act row by row and are modelled on one row.
-/

namespace Verif.Utils

open Verif.Num

variable {d : ℕ}

/-- `to_unit_box` (utils.py:21-33), one row. -/
noncomputable def toUnitBox (x lb ub : Pt d) : Pt d := fun i => (x i - lb i) / (ub i - lb i)

/-- `from_unit_box` (utils.py:36-48), one row. -/
def fromUnitBox (x lb ub : Pt d) : Pt d := fun i => lb i + (ub i - lb i) * x i

/-- `x.max()` of a nonempty vector. (utils.py:60.) -/
noncomputable def vmax {m : ℕ} (x : Fin (m + 1) → ℝ) : ℝ := Finset.univ.sup' Finset.univ_nonempty x

/-- `x.min()` of a nonempty vector. (utils.py:61.) -/
noncomputable def vmin {m : ℕ} (x : Fin (m + 1) → ℝ) : ℝ := Finset.univ.inf' Finset.univ_nonempty x

open Classical in
/-- `unit_rescale` (utils.py:51-65). -/
noncomputable def unitRescale {m : ℕ} (x : Fin (m + 1) → ℝ) : Fin (m + 1) → ℝ :=
  if vmax x = vmin x then fun _ => 1 else fun i => (x i - vmin x) / (vmax x - vmin x)

/-- `x[:, int_var] = np.round(x[:, int_var])` (utils.py:86). -/
noncomputable def roundCols (intVar : List (Fin d)) (x : Pt d) : Pt d :=
  fun i => if i ∈ intVar then (rint (x i) : ℝ) else x i

open Classical in
/-- One pass of the loop of `round_vars` for the column `i` (utils.py:89-92). -/
noncomputable def clipCol (lb ub : Pt d) (x : Pt d) (i : Fin d) : Pt d :=
  let x := if x i < lb i then Function.update x i (lb i) else x
  if x i > ub i then Function.update x i (ub i) else x

/-- `round_vars` (utils.py:68-93), one row. -/
noncomputable def roundVars (x : Pt d) (intVar : List (Fin d)) (lb ub : Pt d) : Pt d :=
  if intVar.length > 0 then intVar.foldl (clipCol lb ub) (roundCols intVar x) else x

/-- The object checked by `check_opt_prob`: `dimIsInt` and the `...IsArray` fields are the results of the `isinstance`
tests.  Indices are arbitrary integers, bounds arbitrary numbers. (utils.py:96-149.) -/
structure Prob where
  isProblem : Bool
  dimIsInt : Bool
  dim : ℤ
  lbIsArray : Bool
  lb : List ℝ
  ubIsArray : Bool
  ub : List ℝ
  contIsArray : Bool
  cont : List ℤ
  intIsArray : Bool
  int : List ℤ

open Classical in
/-- `check_opt_prob` (utils.py:96-148): `true` if no exception is raised.  Line by line; the nested tests that can never
fail (utils.py:129-131, 135-137) are left out, and so is the call `obj.dim()` of utils.py:112, which raises for every
object that is not callable: a `dim` that is not an `int` is refused. -/
noncomputable def checkOptProb (p : Prob) : Bool :=
  p.isProblem && p.dimIsInt && p.lbIsArray && p.ubIsArray &&
  (decide ((p.lb.length : ℤ) = p.dim) && decide ((p.ub.length : ℤ) = p.dim)) &&
  (List.range p.dim.toNat).all (fun i => decide (p.lb.getD i 0 < p.ub.getD i 0)) &&
  (!decide (p.cont.length > 0) || p.contIsArray) &&
  (!decide (p.int.length > 0) || p.intIsArray) &&
  p.cont.all (fun i => decide (i < p.dim) && decide (0 ≤ i)) &&
  p.int.all (fun i => decide (i < p.dim) && decide (0 ≤ i)) &&
  p.cont.all (fun i => !decide (i ∈ p.int)) &&
  decide (((p.cont.length + p.int.length : ℕ) : ℤ) = p.dim)

/-! ## Closed form of `round_vars` -/

/-- The value of one integer coordinate after `round_vars`. (utils.py:84-93.) -/
noncomputable def clip (l u y : ℝ) : ℝ := min (max y l) u

open Classical in
theorem clipCol_apply (lb ub x : Pt d) (i j : Fin d) :
    clipCol lb ub x i j = if j = i then clip (lb i) (ub i) (x i) else x j := by
  unfold clipCol clip
  by_cases hj : j = i
  · subst hj
    by_cases h1 : x j < lb j
    · by_cases h2 : lb j > ub j
      · simp [h1, h2, max_eq_right h1.le, min_eq_right (le_of_lt h2)]
      · simp [h1, h2, max_eq_right h1.le, min_eq_left (not_lt.mp h2)]
    · by_cases h2 : x j > ub j
      · simp [h1, h2, max_eq_left (not_lt.mp h1), min_eq_right (le_of_lt h2)]
      · simp [h1, h2, max_eq_left (not_lt.mp h1), min_eq_left (not_lt.mp h2)]
  · simp only [hj, if_false]
    split_ifs <;> simp [hj]

theorem clip_clip (l u y : ℝ) : clip l u (clip l u y) = clip l u y := by
  unfold clip
  rcases le_total l u with h | h
  · rw [max_eq_left (le_min (le_max_right _ _) h), min_eq_left (min_le_right _ _)]
  · rw [min_eq_right (h.trans (le_max_right y l)), max_eq_right h, min_eq_right h]

open Classical in
theorem foldl_clipCol_apply (lb ub : Pt d) (l : List (Fin d)) (x : Pt d) (j : Fin d) :
    l.foldl (clipCol lb ub) x j = if j ∈ l then clip (lb j) (ub j) (x j) else x j := by
  induction l generalizing x with
  | nil => simp
  | cons i l ih =>
    simp only [List.foldl_cons, ih, clipCol_apply, List.mem_cons]
    by_cases hj : j = i
    · subst hj; by_cases hl : j ∈ l <;> simp [hl, clip_clip]
    · simp [hj]

open Classical in
theorem roundVars_apply (x : Pt d) (intVar : List (Fin d)) (lb ub : Pt d) (j : Fin d) :
    roundVars x intVar lb ub j = if j ∈ intVar then clip (lb j) (ub j) (rint (x j)) else x j := by
  unfold roundVars
  split
  · rw [foldl_clipCol_apply]; by_cases hj : j ∈ intVar <;> simp [roundCols, hj]
  · have : intVar = [] := by
      cases intVar with
      | nil => rfl
      | cons a l => simp at *
    simp [this]

end Verif.Utils
