import Verif.Validate.Model
import Mathlib.Data.List.Perm.Basic
import Mathlib.Data.List.Nodup
import Mathlib.Data.List.Range
import Mathlib.Tactic.NormNum
import Mathlib.Tactic.Linarith
import Mathlib.Data.List.Perm.Subperm

/-! # Properties C61, C73, C75: input validation -/

namespace Verif.Props

open Verif.Validate

/-- Specification: the documented requirement, "an integer >= exp_des.num_pts", and positive. -/
def ValidBudget (v : PyNum) (numPts : ℕ) : Prop := ∃ z : ℤ, v = .int z ∧ 0 < z ∧ (numPts : ℤ) ≤ z

/-- Full statement: the constructor refuses every `max_evals` that is not valid, and no valid one.  Proved: no valid one is
refused, and a value is refused exactly if it is a float that is at least `num_pts` and positive.  Everything else gets
through, see `C61_refuted`. -/
theorem C61_exact_partial (v : PyNum) (numPts : ℕ) :
    (ValidBudget v numPts → ¬ surrogateRefuses v numPts) ∧
    (surrogateRefuses v numPts ↔
      v = .float .posInf ∨ ∃ r : ℝ, v = .float (.fin r) ∧ 0 < r ∧ (numPts : ℝ) ≤ r) := by
  constructor
  · rintro ⟨z, rfl, _, _⟩ h
    exact h.1 trivial
  · rcases v with z | (r | _ | _ | _) <;> simp [surrogateRefuses, PyNum.isInt, PyNum.gt, PyNum.ge]

/-- `RandomStrategy` (where there is no design): floats are refused (also by way of `range`), integers never. -/
theorem C61_random_partial (v : PyNum) :
    (ValidBudget v 0 → ¬ randomRefuses v) ∧ (randomRefuses v ↔ ∃ x, v = .float x) := by
  constructor
  · rintro ⟨z, rfl, _, _⟩ h
    rcases h with h | h
    · exact h.1 trivial
    · exact h trivial
  · cases v <;> simp [randomRefuses, PyNum.isInt]

/-- Invalid budgets that are accepted: for every design, zero, every negative integer, every integer smaller than the
design and every float smaller than the design; NaN; and for `RandomStrategy` zero and every negative integer. -/
theorem C61_refuted (numPts : ℕ) :
    (∀ z : ℤ, (z ≤ 0 ∨ z < numPts) → ¬ ValidBudget (.int z) numPts ∧ ¬ surrogateRefuses (.int z) numPts) ∧
    (∀ r : ℝ, r < numPts → ¬ ValidBudget (.float (.fin r)) numPts ∧ ¬ surrogateRefuses (.float (.fin r)) numPts) ∧
    (¬ ValidBudget (.float .nan) numPts ∧ ¬ surrogateRefuses (.float .nan) numPts) ∧
    (∀ z : ℤ, z ≤ 0 → ¬ ValidBudget (.int z) 0 ∧ ¬ randomRefuses (.int z)) := by
  refine ⟨fun z hz => ⟨?_, fun h => h.1 trivial⟩, fun r hr => ⟨?_, ?_⟩, ⟨?_, ?_⟩, fun z hz => ⟨?_, ?_⟩⟩
  · rintro ⟨y, e, h1, h2⟩
    cases e
    omega
  · rintro ⟨y, e, _⟩; cases e
  · rintro ⟨_, _, h⟩
    simp only [PyNum.ge, Int.cast_natCast] at h
    linarith
  · rintro ⟨y, e, _⟩; cases e
  · rintro ⟨_, h, _⟩; exact h
  · rintro ⟨y, e, h1, _⟩
    cases e
    omega
  · simp [randomRefuses, PyNum.isInt]

/-- The budget 20 with 10 design points is valid and accepted, the budget 5 is invalid and accepted, 20.0 is refused. -/
example : ValidBudget (.int 20) 10 ∧ ¬ surrogateRefuses (.int 20) 10 ∧ ¬ ValidBudget (.int 5) 10 ∧
    ¬ surrogateRefuses (.int 5) 10 ∧ surrogateRefuses (.float (.fin 20)) 10 := by
  refine ⟨⟨20, rfl, by norm_num, by norm_num⟩, fun h => h.1 trivial, ?_, fun h => h.1 trivial, ?_⟩
  · rintro ⟨y, e, _, h⟩
    cases e
    norm_num at h
  · simp only [surrogateRefuses, PyNum.isInt, PyNum.gt, PyNum.ge]
    norm_num

/-! ## C73: extra points with unknown value -/

/-- Specification (surrogate_strategy.py:76, "np.nan/np.inf if unknown"). -/
def UnknownValue : Option PyFloat → Prop
  | none => True
  | some .nan => True
  | some .posInf => True
  | _ => False

/-- Full statement: an extra point is queued for evaluation exactly if its value is unknown.  Proved for all values but
`np.inf`; false for `np.inf`, see `C73_refuted`. -/
theorem C73_unknown_partial (v : Option PyFloat) (h : v ≠ some .posInf) : extraQueued v = true ↔ UnknownValue v := by
  rcases v with _ | (r | _ | _ | _) <;> simp [extraQueued, UnknownValue] at h ⊢

/-- An extra point with the value `np.inf` is documented as unknown, but is stored as an evaluation with this value. -/
theorem C73_refuted : UnknownValue (some .posInf) ∧ extraQueued (some .posInf) = false := ⟨trivial, rfl⟩

example : UnknownValue (some .nan) ∧ extraQueued (some .nan) = true ∧ ¬ UnknownValue (some (.fin 3)) ∧
    extraQueued (some (.fin 3)) = false := ⟨trivial, rfl, id, rfl⟩

/-! ## C75: SOP's number of centers -/

/-- Specification: "ncenters should be an integer greater than 3", and not smaller than the batch in synchronous mode. -/
def ValidCenters (v : PyNum) (asynchronous : Prop) (batchSize : ℤ) : Prop :=
  ∃ z : ℤ, v = .int z ∧ 3 < z ∧ (¬ asynchronous → batchSize ≤ z)

/-- Full statement: `ncenters` is refused exactly if it is not valid.  Proved: no valid value is refused; all floats
greater than 3 are refused; in synchronous mode a batch larger than `ncenters` is refused. -/
theorem C75_exact_partial (v : PyNum) (asynchronous : Prop) (b : ℤ) :
    (ValidCenters v asynchronous b → ¬ sopRefuses v asynchronous b) ∧
    (∀ r : ℝ, 3 < r → sopRefuses (.float (.fin r)) asynchronous b) ∧
    (∀ z : ℤ, sopRefuses (.int z) asynchronous b ↔ ¬ asynchronous ∧ z < b) := by
  refine ⟨?_, ?_, ?_⟩
  · rintro ⟨z, rfl, _, h⟩ (h' | h')
    · exact h'.1 trivial
    · exact h'.2 (h h'.1)
  · intro r hr
    exact Or.inl ⟨id, by simpa [PyNum.gt] using hr⟩
  · intro z
    simp [sopRefuses, PyNum.isInt, PyNum.ge]

/-- Every integer up to 3 (zero and negative ones included) is accepted in asynchronous mode, and so are fractions. -/
theorem C75_refuted (b : ℤ) :
    (∀ z : ℤ, z ≤ 3 → ¬ ValidCenters (.int z) True b ∧ ¬ sopRefuses (.int z) True b) ∧
    (¬ ValidCenters (.float (.fin (1 / 2))) True b ∧ ¬ sopRefuses (.float (.fin (1 / 2))) True b) := by
  refine ⟨fun z hz => ⟨?_, ?_⟩, ?_, ?_⟩
  · rintro ⟨y, e, h, _⟩
    cases e
    omega
  · simp [sopRefuses, PyNum.isInt]
  · rintro ⟨y, e, _⟩; cases e
  · simp only [sopRefuses, PyNum.isInt, PyNum.gt]
    norm_num

example : ValidCenters (.int 4) False 4 ∧ ¬ sopRefuses (.int 4) False 4 ∧ sopRefuses (.int 4) False 5 :=
  ⟨⟨4, rfl, by norm_num, fun _ => le_rfl⟩, by simp [sopRefuses, PyNum.isInt, PyNum.ge],
    by simp [sopRefuses, PyNum.isInt, PyNum.ge]⟩

end Verif.Props
