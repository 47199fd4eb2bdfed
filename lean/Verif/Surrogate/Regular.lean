import Verif.Surrogate.Cpd
import Verif.Surrogate.RbfProofs
import Mathlib.Analysis.SpecialFunctions.Pow.Deriv
import Mathlib.Analysis.SpecialFunctions.Log.NegMulLog

/-! # When is the RBF system regular? -/

namespace Verif.Surrogate

open Verif.Num Verif.Utils Finset

variable {d : ℕ} {ι : Type} [Fintype ι]

/-! ## The quadratic forms of the three kernels -/

theorem cubic_form (x : ι → Pt d) (c : ι → ℝ) (hc : ∑ i, c i = 0) (hl : ∀ k, ∑ i, c i * x i k = 0) :
    0 ≤ ∑ i, ∑ j, c i * c j * eucl (x i) (x j) ^ 3 ∧
      (Function.Injective x → c ≠ 0 → 0 < ∑ i, ∑ j, c i * c j * eucl (x i) (x j) ^ 3) := by
  have he : ∀ i j, eucl (x i) (x j) ^ 3 = sqd (x i) (x j) ^ ((3 : ℝ) / 2) := by
    intro i j
    rw [eucl_eq_sqrt, Real.sqrt_eq_rpow, ← Real.rpow_natCast, ← Real.rpow_mul (sqd_nonneg _ _)]
    norm_num
  simp only [he]
  exact power_pos (by norm_num) (by norm_num) x c hc hl

theorem linear_form (x : ι → Pt d) (hx : Function.Injective x) (c : ι → ℝ) (hc : ∑ i, c i = 0) (hne : c ≠ 0) :
    ∑ i, ∑ j, c i * c j * eucl (x i) (x j) < 0 := by
  have he : ∀ i j, eucl (x i) (x j) = sqd (x i) (x j) ^ ((1 : ℝ) / 2) := by
    intro i j
    rw [eucl_eq_sqrt, Real.sqrt_eq_rpow]
  simp only [he]
  exact power_neg (by norm_num) (by norm_num) x hx c hc hne

theorem hasDerivAt_pow_exponent {s : ℝ} (hs : 0 ≤ s) : HasDerivAt (fun β : ℝ => s ^ β) (s * Real.log s) 1 := by
  rcases hs.lt_or_eq with h | h
  · have := (hasDerivAt_id (1 : ℝ)).const_rpow h
    simpa [mul_comm] using this
  · subst h
    simp only [zero_mul]
    refine (hasDerivAt_const (1 : ℝ) (0 : ℝ)).congr_of_eventuallyEq ?_
    filter_upwards [lt_mem_nhds (zero_lt_one : (0 : ℝ) < 1)] with β hβ
    exact Real.zero_rpow hβ.ne'

/-- The exact thin plate spline, as the derivative of the powers at exponent one. -/
theorem tps_form (x : ι → Pt d) (c : ι → ℝ) (hc : ∑ i, c i = 0) (hl : ∀ k, ∑ i, c i * x i k = 0) :
    0 ≤ ∑ i, ∑ j, c i * c j * (eucl (x i) (x j) ^ 2 * Real.log (eucl (x i) (x j))) := by
  have hd : HasDerivAt (fun β : ℝ => ∑ i, ∑ j, c i * c j * sqd (x i) (x j) ^ β)
      (∑ i, ∑ j, c i * c j * (sqd (x i) (x j) * Real.log (sqd (x i) (x j)))) 1 :=
    HasDerivAt.fun_sum fun i _ => HasDerivAt.fun_sum fun j _ =>
      (hasDerivAt_pow_exponent (sqd_nonneg (x i) (x j))).const_mul _
  have h0 : ∑ i, ∑ j, c i * c j * sqd (x i) (x j) ^ (1 : ℝ) = 0 := by
    simp only [Real.rpow_one]; exact sqd_form x c hc hl
  have hlim := hasDerivAt_iff_tendsto_slope_zero.mp hd
  have hlim' := hlim.mono_left (nhdsWithin_mono (0 : ℝ) (s := Set.Ioi 0) fun t ht => ne_of_gt ht)
  have hge : 0 ≤ ∑ i, ∑ j, c i * c j * (sqd (x i) (x j) * Real.log (sqd (x i) (x j))) := by
    refine ge_of_tendsto hlim' ?_
    filter_upwards [Ioo_mem_nhdsGT (zero_lt_one : (0 : ℝ) < 1)] with t ht
    rw [h0, sub_zero, smul_eq_mul]
    exact mul_nonneg (inv_nonneg.mpr ht.1.le)
      (power_pos (by linarith [ht.1]) (by linarith [ht.2]) x c hc hl).1
  have he : ∀ i j, c i * c j * (sqd (x i) (x j) * Real.log (sqd (x i) (x j))) =
      2 * (c i * c j * (eucl (x i) (x j) ^ 2 * Real.log (eucl (x i) (x j)))) := by
    intro i j
    rw [eucl_sq, eucl_eq_sqrt, Real.log_sqrt (sqd_nonneg _ _)]
    ring
  simp only [he, ← Finset.mul_sum] at hge
  linarith

/-! ## The system -/

/-- Value of the quadratic form of the system. -/
theorem sysDet_ne_zero (p : Par d) (X : List (Pt d))
    (hdef : ∀ c : Fin X.length → ℝ, (∀ k < p.tail.dimTail, ∑ i, c i * p.tail.eval (X.get i) k = 0) → c ≠ 0 →
      ∑ i, ∑ j, c i * c j * p.kernel.eval (eucl (X.get i) (X.get j)) + p.eta * ∑ i, c i ^ 2 ≠ 0)
    (huni : ∀ w : Fin p.tail.dimTail → ℝ, (∀ x ∈ X, ∑ k : Fin p.tail.dimTail, p.tail.eval x k * w k = 0) → w = 0) :
    sysDet p X ≠ 0 := by
  intro h0
  unfold sysDet at h0
  rw [← Matrix.exists_mulVec_eq_zero_iff] at h0
  obtain ⟨z, hz0, hz⟩ := h0
  set w : Fin p.tail.dimTail → ℝ := fun k => z (Fin.castAdd _ k) with hw
  set c : Fin X.length → ℝ := fun i => z (Fin.natAdd p.tail.dimTail i) with hc
  have hrow : ∀ i : Fin (p.tail.dimTail + X.length), ∑ k : Fin p.tail.dimTail, sysMat p X i k * w k +
      ∑ j : Fin X.length, sysMat p X i (p.tail.dimTail + j) * c j = 0 := by
    intro i
    have := congrFun hz i
    simp only [Matrix.mulVec, dotProduct, Pi.zero_apply, toMatrix, Matrix.of_apply] at this
    rw [Fin.sum_univ_add] at this
    simpa using this
  have htail : ∀ k < p.tail.dimTail, ∑ i, c i * p.tail.eval (X.get i) k = 0 := by
    intro k hk
    have := hrow ⟨k, by omega⟩
    have h1 : ∑ j : Fin p.tail.dimTail, sysMat p X k j * w j = 0 := by
      refine Finset.sum_eq_zero fun j _ => ?_
      unfold sysMat
      simp only
      rw [if_pos (by omega), if_pos j.2, zero_mul]
    simp only at this
    rw [h1, zero_add] at this
    rw [← this]
    refine Finset.sum_congr rfl fun i _ => ?_
    unfold sysMat
    simp only
    rw [if_pos (by omega), if_neg (by omega), mul_comm]
    congr 2
    simp
  have hdata : ∀ i : Fin X.length, ∑ k : Fin p.tail.dimTail, p.tail.eval (X.get i) k * w k +
      (∑ j, p.kernel.eval (eucl (X.get i) (X.get j)) * c j + p.eta * c i) = 0 := by
    intro i
    have := hrow (Fin.natAdd p.tail.dimTail i)
    rw [← this]
    congr 1
    · refine Finset.sum_congr rfl fun k _ => ?_
      unfold sysMat
      simp only [Fin.val_natAdd]
      rw [if_neg (by omega), if_pos (by omega)]
      congr 2
      simp
    · have : ∀ j : Fin X.length, sysMat p X (Fin.natAdd p.tail.dimTail i) (p.tail.dimTail + j) * c j =
          p.kernel.eval (eucl (X.get i) (X.get j)) * c j + p.eta * (if i = j then c j else 0) := by
        intro j
        unfold sysMat
        simp only [Fin.val_natAdd]
        rw [if_neg (by omega), if_neg (by omega)]
        have e1 : X.getD (p.tail.dimTail + i - p.tail.dimTail) 0 = X.get i := by simp
        have e2 : X.getD (p.tail.dimTail + j - p.tail.dimTail) 0 = X.get j := by simp
        rw [e1, e2]
        by_cases hij : i = j
        · simp [hij]; ring
        · rw [if_neg fun h => hij (Fin.ext (by omega)), if_neg hij]; ring
      simp only [this, Finset.sum_add_distrib, ← Finset.mul_sum]
      simp
  by_cases hcz : c = 0
  · apply hz0
    have hwz : w = 0 := by
      refine huni w fun x hx => ?_
      obtain ⟨i, rfl⟩ := List.mem_iff_get.mp hx
      have := hdata i
      simpa [hcz] using this
    funext i
    refine Fin.addCases (fun k => ?_) (fun i => ?_) i
    · exact congrFun hwz k
    · exact congrFun hcz i
  · refine hdef c htail hcz ?_
    have h1 : ∑ i, c i * (∑ k : Fin p.tail.dimTail, p.tail.eval (X.get i) k * w k) = 0 := by
      simp only [Finset.mul_sum]
      rw [Finset.sum_comm]
      refine Finset.sum_eq_zero fun k _ => ?_
      have := htail k k.2
      have e : ∀ i, c i * (p.tail.eval (X.get i) k * w k) = c i * p.tail.eval (X.get i) k * w k := fun i => by ring
      simp only [e, ← Finset.sum_mul, this, zero_mul]
    have h2 : ∑ i, c i * (∑ k : Fin p.tail.dimTail, p.tail.eval (X.get i) k * w k +
      (∑ j, p.kernel.eval (eucl (X.get i) (X.get j)) * c j + p.eta * c i)) = 0 :=
      Finset.sum_eq_zero fun i _ => by rw [hdata i, mul_zero]
    simp only [mul_add, Finset.sum_add_distrib] at h2
    rw [h1, zero_add] at h2
    rw [← h2]
    congr 1
    · refine Finset.sum_congr rfl fun i _ => ?_
      rw [Finset.mul_sum]
      exact Finset.sum_congr rfl fun j _ => by ring
    · rw [Finset.mul_sum]
      exact Finset.sum_congr rfl fun i _ => by ring

/-- A polynomial that vanishes at all points makes the system singular. -/
theorem sysDet_eq_zero (p : Par d) (X : List (Pt d)) (w : Fin p.tail.dimTail → ℝ) (hw0 : w ≠ 0)
    (hw : ∀ x ∈ X, ∑ k : Fin p.tail.dimTail, p.tail.eval x k * w k = 0) : sysDet p X = 0 := by
  unfold sysDet
  rw [← Matrix.exists_mulVec_eq_zero_iff]
  refine ⟨Fin.append w 0, ?_, ?_⟩
  · obtain ⟨k, hk⟩ := Function.ne_iff.mp hw0
    intro h0
    have := congrFun h0 (Fin.castAdd _ k)
    rw [Fin.append_left] at this
    exact hk this
  · funext i
    simp only [Matrix.mulVec, dotProduct, Pi.zero_apply, toMatrix, Matrix.of_apply]
    rw [Fin.sum_univ_add]
    simp only [Fin.append_left, Fin.append_right, Pi.zero_apply, mul_zero, Finset.sum_const_zero, add_zero, Fin.val_castAdd]
    by_cases hi : i.1 < p.tail.dimTail
    · refine Finset.sum_eq_zero fun j _ => ?_
      unfold sysMat
      simp only
      rw [if_pos hi, if_pos j.2, zero_mul]
    · have hlt : i.1 - p.tail.dimTail < X.length := by have := i.2; omega
      rw [← hw (X.get ⟨i - p.tail.dimTail, hlt⟩) (List.get_mem _ _)]
      refine Finset.sum_congr rfl fun j _ => ?_
      unfold sysMat
      simp only
      rw [if_neg hi, if_pos j.2]
      congr 2
      simp [hlt]

end Verif.Surrogate
