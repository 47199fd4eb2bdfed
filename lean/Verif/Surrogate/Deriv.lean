import Verif.Surrogate.RbfProofs
import Mathlib.Analysis.SpecialFunctions.Log.Deriv
import Mathlib.Analysis.SpecialFunctions.Sqrt
import Mathlib.Analysis.Calculus.Deriv.Pow
import Mathlib.Analysis.Calculus.Deriv.Comp
import Mathlib.Algebra.BigOperators.Field

/-! # The derivative of the RBF expansion -/

namespace Verif.Surrogate

open Verif.Num Verif.Utils Finset

variable {d : ℕ}

theorem eps_pos : 0 < eps := by unfold eps; positivity

theorem clampEps_of_ge {r : ℝ} (h : eps ≤ r) : clampEps r = r := by
  unfold clampEps; rw [if_neg (not_lt.mpr h)]

theorem clampEps_of_lt {r : ℝ} (h : r < eps) : clampEps r = eps := by
  unfold clampEps; rw [if_pos h]

/-- What the kernel must satisfy at the distance `r` for the derivative to be right. -/
def KernelOk (K : Kernel) (r : ℝ) : Prop :=
  (eps ≤ r ∧ HasDerivAt K.eval (K.deriv r) r) ∨ (r = 0 ∧ HasDerivAt (fun t => K.eval |t|) 0 0)

theorem cubic_ok (r : ℝ) (h : r = 0 ∨ eps ≤ r) : KernelOk cubicKernel r := by
  rcases h with h | h
  · refine Or.inr ⟨h, ?_⟩
    have : HasDerivAt (fun t : ℝ => |t| * t ^ 2) 0 0 := by
      have h1 : (fun t : ℝ => |t| * t ^ 2) =O[nhds 0] fun t => t ^ 2 := by
        apply Asymptotics.IsBigO.of_bound 1
        have : ∀ᶠ t : ℝ in nhds 0, |t| < 1 := by
          have := (continuous_abs (G := ℝ)).tendsto 0
          rw [abs_zero] at this
          exact this.eventually (gt_mem_nhds one_pos)
        filter_upwards [this] with t ht
        simp only [norm_mul, Real.norm_eq_abs, abs_abs]
        nlinarith [abs_nonneg (t ^ 2)]
      rw [hasDerivAt_iff_isLittleO_nhds_zero]
      simp only [zero_add, abs_zero, smul_zero, sub_zero, zero_mul]
      refine h1.trans_isLittleO ?_
      simpa using Asymptotics.isLittleO_pow_id (𝕜 := ℝ) (n := 2) (by norm_num)
    refine this.congr_of_eventuallyEq (Filter.Eventually.of_forall fun t => ?_)
    simp only [cubicKernel]
    rw [pow_succ, sq_abs]; ring
  · refine Or.inl ⟨h, ?_⟩
    simp only [cubicKernel]
    simpa using hasDerivAt_pow 3 r

theorem linear_ok (r : ℝ) (h : eps ≤ r) : KernelOk linearKernel r :=
  Or.inl ⟨h, hasDerivAt_id r⟩

theorem tps_ok (r : ℝ) (h : r = 0 ∨ eps < r) : KernelOk tpsKernel r := by
  rcases h with h | h
  · refine Or.inr ⟨h, ?_⟩
    refine (hasDerivAt_const (0 : ℝ) (eps ^ 2 * Real.log eps)).congr_of_eventuallyEq ?_
    have : ∀ᶠ t : ℝ in nhds 0, |t| < eps := by
      have := (continuous_abs (G := ℝ)).tendsto 0
      rw [abs_zero] at this
      exact this.eventually (gt_mem_nhds eps_pos)
    filter_upwards [this] with t ht
    simp only [tpsKernel, clampEps_of_lt ht]
  · refine Or.inl ⟨h.le, ?_⟩
    have h0 : r ≠ 0 := (eps_pos.trans h).ne'
    have h1 : HasDerivAt (fun r : ℝ => r ^ 2 * Real.log r) (r * (1 + 2 * Real.log r)) r := by
      have := (hasDerivAt_pow 2 r).mul (Real.hasDerivAt_log h0)
      refine this.congr_deriv ?_
      field_simp
      push_cast
      ring
    simp only [tpsKernel, clampEps_of_ge h.le]
    refine h1.congr_of_eventuallyEq ?_
    filter_upwards [lt_mem_nhds h] with t ht
    simp only [clampEps_of_ge ht.le]

/-- The distance from a moving point. -/
theorem eucl_deriv (y z : Pt d) (j : Fin d) (τ : ℝ → ℝ) (τ' t : ℝ) (hτ : HasDerivAt τ τ' t) (hy : τ t = y j)
    (hne : eucl y z ≠ 0) :
    HasDerivAt (fun t => eucl (Function.update y j (τ t)) z) ((y j - z j) * τ' / eucl y z) t := by
  have hup : Function.update y j (τ t) = y := by rw [hy, Function.update_eq_self]
  have h1 : HasDerivAt (fun t => ∑ i, (Function.update y j (τ t) i - z i) ^ 2) (2 * (y j - z j) * τ') t := by
    have : ∀ i ∈ (univ : Finset (Fin d)), HasDerivAt (fun t => (Function.update y j (τ t) i - z i) ^ 2)
        (if i = j then 2 * (y j - z j) * τ' else 0) t := by
      intro i _
      by_cases hi : i = j
      · subst hi
        simp only [Function.update_self, if_true]
        refine ((hτ.sub_const (z i)).pow 2).congr_deriv ?_
        rw [hy]; push_cast; ring
      · simp only [Function.update_of_ne hi, if_neg hi]
        exact hasDerivAt_const _ _
    have := HasDerivAt.fun_sum this
    refine this.congr_deriv ?_
    rw [Finset.sum_ite_eq' univ j, if_pos (mem_univ j)]
  have hS : (∑ i, (Function.update y j (τ t) i - z i) ^ 2) ≠ 0 := by
    rw [hup]
    intro h0
    apply hne
    unfold eucl
    rw [h0, Real.sqrt_zero]
  have h2 := h1.sqrt hS
  refine h2.congr_deriv ?_
  rw [hup]
  unfold eucl
  rw [show 2 * (y j - z j) * τ' = 2 * ((y j - z j) * τ') by ring, mul_div_mul_left _ _ (by norm_num : (2 : ℝ) ≠ 0)]

/-- One term of the kernel part. -/
theorem kernel_deriv (K : Kernel) (y z : Pt d) (j : Fin d) (τ : ℝ → ℝ) (τ' t : ℝ) (hτ : HasDerivAt τ τ' t) (hy : τ t = y j)
    (hK : KernelOk K (eucl y z)) :
    HasDerivAt (fun t => K.eval (eucl (Function.update y j (τ t)) z))
      ((y j - z j) * (K.deriv (clampEps (eucl z y)) / clampEps (eucl z y)) * τ') t := by
  have hup : Function.update y j (τ t) = y := by rw [hy, Function.update_eq_self]
  rcases hK with ⟨hr, hd⟩ | ⟨hr, hd⟩
  · have hne : eucl y z ≠ 0 := (eps_pos.trans_le hr).ne'
    have h1 := eucl_deriv y z j τ τ' t hτ hy hne
    rw [eucl_comm z y, clampEps_of_ge hr]
    have h2 := HasDerivAt.comp t (h₂ := K.eval) (by rw [hup]; exact hd) h1
    refine h2.congr_deriv ?_
    field_simp
  · have hyz : y = z := eucl_eq_zero.mp hr
    have h1 : (fun t => K.eval (eucl (Function.update y j (τ t)) z)) = fun t => K.eval |τ t - y j| := by
      funext t
      congr 1
      unfold eucl
      rw [← hyz, ← Real.sqrt_sq_eq_abs]
      congr 1
      rw [Finset.sum_eq_single j]
      · simp
      · intro i _ hi
        simp [hi]
      · simp
    rw [h1, hyz]
    simp only [sub_self, zero_mul]
    have h2 : HasDerivAt (fun t => τ t - z j) τ' t := hτ.sub_const _
    have h3 := HasDerivAt.comp t (h₂ := fun t => K.eval |t|) (by rw [hy, hyz, sub_self]; exact hd) h2
    exact h3.congr_deriv (by ring)

/-- What the tail must satisfy. -/
def TailOk (T : Tail d) : Prop :=
  ∀ (y : Pt d) (j : Fin d) (k : ℕ), k < T.dimTail →
    HasDerivAt (fun u => T.eval (Function.update y j u) k) (T.deriv y j k) (y j)

theorem constantTail_ok : TailOk (constantTail d) := fun _ _ _ _ => hasDerivAt_const _ _

theorem linearTail_ok : TailOk (linearTail d) := by
  intro y j k hk
  simp only [linearTail] at hk ⊢
  by_cases h1 : 1 ≤ k ∧ k < 1 + d
  · simp only [dif_pos h1]
    by_cases hj : k = j.1 + 1
    · rw [if_pos hj]
      have : (⟨k - 1, by omega⟩ : Fin d) = j := Fin.ext (by simp only; omega)
      simp only [this, Function.update_self]
      exact hasDerivAt_id _
    · rw [if_neg hj]
      have : (⟨k - 1, by omega⟩ : Fin d) ≠ j := fun h => hj (by have := congrArg Fin.val h; simp only at this; omega)
      simp only [Function.update_of_ne this]
      exact hasDerivAt_const _ _
  · simp only [dif_neg h1]
    rw [if_neg (by omega)]
    exact hasDerivAt_const _ _

theorem toUnitBox_update (x lb ub : Pt d) (j : Fin d) (t : ℝ) :
    toUnitBox (Function.update x j t) lb ub =
      Function.update (toUnitBox x lb ub) j ((t - lb j) / (ub j - lb j)) := by
  funext i
  by_cases hi : i = j
  · subst hi; simp [toUnitBox]
  · simp [toUnitBox, hi]

/-- The derivative of the expansion. -/
theorem evalAt_deriv (p : Par d) (X : List (Pt d)) (n : ℕ) (c : Vec) (x : Pt d) (j : Fin d) (hT : TailOk p.tail)
    (hK : ∀ i < n, KernelOk p.kernel (eucl (toUnitBox x p.lb p.ub) (X.getD i 0))) :
    HasDerivAt (fun t => evalAt p X n c (toUnitBox (Function.update x j t) p.lb p.ub)) (evalDeriv p X n c x j) (x j) := by
  simp only [toUnitBox_update]
  set y := toUnitBox x p.lb p.ub with hy
  have hτ : HasDerivAt (fun t => (t - p.lb j) / (p.ub j - p.lb j)) (1 / (p.ub j - p.lb j)) (x j) :=
    ((hasDerivAt_id (x j)).sub_const (p.lb j)).div_const _
  have hyj : (fun t => (t - p.lb j) / (p.ub j - p.lb j)) (x j) = y j := rfl
  unfold evalAt
  have h1 := HasDerivAt.fun_sum (u := range n) (A := fun i t =>
    p.kernel.eval (eucl (Function.update y j ((t - p.lb j) / (p.ub j - p.lb j))) (X.getD i 0)) * c (p.tail.dimTail + i))
    fun i hi => (kernel_deriv p.kernel y (X.getD i 0) j _ _ _ hτ hyj (hK i (mem_range.mp hi))).mul_const
      (c (p.tail.dimTail + i))
  have h2 := HasDerivAt.fun_sum (u := range p.tail.dimTail) (A := fun k t =>
    p.tail.eval (Function.update y j ((t - p.lb j) / (p.ub j - p.lb j))) k * c k)
    fun k hk => (HasDerivAt.comp (x j) (h₂ := fun u => p.tail.eval (Function.update y j u) k)
      (hT y j k (mem_range.mp hk)) hτ).mul_const (c k)
  refine (h1.add h2).congr_deriv ?_
  unfold evalDeriv
  simp only
  rw [← hy, add_div, add_comm, Finset.sum_div, Finset.sum_div]
  congr 1
  · exact Finset.sum_congr rfl fun k _ => by ring
  · exact Finset.sum_congr rfl fun i _ => by ring

end Verif.Surrogate
