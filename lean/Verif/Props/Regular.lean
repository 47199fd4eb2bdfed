import Verif.Surrogate.Regular
import Verif.Props.Surrogate
import Mathlib.Analysis.SpecialFunctions.Log.Monotone
import Mathlib.Algebra.Order.Chebyshev
import Mathlib.Analysis.Complex.ExponentialBounds

/-! # Properties C77, C78: when can an RBF interpolant be fitted? -/

namespace Verif.Props

open Verif.Num Verif.Utils Verif.Surrogate Finset

variable {d : ℕ}

/-- The points lie on a common hyperplane. -/
def OnHyperplane (P : List (Pt d)) : Prop := ∃ (w : Fin d → ℝ) (b : ℝ), w ≠ 0 ∧ ∀ x ∈ P, ∑ j, w j * x j = b

/-- At an earlier prediction since the last `reset` there were more than `d` points, and they lay on a common hyperplane. -/
def FailedOnHyperplane (ops : List (Op d)) : Prop :=
  ∃ (o₁ : List (Op d)) (x : Pt d) (o₂ : List (Op d)), ops = o₁ ++ .predict x :: o₂ ∧ Op.reset ∉ o₂ ∧
    d < (dataOf d o₁).length ∧ OnHyperplane ((dataOf d o₁).map Prod.fst)

/-! ## The linear tail -/

theorem linearTail_zero (x : Pt d) : (linearTail d).eval x 0 = 1 := by simp [linearTail]

theorem linearTail_succ (x : Pt d) (j : Fin d) : (linearTail d).eval x (1 + j) = x j := by
  simp only [linearTail]
  rw [dif_pos (by omega)]
  congr 1
  apply Fin.ext
  simp

theorem linearTail_sum (x : Pt d) (w : Fin (1 + d) → ℝ) :
    ∑ k : Fin (1 + d), (linearTail d).eval x k * w k =
      w (Fin.castAdd d 0) + ∑ j : Fin d, x j * w (Fin.natAdd 1 j) := by
  rw [Fin.sum_univ_add]
  congr 1
  · rw [Fin.sum_univ_one]
    show (linearTail d).eval x 0 * _ = _
    rw [linearTail_zero, one_mul]
  · refine Finset.sum_congr rfl fun j _ => ?_
    rw [Fin.val_natAdd, linearTail_succ]

/-- The coefficients of a linear polynomial are determined by the values at the points unless these lie on a hyperplane. -/
theorem linearTail_unisolvent (X : List (Pt d)) :
    (∀ w : Fin (1 + d) → ℝ, (∀ x ∈ X, ∑ k : Fin (1 + d), (linearTail d).eval x k * w k = 0) → w = 0) ↔
      ¬ (X = [] ∨ OnHyperplane X) := by
  constructor
  · rintro h (rfl | ⟨w, b, hw, hX⟩)
    · have := h (fun _ => 1) (by simp)
      have := congrFun this (Fin.castAdd d 0)
      simp at this
    · apply hw
      have := h (Fin.append (fun _ => -b) w) fun x hx => by
        rw [linearTail_sum]
        simp only [Fin.append_left, Fin.append_right]
        rw [← hX x hx]
        simp [mul_comm]
      funext j
      have := congrFun this (Fin.natAdd 1 j)
      rwa [Fin.append_right] at this
  · intro h w hw
    have hw0 : ∀ j, w (Fin.natAdd 1 j) = 0 := by
      by_contra hne
      apply h
      right
      refine ⟨fun j => w (Fin.natAdd 1 j), -w (Fin.castAdd d 0), fun h0 => hne fun j => congrFun h0 j, fun x hx => ?_⟩
      have := hw x hx
      rw [linearTail_sum] at this
      have e : ∑ j, w (Fin.natAdd 1 j) * x j = ∑ j, x j * w (Fin.natAdd 1 j) :=
        Finset.sum_congr rfl fun j _ => mul_comm _ _
      rw [e]; linarith
    have hX : X ≠ [] := fun h0 => h (.inl h0)
    obtain ⟨x, hx⟩ := List.exists_mem_of_ne_nil X hX
    have h1 := hw x hx
    rw [linearTail_sum] at h1
    simp only [hw0, mul_zero, Finset.sum_const_zero, add_zero] at h1
    funext k
    refine Fin.addCases (fun i => ?_) (fun j => ?_) k
    · rw [Subsingleton.elim i 0]; exact h1
    · exact hw0 j

theorem linearTail_constraints {n : ℕ} (x : Fin n → Pt d) (c : Fin n → ℝ)
    (h : ∀ k < 1 + d, ∑ i, c i * (linearTail d).eval (x i) k = 0) :
    ∑ i, c i = 0 ∧ ∀ k, ∑ i, c i * x i k = 0 := by
  constructor
  · have := h 0 (by omega)
    simpa [linearTail_zero] using this
  · intro k
    have := h (1 + k) (by omega)
    simpa only [linearTail_succ] using this

/-! ## Scaling to the unit box -/

theorem toUnitBox_injective (lb ub : Pt d) (h : ∀ i, lb i < ub i) : Function.Injective fun x : Pt d => toUnitBox x lb ub := by
  intro x y hxy
  funext i
  have := congrFun hxy i
  have hp := (sub_pos.mpr (h i)).ne'
  simp only [toUnitBox] at this
  rw [div_left_inj' hp] at this
  linarith

theorem onHyperplane_toUnitBox (lb ub : Pt d) (h : ∀ i, lb i < ub i) (P : List (Pt d)) :
    OnHyperplane (P.map fun x => toUnitBox x lb ub) ↔ OnHyperplane P := by
  have hp : ∀ i, ub i - lb i ≠ 0 := fun i => (sub_pos.mpr (h i)).ne'
  constructor
  · rintro ⟨w, b, hw, hP⟩
    refine ⟨fun j => w j / (ub j - lb j), b + ∑ j, w j / (ub j - lb j) * lb j, fun h0 => hw ?_, fun x hx => ?_⟩
    · funext j
      have := congrFun h0 j
      simp only [Pi.zero_apply, div_eq_zero_iff, hp j, or_false] at this
      exact this
    · rw [← hP _ (List.mem_map_of_mem hx), ← Finset.sum_add_distrib]
      refine Finset.sum_congr rfl fun j _ => ?_
      have := hp j
      simp only [toUnitBox]
      field_simp
      ring
  · rintro ⟨w, b, hw, hP⟩
    refine ⟨fun j => w j * (ub j - lb j), b - ∑ j, w j * lb j, fun h0 => hw ?_, fun y hy => ?_⟩
    · funext j
      have := congrFun h0 j
      simp only [Pi.zero_apply, mul_eq_zero, hp j, or_false] at this
      exact this
    · obtain ⟨x, hx, rfl⟩ := List.mem_map.mp hy
      rw [← hP x hx, ← Finset.sum_sub_distrib]
      refine Finset.sum_congr rfl fun j _ => ?_
      have := hp j
      simp only [toUnitBox]
      field_simp

/-- A definite kernel: the system is singular exactly if the points lie on a hyperplane (or there are none). -/
theorem sysDet_iff (lb ub : Pt d) (hb : ∀ i, lb i < ub i) (kernel : Kernel) (eta : ℝ) (trans : List ℝ → List ℝ)
    (lu : ℕ → Mat → LuOut) (chol : ℕ → Mat → Option Mat) (D : List (Pt d × ℝ))
    (hdef : let X := D.map fun q => toUnitBox q.1 lb ub
      ∀ c : Fin X.length → ℝ, ∑ i, c i = 0 → (∀ k, ∑ i, c i * X.get i k = 0) → c ≠ 0 →
        ∑ i, ∑ j, c i * c j * kernel.eval (eucl (X.get i) (X.get j)) + eta * ∑ i, c i ^ 2 ≠ 0) :
    sysDet ⟨lb, ub, kernel, linearTail d, eta, trans, lu, chol⟩ (D.map fun q => toUnitBox q.1 lb ub) = 0 ↔
      D = [] ∨ OnHyperplane (D.map Prod.fst) := by
  simp only at hdef ⊢
  have hmap : (D.map fun q => toUnitBox q.1 lb ub) =
      (D.map Prod.fst).map fun x => toUnitBox x lb ub := by rw [List.map_map]; rfl
  have hnil : D = [] ↔ (D.map fun q => toUnitBox q.1 lb ub) = [] := by simp
  rw [hnil, ← onHyperplane_toUnitBox lb ub hb, ← hmap]
  set X := D.map fun q => toUnitBox q.1 lb ub
  rw [← not_iff_not, ← linearTail_unisolvent]
  constructor
  · intro hdet w hw
    by_contra hne
    exact hdet (sysDet_eq_zero ⟨lb, ub, kernel, linearTail d, eta, trans, lu, chol⟩ X w hne hw)
  · intro huni
    refine sysDet_ne_zero ⟨lb, ub, kernel, linearTail d, eta, trans, lu, chol⟩ X (fun c hc hne => ?_) huni
    obtain ⟨h1, h2⟩ := linearTail_constraints (fun i => X.get i) c hc
    exact hdef c h1 h2 hne

/-- A definite kernel: a prediction raises exactly if the points lie on a hyperplane (or there are none), or did at an
earlier prediction. -/
theorem predict_none_iff (lb ub : Pt d) (hb : ∀ i, lb i < ub i) (kernel : Kernel) (eta : ℝ) (trans : List ℝ → List ℝ)
    (lu : ℕ → Mat → LuOut) (chol : ℕ → Mat → Option Mat) (hlu : LuSpec lu) (hchol : CholSpec chol)
    (ops : List (Op d)) (hops : NoMultiColumn ops) (x : Pt d)
    (hdef : ∀ D, D <+: dataOf d ops → let X := D.map fun q => toUnitBox q.1 lb ub
      ∀ c : Fin X.length → ℝ, ∑ i, c i = 0 → (∀ k, ∑ i, c i * X.get i k = 0) → c ≠ 0 →
        ∑ i, ∑ j, c i * c j * kernel.eval (eucl (X.get i) (X.get j)) + eta * ∑ i, c i ^ 2 ≠ 0) :
    (FailedFit ⟨lb, ub, kernel, linearTail d, eta, trans, lu, chol⟩ ops ↔ FailedOnHyperplane ops) ∧
    ((predict ⟨lb, ub, kernel, linearTail d, eta, trans, lu, chol⟩
      (rrun ⟨lb, ub, kernel, linearTail d, eta, trans, lu, chol⟩ ops) x).2 = none ↔
      dataOf d ops = [] ∨ OnHyperplane ((dataOf d ops).map Prod.fst) ∨ FailedOnHyperplane ops) := by
  have key : FailedFit ⟨lb, ub, kernel, linearTail d, eta, trans, lu, chol⟩ ops ↔ FailedOnHyperplane ops := by
    rw [failedFit_iff _ hlu hchol ops hops]
    constructor
    · rintro ⟨o₁, y, o₂, rfl, hr, ht, hdet⟩
      have ht : 1 + d ≤ (dataOf d o₁).length := ht
      have hpre := dataOf_prefix_append o₁ (.predict y :: o₂) (by simp [hr])
      refine ⟨o₁, y, o₂, rfl, hr, by omega, ?_⟩
      rcases (sysDet_iff lb ub hb kernel eta trans lu chol _ (hdef _ hpre)).mp hdet with h | h
      · rw [h] at ht; simp at ht
      · exact h
    · rintro ⟨o₁, y, o₂, rfl, hr, ht, hh⟩
      have hpre := dataOf_prefix_append o₁ (.predict y :: o₂) (by simp [hr])
      exact ⟨o₁, y, o₂, rfl, hr, by show 1 + d ≤ _; omega,
        (sysDet_iff lb ub hb kernel eta trans lu chol _ (hdef _ hpre)).mpr (.inr hh)⟩
  refine ⟨key, ?_⟩
  rw [(C48_solves ⟨lb, ub, kernel, linearTail d, eta, trans, lu, chol⟩ hlu hchol ops hops x).1, key]
  simp only
  rw [sysDet_iff lb ub hb kernel eta trans lu chol _ (hdef _ (List.prefix_refl _)), or_assoc]

theorem unitBox_get_injective (lb ub : Pt d) (hb : ∀ i, lb i < ub i) (D : List (Pt d × ℝ)) (h : (D.map Prod.fst).Nodup) :
    Function.Injective ((D.map fun q => toUnitBox q.1 lb ub).get) := by
  rw [← List.nodup_iff_injective_get]
  have : (D.map fun q => toUnitBox q.1 lb ub) = (D.map Prod.fst).map fun x => toUnitBox x lb ub := by
    rw [List.map_map]; rfl
  rw [this]
  exact h.map (toUnitBox_injective lb ub hb)

theorem sum_sq_pos {n : ℕ} (c : Fin n → ℝ) (hc : c ≠ 0) : 0 < ∑ i, c i ^ 2 := by
  obtain ⟨i, hi⟩ := Function.ne_iff.mp hc
  exact Finset.sum_pos' (fun _ _ => sq_nonneg _) ⟨i, Finset.mem_univ _, lt_of_le_of_ne (sq_nonneg _) (Ne.symm (pow_ne_zero 2 hi))⟩

/-! ## C77: cubic and thin plate spline kernel -/

/-- The cubic kernel with linear tail (the default of `RBFInterpolant`), for any history of calls: a prediction raises
exactly if there are no points, or they lie on a hyperplane, or they did so at an earlier prediction made since the last
reset with more than `d` points.  With the default `eta > 0` repeated points do no harm, for
`eta = 0` the points must be distinct. -/
theorem C77_cubic (lb ub : Pt d) (hb : ∀ i, lb i < ub i) (eta : ℝ) (heta : 0 ≤ eta) (trans : List ℝ → List ℝ)
    (lu : ℕ → Mat → LuOut) (chol : ℕ → Mat → Option Mat) (hlu : LuSpec lu) (hchol : CholSpec chol)
    (ops : List (Op d)) (hops : NoMultiColumn ops) (x : Pt d)
    (hpts : 0 < eta ∨ ((dataOf d ops).map Prod.fst).Nodup) :
    (predict ⟨lb, ub, cubicKernel, linearTail d, eta, trans, lu, chol⟩
      (rrun ⟨lb, ub, cubicKernel, linearTail d, eta, trans, lu, chol⟩ ops) x).2 = none ↔
      dataOf d ops = [] ∨ OnHyperplane ((dataOf d ops).map Prod.fst) ∨ FailedOnHyperplane ops := by
  refine (predict_none_iff lb ub hb _ eta trans lu chol hlu hchol ops hops x ?_).2
  intro D hD X c h1 h2 hne
  apply ne_of_gt
  obtain ⟨hs, hp⟩ := cubic_form X.get c h1 h2
  have hq := sum_sq_pos c hne
  show 0 < ∑ i, ∑ j, c i * c j * eucl (X.get i) (X.get j) ^ 3 + eta * ∑ i, c i ^ 2
  rcases hpts with h | h
  · have := mul_pos h hq; linarith
  · have := hp (unitBox_get_injective lb ub hb _ ((hD.sublist.map Prod.fst).nodup h)) hne
    have := mul_nonneg heta hq.le
    linarith

/-- `s * log s` decreases up to `1 / e`. -/
theorem sq_log_ge {r e : ℝ} (hr : 0 ≤ r) (hre : r ≤ e) (he : e ^ 2 ≤ Real.exp (-1)) :
    e ^ 2 * Real.log e ≤ r ^ 2 * Real.log r := by
  rcases hr.lt_or_eq with h0 | h0
  · have he0 : 0 < e := lt_of_lt_of_le h0 hre
    have hinv : ∀ s : ℝ, 0 < s → s ^ 2 ≤ Real.exp (-1) → Real.exp 1 ≤ (s ^ 2)⁻¹ := by
      intro s hs h
      rw [Real.exp_neg] at h
      exact le_inv_of_le_inv₀ (by positivity) h
    have h1 := Real.log_div_self_antitoneOn (a := (e ^ 2)⁻¹) (b := (r ^ 2)⁻¹) (hinv e he0 he)
      (hinv r h0 (le_trans (by gcongr) he)) (by gcongr)
    simp only [Real.log_inv, Real.log_pow, div_inv_eq_mul] at h1
    push_cast at h1
    nlinarith
  · subst h0
    have : Real.log e ≤ 0 := by
      apply Real.log_nonpos hre
      have : Real.exp (-1) ≤ 1 := by rw [Real.exp_le_one_iff]; norm_num
      nlinarith
    have := mul_nonneg_of_nonpos_of_nonpos (neg_nonpos.mpr (sq_nonneg e)) this
    simp only [ne_eq, OfNat.ofNat_ne_zero, not_false_eq_true, zero_pow, zero_mul]
    linarith

theorem eps_pos : 0 < eps := by unfold eps; positivity

theorem eps_small : eps ^ 2 ≤ Real.exp (-1) := by
  have h : (1 : ℝ) / 3 ≤ Real.exp (-1) := by
    rw [Real.exp_neg, one_div]
    apply inv_anti₀ (Real.exp_pos 1)
    have := Real.exp_one_lt_d9
    linarith
  refine le_trans ?_ h
  unfold eps
  norm_num

/-- What replacing distances below `eps` by `eps` changes. -/
theorem tps_clamp (r : ℝ) (hr : 0 ≤ r) :
    |tpsKernel.eval r - r ^ 2 * Real.log r| ≤ -(eps ^ 2 * Real.log eps) := by
  have hle : Real.log eps ≤ 0 := by
    apply Real.log_nonpos eps_pos.le
    unfold eps
    norm_num
  have h0 : 0 ≤ -(eps ^ 2 * Real.log eps) := by nlinarith [sq_nonneg eps]
  simp only [tpsKernel, clampEps]
  split_ifs with h
  · rw [abs_le]
    have h1 := sq_log_ge hr h.le eps_small
    have h2 : r ^ 2 * Real.log r ≤ 0 := by
      have : Real.log r ≤ 0 := by
        apply Real.log_nonpos hr
        have : eps ≤ 1 := by unfold eps; norm_num
        linarith
      nlinarith [sq_nonneg r]
    constructor <;> linarith
  · simpa using h0

/-- A bounded perturbation of the entries. -/
theorem form_perturb {n : ℕ} (c : Fin n → ℝ) (E : Fin n → Fin n → ℝ) (δ : ℝ) (hE : ∀ i j, |E i j| ≤ δ) :
    -(δ * n * ∑ i, c i ^ 2) ≤ ∑ i, ∑ j, c i * c j * E i j := by
  have h1 : -(∑ i, ∑ j, |c i| * |c j| * δ) ≤ ∑ i, ∑ j, c i * c j * E i j := by
    rw [← Finset.sum_neg_distrib]
    refine Finset.sum_le_sum fun i _ => ?_
    rw [← Finset.sum_neg_distrib]
    refine Finset.sum_le_sum fun j _ => ?_
    have h := neg_abs_le (c i * c j * E i j)
    rw [abs_mul, abs_mul] at h
    have := mul_le_mul_of_nonneg_left (hE i j) (mul_nonneg (abs_nonneg (c i)) (abs_nonneg (c j)))
    linarith
  have h2 : ∑ i, ∑ j, |c i| * |c j| * δ = δ * (∑ i, |c i|) ^ 2 := by
    rw [sq, Finset.sum_mul_sum, Finset.mul_sum]
    refine Finset.sum_congr rfl fun i _ => ?_
    rw [Finset.mul_sum]
    exact Finset.sum_congr rfl fun j _ => by ring
  rcases Nat.eq_zero_or_pos n with hn | hn
  · subst hn; simp
  have hδ : 0 ≤ δ := le_trans (abs_nonneg _) (hE ⟨0, hn⟩ ⟨0, hn⟩)
  have h3 : (∑ i, |c i|) ^ 2 ≤ n * ∑ i, c i ^ 2 := by
    have := sq_sum_le_card_mul_sum_sq (s := Finset.univ) (f := fun i => |c i|)
    simpa using this
  have := mul_le_mul_of_nonneg_left h3 hδ
  rw [h2] at h1
  linarith

/-- The thin plate spline with linear tail, for any history of calls: a prediction raises exactly if there are no points, or
they lie on a hyperplane, or did so at an earlier prediction (see above), also for repeated points, as long as `eta` exceeds the error made by replacing small distances
by `eps`. -/
theorem C77_tps (lb ub : Pt d) (hb : ∀ i, lb i < ub i) (eta : ℝ) (trans : List ℝ → List ℝ)
    (lu : ℕ → Mat → LuOut) (chol : ℕ → Mat → Option Mat) (hlu : LuSpec lu) (hchol : CholSpec chol)
    (ops : List (Op d)) (hops : NoMultiColumn ops) (x : Pt d)
    (heta : -(eps ^ 2 * Real.log eps) * (dataOf d ops).length < eta) :
    (predict ⟨lb, ub, tpsKernel, linearTail d, eta, trans, lu, chol⟩
      (rrun ⟨lb, ub, tpsKernel, linearTail d, eta, trans, lu, chol⟩ ops) x).2 = none ↔
      dataOf d ops = [] ∨ OnHyperplane ((dataOf d ops).map Prod.fst) ∨ FailedOnHyperplane ops := by
  refine (predict_none_iff lb ub hb _ eta trans lu chol hlu hchol ops hops x ?_).2
  intro D hD X c h1 h2 hne
  apply ne_of_gt
  have hs := tps_form X.get c h1 h2
  have hq := sum_sq_pos c hne
  have hE := form_perturb c (fun i j => tpsKernel.eval (eucl (X.get i) (X.get j)) -
    eucl (X.get i) (X.get j) ^ 2 * Real.log (eucl (X.get i) (X.get j))) _ fun i j => tps_clamp _ (eucl_nonneg _ _)
  simp only [mul_sub, Finset.sum_sub_distrib] at hE
  have hlen : (X.length : ℝ) ≤ (dataOf d ops).length := by
    rw [List.length_map]; exact_mod_cast hD.length_le
  have hδ : 0 ≤ -(eps ^ 2 * Real.log eps) := le_trans (abs_nonneg _) (tps_clamp 0 le_rfl)
  have := mul_lt_mul_of_pos_right (lt_of_le_of_lt (mul_le_mul_of_nonneg_left hlen hδ) heta) hq
  linarith

/-- The default `eta = 1e-6` is enough for up to `10^20` points. -/
theorem C77_tps_default (n : ℕ) (hn : n ≤ 10 ^ 20) : -(eps ^ 2 * Real.log eps) * n < 1e-6 := by
  have hlog : -Real.log eps ≤ 52 := by
    unfold eps
    rw [Real.log_pow, Real.log_inv]
    have := Real.log_two_lt_d9
    push_cast
    linarith
  have hn' : (n : ℝ) ≤ 10 ^ 20 := by exact_mod_cast hn
  have hlog0 : 0 ≤ -Real.log eps := by
    have : Real.log eps ≤ 0 := by
      apply Real.log_nonpos eps_pos.le
      unfold eps
      norm_num
    linarith
  have h2 : (0 : ℝ) ≤ eps ^ 2 := sq_nonneg _
  calc -(eps ^ 2 * Real.log eps) * n = eps ^ 2 * (-Real.log eps) * n := by ring
    _ ≤ eps ^ 2 * 52 * 10 ^ 20 := by gcongr
    _ < 1e-6 := by unfold eps; norm_num

/-- Three points that do not lie on a line, the second one added twice: the interpolant can be fitted (`eta = 1e-6`). -/
example : ¬ (([(![0, 0], 1), (![1, 0], 2), (![1, 0], 3), (![0, 1], 5)] : List (Pt 2 × ℝ)) = [] ∨
    OnHyperplane (([(![0, 0], 1), (![1, 0], 2), (![1, 0], 3), (![0, 1], 5)] : List (Pt 2 × ℝ)).map Prod.fst)) := by
  rintro (h | ⟨w, b, hw, h⟩)
  · simp at h
  · apply hw
    have h1 := h ![0, 0] (by simp)
    have h2 := h ![1, 0] (by simp)
    have h3 := h ![0, 1] (by simp)
    simp [Fin.sum_univ_two] at h1 h2 h3
    funext j
    fin_cases j
    · simp only [Pi.zero_apply]; show w 0 = 0; linarith
    · simp only [Pi.zero_apply]; show w 1 = 0; linarith

/-! ## C78: linear kernel -/

theorem constantTail_constraints {n : ℕ} (x : Fin n → Pt d) (c : Fin n → ℝ)
    (h : ∀ k < (constantTail d).dimTail, ∑ i, c i * (constantTail d).eval (x i) k = 0) : ∑ i, c i = 0 := by
  have := h 0 (by simp [constantTail])
  simpa [constantTail] using this

/-- Constant tail, linear kernel, distinct points: the system is singular only without points. -/
theorem constant_det (lb ub : Pt d) (trans : List ℝ → List ℝ) (lu : ℕ → Mat → LuOut) (chol : ℕ → Mat → Option Mat)
    (D : List (Pt d × ℝ)) (hinj : Function.Injective ((D.map fun q => toUnitBox q.1 lb ub).get)) :
    sysDet ⟨lb, ub, linearKernel, constantTail d, 0, trans, lu, chol⟩ (D.map fun q => toUnitBox q.1 lb ub) = 0 ↔
      D = [] := by
  have hnil : D = [] ↔ (D.map fun q => toUnitBox q.1 lb ub) = [] := by simp
  rw [hnil]
  set X := D.map fun q => toUnitBox q.1 lb ub
  constructor
  · intro hdet
    by_contra hX
    obtain ⟨y, hy⟩ := List.exists_mem_of_ne_nil X hX
    refine sysDet_ne_zero ⟨lb, ub, linearKernel, constantTail d, 0, trans, lu, chol⟩ X (fun c hc hne => ?_)
      (fun w hw => ?_) hdet
    · simp only [zero_mul, add_zero]
      exact (linear_form X.get hinj c (constantTail_constraints (fun i => X.get i) c hc) hne).ne
    · have h := hw y hy
      funext k
      have hk : k = ⟨0, by simp [constantTail]⟩ := by
        apply Fin.ext
        have := k.2
        simp only [constantTail] at this ⊢
        omega
      rw [hk]
      have hsum : ∑ k : Fin (constantTail d).dimTail, (constantTail d).eval y k * w k = w ⟨0, by simp [constantTail]⟩ := by
        show ∑ k : Fin 1, _ = _
        rw [Fin.sum_univ_one]
        simp [constantTail]
      exact hsum ▸ h
  · intro hX
    refine sysDet_eq_zero ⟨lb, ub, linearKernel, constantTail d, 0, trans, lu, chol⟩ X (fun _ => 1) ?_ ?_
    · intro h
      have := congrFun h ⟨0, by simp [constantTail]⟩
      simp at this
    · rw [hX]; simp

/-- The linear kernel without regularization and distinct points: with the constant tail the fit fails only without
points, with the linear tail only without points, for points on a hyperplane, or after a fit that failed for this reason. -/
theorem C78_linear_partial (lb ub : Pt d) (hb : ∀ i, lb i < ub i) (trans : List ℝ → List ℝ)
    (lu : ℕ → Mat → LuOut) (chol : ℕ → Mat → Option Mat) (hlu : LuSpec lu) (hchol : CholSpec chol)
    (ops : List (Op d)) (hops : NoMultiColumn ops) (x : Pt d) (hpts : ((dataOf d ops).map Prod.fst).Nodup) :
    ((predict ⟨lb, ub, linearKernel, constantTail d, 0, trans, lu, chol⟩
      (rrun ⟨lb, ub, linearKernel, constantTail d, 0, trans, lu, chol⟩ ops) x).2 = none ↔ dataOf d ops = []) ∧
    ((predict ⟨lb, ub, linearKernel, linearTail d, 0, trans, lu, chol⟩
      (rrun ⟨lb, ub, linearKernel, linearTail d, 0, trans, lu, chol⟩ ops) x).2 = none ↔
      dataOf d ops = [] ∨ OnHyperplane ((dataOf d ops).map Prod.fst) ∨ FailedOnHyperplane ops) := by
  have hinj : ∀ D, D <+: dataOf d ops → Function.Injective ((D.map fun q => toUnitBox q.1 lb ub).get) := fun D hD =>
    unitBox_get_injective lb ub hb _ ((hD.sublist.map Prod.fst).nodup hpts)
  constructor
  · have key : ∀ D, D <+: dataOf d ops →
      (sysDet ⟨lb, ub, linearKernel, constantTail d, 0, trans, lu, chol⟩ (D.map fun q => toUnitBox q.1 lb ub) = 0 ↔
        D = []) := fun D hD => constant_det lb ub trans lu chol D (hinj D hD)
    rw [(C48_solves ⟨lb, ub, linearKernel, constantTail d, 0, trans, lu, chol⟩ hlu hchol ops hops x).1,
      failedFit_iff ⟨lb, ub, linearKernel, constantTail d, 0, trans, lu, chol⟩ hlu hchol ops hops]
    simp only
    rw [key _ (List.prefix_refl _), or_iff_left]
    rintro ⟨o₁, y, o₂, rfl, hr, ht, hdet⟩
    rw [key _ (dataOf_prefix_append o₁ _ (by simp [hr]))] at hdet
    have ht : 1 ≤ (dataOf d o₁).length := ht
    rw [hdet] at ht
    simp at ht
  · refine (predict_none_iff lb ub hb _ 0 trans lu chol hlu hchol ops hops x ?_).2
    intro D hD X c h1 h2 hne
    simp only [zero_mul, add_zero]
    exact (linear_form X.get (hinj D hD) c h1 hne).ne

/-- With regularization the linear kernel is not safe: `|x - y|` is conditionally *negative* definite, so adding `eta` to the
diagonal moves the system towards singularity.  For every `eta` in `(0, 1]` two distinct points of the box make the fit
fail. -/
theorem C78_refuted (eta : ℝ) (h0 : 0 < eta) (h1 : eta ≤ 1) (trans : List ℝ → List ℝ)
    (lu : ℕ → Mat → LuOut) (chol : ℕ → Mat → Option Mat) (hlu : LuSpec lu) (hchol : CholSpec chol) (f g : ℝ) (x : Pt 1) :
    ∃ a b : ℝ, 0 ≤ a ∧ a < b ∧ b ≤ 1 ∧
      (predict ⟨fun _ => 0, fun _ => 1, linearKernel, constantTail 1, eta, trans, lu, chol⟩
        (rrun ⟨fun _ => 0, fun _ => 1, linearKernel, constantTail 1, eta, trans, lu, chol⟩
          [.add (.vec [a]) (.float f), .add (.vec [b]) (.float g)]) x).2 = none := by
  refine ⟨0, eta, le_rfl, h0, h1, ?_⟩
  rw [(C48_solves _ hlu hchol _ (by
    intro xx fx h
    simp only [List.mem_cons, List.not_mem_nil, or_false] at h
    rcases h with h | h <;> cases h <;> trivial) x).1]
  left
  have hd : dataOf 1 [.add (.vec [0]) (.float f), .add (.vec [eta]) (.float g)] =
      [((fun _ => 0), f), ((fun _ => eta), g)] := by
    simp only [dataOf, List.foldl_cons, List.foldl_nil, accepted, pointsOf, valuesOf, List.length_cons, List.length_nil]
    simp
  rw [hd]
  have he : ([((fun _ => 0), f), ((fun _ => eta), g)] : List (Pt 1 × ℝ)).map (fun q => toUnitBox q.1 (fun _ => 0) fun _ => 1) =
      [(fun _ => 0), (fun _ => eta)] := by
    simp only [List.map_cons, List.map_nil, List.cons.injEq, and_true]
    constructor <;> (funext i; simp [toUnitBox])
  simp only [he]
  unfold sysDet
  show (toMatrix 3 _).det = 0
  have : toMatrix 3 (sysMat (⟨fun _ => 0, fun _ => 1, linearKernel, constantTail 1, eta, trans, lu, chol⟩ : Par 1)
      [(fun _ => 0), (fun _ => eta)]) = !![0, 1, 1; 1, eta, eta; 1, eta, eta] := by
    ext i j
    fin_cases i <;> fin_cases j <;>
      simp [toMatrix, sysMat, constantTail, linearKernel, eucl, Real.sqrt_sq h0.le]
  rw [this]
  simp [Matrix.det_fin_three]

end Verif.Props
