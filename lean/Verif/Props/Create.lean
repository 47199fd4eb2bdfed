import Verif.Surrogate.Create
import Verif.Props.Recover
import Mathlib.LinearAlgebra.Matrix.ToLinearEquiv
import Mathlib.Analysis.SpecialFunctions.Pow.Real

/-! # Property C95: the constructor of the RBF interpolant -/

namespace Verif.Props

open Verif.Num Verif.Utils Verif.Surrogate Finset

variable {d : ℕ}

/-! ## Specification -/

/-- The kernels of the package. -/
inductive KernelName | linear | cubic | tps
  deriving DecidableEq

/-- The tails of the package. -/
inductive TailName | constant | linear

noncomputable def KernelName.kernel : KernelName → Kernel
  | .linear => linearKernel
  | .cubic => cubicKernel
  | .tps => tpsKernel

def TailName.tail (d : ℕ) : TailName → Tail d
  | .constant => constantTail d
  | .linear => linearTail d

/-- The combinations of the literature: the linear kernel needs at least a constant, the other two at least a linear tail. -/
def Suitable : KernelName → TailName → Prop
  | .linear, _ => True
  | .cubic, .linear => True
  | .tps, .linear => True
  | .cubic, .constant => False
  | .tps, .constant => False

/-! ## Theorems -/

theorem create_none (lb ub : Pt d) (trans : Option (List ℝ → List ℝ)) (k : Kernel) (t : Σ d', Tail d') (eta : ℝ)
    (lu : ℕ → Mat → LuOut) (chol : ℕ → Mat → Option Mat) :
    rbfCreate d lb ub trans (some k) (some t) eta lu chol = none ↔ (k.order : ℤ) - 1 > t.2.degree ∨ t.1 ≠ d := by
  unfold rbfCreate
  dsimp only
  split_ifs with h1 h2
  · simp only [true_iff]; exact .inl h1
  · simp only [reduceCtorEq, false_iff]; rintro (h | h) <;> contradiction
  · simp only [true_iff]; exact .inr h2

theorem create_some (lb ub : Pt d) (trans : Option (List ℝ → List ℝ)) (k : Kernel) (t : Tail d) (eta : ℝ)
    (lu : ℕ → Mat → LuOut) (chol : ℕ → Mat → Option Mat) (h : ¬ (k.order : ℤ) - 1 > t.degree) :
    rbfCreate d lb ub trans (some k) (some ⟨d, t⟩) eta lu chol =
      some ⟨lb, ub, k, t, eta, trans.getD fun f => f, lu, chol⟩ := by
  unfold rbfCreate
  exact (if_neg h).trans (dif_pos rfl)

/-- Kernel and tail are given: the constructor raises exactly if the combination is not suitable or the tail has another
dimension; otherwise the interpolant has the parameters that were passed. -/
theorem C95_given (lb ub : Pt d) (trans : Option (List ℝ → List ℝ)) (K : KernelName) (T : TailName) (d' : ℕ) (eta : ℝ)
    (lu : ℕ → Mat → LuOut) (chol : ℕ → Mat → Option Mat) :
    (rbfCreate d lb ub trans (some K.kernel) (some ⟨d', T.tail d'⟩) eta lu chol = none ↔ ¬ (Suitable K T ∧ d' = d)) ∧
    (Suitable K T → rbfCreate d lb ub trans (some K.kernel) (some ⟨d, T.tail d⟩) eta lu chol =
      some ⟨lb, ub, K.kernel, T.tail d, eta, trans.getD fun f => f, lu, chol⟩) := by
  have ho : ((K.kernel.order : ℤ) - 1 > (T.tail d').degree ↔ ¬ Suitable K T) ∧
      ((K.kernel.order : ℤ) - 1 > (T.tail d).degree ↔ ¬ Suitable K T) := by
    cases K <;> cases T <;>
      simp [KernelName.kernel, TailName.tail, Suitable, linearKernel, cubicKernel, tpsKernel, constantTail, linearTail]
  constructor
  · rw [create_none]
    simp only
    rw [ho.1]
    tauto
  · intro h
    exact create_some lb ub trans _ _ eta lu chol (by rw [ho.2]; simpa using h)

/-- The default: cubic kernel and linear tail. -/
theorem C95_default (lb ub : Pt d) (trans : Option (List ℝ → List ℝ)) (eta : ℝ)
    (lu : ℕ → Mat → LuOut) (chol : ℕ → Mat → Option Mat) :
    rbfCreate d lb ub trans none none eta lu chol =
      some ⟨lb, ub, cubicKernel, linearTail d, eta, trans.getD fun f => f, lu, chol⟩ := by
  exact create_some lb ub trans cubicKernel (linearTail d) eta lu chol (by simp [cubicKernel, linearTail])

/-- A kernel without a tail, or a tail (of any dimension) without a kernel, is ignored. -/
theorem C95_ignored_refuted (lb ub : Pt d) (trans : Option (List ℝ → List ℝ)) (k : Kernel) (t : Σ d', Tail d') (eta : ℝ)
    (lu : ℕ → Mat → LuOut) (chol : ℕ → Mat → Option Mat) :
    rbfCreate d lb ub trans (some k) none eta lu chol = rbfCreate d lb ub trans none none eta lu chol ∧
    rbfCreate d lb ub trans none (some t) eta lu chol = rbfCreate d lb ub trans none none eta lu chol :=
  ⟨rfl, rfl⟩

/-- An observable consequence: with `kernel=LinearKernel()` or `tail=ConstantTail(d)` alone one point is not enough for a
prediction, with both it is. -/
theorem C95_refuted (hd : 0 < d) (lb ub : Pt d) (hb : ∀ i, lb i < ub i) (lu : ℕ → Mat → LuOut) (chol : ℕ → Mat → Option Mat)
    (hlu : LuSpec lu) (hchol : CholSpec chol) (a x : Pt d) (v : ℝ) :
    ∃ p₁ p₂ p₃ : Par d,
      rbfCreate d lb ub none (some linearKernel) none 0 lu chol = some p₁ ∧
      rbfCreate d lb ub none none (some ⟨d, constantTail d⟩) 0 lu chol = some p₂ ∧
      rbfCreate d lb ub none (some linearKernel) (some ⟨d, constantTail d⟩) 0 lu chol = some p₃ ∧
      (predict p₁ (rrun p₁ (scratch [(a, v)])) x).2 = none ∧
      (predict p₂ (rrun p₂ (scratch [(a, v)])) x).2 = none ∧
      (predict p₃ (rrun p₃ (scratch [(a, v)])) x).2 ≠ none := by
  have key : (predict ⟨lb, ub, cubicKernel, linearTail d, 0, fun f => f, lu, chol⟩
      (rrun ⟨lb, ub, cubicKernel, linearTail d, 0, fun f => f, lu, chol⟩ (scratch [(a, v)])) x).2 = none := by
    rw [C77_cubic lb ub hb 0 le_rfl _ lu chol hlu hchol _ (scratch_ok _) x (.inr (by rw [scratch_data]; simp)), scratch_data]
    refine .inr (.inl ⟨fun _ => 1, ∑ j, 1 * a j, fun h => ?_, by simp⟩)
    have := congrFun h ⟨0, hd⟩
    simp at this
  refine ⟨_, _, _, C95_default lb ub none 0 lu chol, C95_default lb ub none 0 lu chol,
    (C95_given lb ub none .linear .constant d 0 lu chol).2 trivial, key, key, ?_⟩
  show (predict ⟨lb, ub, linearKernel, constantTail d, 0, fun f => f, lu, chol⟩
    (rrun ⟨lb, ub, linearKernel, constantTail d, 0, fun f => f, lu, chol⟩ (scratch [(a, v)])) x).2 ≠ none
  rw [Ne, (C78_linear_partial lb ub hb (fun f => f) lu chol hlu hchol _ (scratch_ok _) x (by rw [scratch_data]; simp)).1,
    scratch_data]
  simp

/-! ## Suitable combinations can be fitted -/

/-- For every suitable combination there is a regularization parameter (0 for the linear kernel, else the default) such
that any points which are distinct and not on a hyperplane (up to `10^20` of them) can be fitted. -/
theorem C95_suitable (lb ub : Pt d) (hb : ∀ i, lb i < ub i) (trans : List ℝ → List ℝ) (lu : ℕ → Mat → LuOut)
    (chol : ℕ → Mat → Option Mat) (hlu : LuSpec lu) (hchol : CholSpec chol) (K : KernelName) (T : TailName)
    (hKT : Suitable K T) (D : List (Pt d × ℝ)) (hD : D ≠ []) (hdis : (D.map Prod.fst).Nodup)
    (hhyp : ¬ OnHyperplane (D.map Prod.fst)) (hlen : D.length ≤ 10 ^ 20) (x : Pt d) :
    let p : Par d := ⟨lb, ub, K.kernel, T.tail d, if K = .linear then 0 else 1e-6, trans, lu, chol⟩
    (predict p (rrun p (scratch D)) x).2 ≠ none := by
  have hnf : ¬ FailedOnHyperplane (scratch D) := by
    rintro ⟨o₁, y, o₂, h, _⟩
    have : Op.predict y ∈ o₁ ++ .predict y :: o₂ := by simp
    rw [← h] at this
    simp [scratch] at this
  intro p
  cases K <;> cases T <;> first | exact hKT.elim | skip
  · have := (C78_linear_partial lb ub hb trans lu chol hlu hchol _ (scratch_ok D) x (by rwa [scratch_data])).1
    rw [scratch_data] at this
    simp only [p, if_true, KernelName.kernel, TailName.tail]
    rw [Ne, this]; exact hD
  · have := (C78_linear_partial lb ub hb trans lu chol hlu hchol _ (scratch_ok D) x (by rwa [scratch_data])).2
    rw [scratch_data] at this
    simp only [p, if_true, KernelName.kernel, TailName.tail]
    rw [Ne, this]
    tauto
  · have := C77_cubic lb ub hb 1e-6 (by norm_num) trans lu chol hlu hchol _ (scratch_ok D) x (.inl (by norm_num))
    rw [scratch_data] at this
    simp only [p, KernelName.kernel, TailName.tail, reduceCtorEq, if_false]
    rw [Ne, this]
    tauto
  · have := C77_tps lb ub hb 1e-6 trans lu chol hlu hchol _ (scratch_ok D) x
      (by rw [scratch_data]; exact C77_tps_default _ hlen)
    rw [scratch_data] at this
    simp only [p, KernelName.kernel, TailName.tail, reduceCtorEq, if_false]
    rw [Ne, this]
    tauto

/-! ## The other combinations are rightly refused -/

/-- The system of three points for the constant tail. -/
theorem sysDet_three (p : Par d) (hp : p.tail = constantTail d) (x y z : Pt d) (u : Fin 4 → ℝ) (hu : u ≠ 0)
    (h0 : u 1 + u 2 + u 3 = 0)
    (h1 : u 0 + (p.kernel.eval 0 + p.eta) * u 1 + p.kernel.eval (eucl x y) * u 2 + p.kernel.eval (eucl x z) * u 3 = 0)
    (h2 : u 0 + p.kernel.eval (eucl y x) * u 1 + (p.kernel.eval 0 + p.eta) * u 2 + p.kernel.eval (eucl y z) * u 3 = 0)
    (h3 : u 0 + p.kernel.eval (eucl z x) * u 1 + p.kernel.eval (eucl z y) * u 2 + (p.kernel.eval 0 + p.eta) * u 3 = 0) :
    sysDet p [x, y, z] = 0 := by
  obtain ⟨lb, ub, kernel, tail, eta, trans, lu, chol⟩ := p
  simp only at hp h1 h2 h3
  subst hp
  unfold sysDet
  show (toMatrix 4 _).det = 0
  apply Matrix.exists_mulVec_eq_zero_iff.mp
  refine ⟨u, hu, ?_⟩
  funext i
  fin_cases i
  · simp [Matrix.mulVec, dotProduct, toMatrix, sysMat, constantTail, Fin.sum_univ_four]
    linarith
  · simp [Matrix.mulVec, dotProduct, toMatrix, sysMat, constantTail, Fin.sum_univ_four]
    linarith
  · simp [Matrix.mulVec, dotProduct, toMatrix, sysMat, constantTail, Fin.sum_univ_four]
    linarith
  · simp [Matrix.mulVec, dotProduct, toMatrix, sysMat, constantTail, Fin.sum_univ_four]
    linarith

/-- A triple of points of the unit square for which the constant tail fails. -/
def Fails (K : Kernel) (eta : ℝ) (x y z : Pt 2) : Prop :=
  (∀ w ∈ [x, y, z], ∀ i, 0 ≤ w i ∧ w i ≤ 1) ∧ ¬ OnHyperplane [x, y, z] ∧
    ∀ (trans : List ℝ → List ℝ) (lu : ℕ → Mat → LuOut) (chol : ℕ → Mat → Option Mat), LuSpec lu → CholSpec chol →
      ∀ (f g h : ℝ) (q : Pt 2),
        let p : Par 2 := ⟨fun _ => 0, fun _ => 1, K, constantTail 2, eta, trans, lu, chol⟩
        (predict p (rrun p (scratch [(x, f), (y, g), (z, h)])) q).2 = none

theorem fails_of (K : Kernel) (eta : ℝ) (x y z : Pt 2) (h1 : ∀ w ∈ [x, y, z], ∀ i, 0 ≤ w i ∧ w i ≤ 1)
    (h2 : ¬ OnHyperplane [x, y, z])
    (h3 : ∀ (trans : List ℝ → List ℝ) (lu : ℕ → Mat → LuOut) (chol : ℕ → Mat → Option Mat),
      sysDet (⟨fun _ => 0, fun _ => 1, K, constantTail 2, eta, trans, lu, chol⟩ : Par 2) [x, y, z] = 0) : Fails K eta x y z := by
  refine ⟨h1, h2, fun trans lu chol hlu hchol f g h q => ?_⟩
  intro p
  rw [(C48_solves p hlu hchol _ (scratch_ok _) q).1, scratch_data]
  left
  have hid : ∀ w : Pt 2, toUnitBox w (fun _ => 0) (fun _ => 1) = w := by
    intro w; funext i; simp [toUnitBox]
  show sysDet p [toUnitBox x _ _, toUnitBox y _ _, toUnitBox z _ _] = 0
  simp only [p, hid]
  exact h3 trans lu chol

theorem not_collinear (x y z : Pt 2) (h : (y 0 - x 0) * (z 1 - x 1) - (y 1 - x 1) * (z 0 - x 0) ≠ 0) :
    ¬ OnHyperplane [x, y, z] := by
  rintro ⟨w, b, hw, hP⟩
  have hx := hP x (by simp)
  have hy := hP y (by simp)
  have hz := hP z (by simp)
  rw [Fin.sum_univ_two] at hx hy hz
  apply hw
  have e1 : w 0 * ((y 0 - x 0) * (z 1 - x 1) - (y 1 - x 1) * (z 0 - x 0)) = 0 := by
    linear_combination (z 1 - x 1) * (hy - hx) - (y 1 - x 1) * (hz - hx)
  have e2 : w 1 * ((y 0 - x 0) * (z 1 - x 1) - (y 1 - x 1) * (z 0 - x 0)) = 0 := by
    linear_combination (y 0 - x 0) * (hz - hx) - (z 0 - x 0) * (hy - hx)
  funext i
  fin_cases i
  · exact (mul_eq_zero.mp e1).resolve_right h
  · exact (mul_eq_zero.mp e2).resolve_right h

theorem eucl_two (x y : Pt 2) : eucl x y = Real.sqrt ((x 0 - y 0) ^ 2 + (x 1 - y 1) ^ 2) := by
  simp [eucl, Fin.sum_univ_two]

/-- With the constant tail, which the constructor refuses for them, the cubic kernel and the thin plate spline could not be
fitted to certain triangles in the unit square, for every regularization parameter in `[0, 1/2]`. -/
theorem C95_unsuitable (eta : ℝ) (h0 : 0 ≤ eta) (h1 : eta ≤ 1 / 2) :
    (∃ x y z, Fails cubicKernel eta x y z) ∧ ∃ x y z, Fails tpsKernel eta x y z := by
  constructor
  · -- the base has length 1, the legs have length `l` with `4 l^3 = 1 + 3 eta`
    obtain ⟨l, hl0, hl⟩ : ∃ l : ℝ, 0 ≤ l ∧ l ^ 3 = (1 + 3 * eta) / 4 :=
      ⟨((1 + 3 * eta) / 4) ^ ((1 : ℝ) / 3), by positivity, by
        rw [← Real.rpow_natCast, ← Real.rpow_mul (by positivity)]; norm_num⟩
    have hl1 : l ≤ 1 := by
      by_contra h
      have : 1 < l ^ 3 := one_lt_pow₀ (by linarith) (by norm_num)
      linarith
    have hl2 : 1 / 4 < l ^ 2 := by
      have : 1 / 2 < l := by
        by_contra h
        have : l ^ 3 ≤ (1 / 2) ^ 3 := pow_le_pow_left₀ hl0 (by linarith) 3
        norm_num at this
        linarith
      nlinarith
    set t := Real.sqrt (l ^ 2 - 1 / 4) with ht
    have htp : 0 < t := Real.sqrt_pos.mpr (by linarith)
    have ht2 : t ^ 2 = l ^ 2 - 1 / 4 := Real.sq_sqrt (by linarith)
    have ht1 : t ≤ 1 := by nlinarith
    have hleg : Real.sqrt (1 / 4 + t ^ 2) = l := by
      rw [ht2, show (1 : ℝ) / 4 + (l ^ 2 - 1 / 4) = l ^ 2 by ring, Real.sqrt_sq hl0]
    refine ⟨![0, 0], ![1, 0], ![1 / 2, t], fails_of _ _ _ _ _ ?_ ?_ ?_⟩
    · intro w hw i
      simp only [List.mem_cons, List.not_mem_nil, or_false] at hw
      rcases hw with rfl | rfl | rfl <;> fin_cases i <;> simp <;> first | exact ⟨htp.le, ht1⟩ | norm_num
    · apply not_collinear
      simp
      exact htp.ne'
    · intro trans lu chol
      have e1 : eucl ![0, 0] ![1, 0] = 1 := by rw [eucl_two]; simp
      have e1' : eucl ![1, 0] ![0, 0] = 1 := by rw [eucl_two]; simp
      have e2 : eucl ![0, 0] ![1 / 2, t] = l := by
        rw [eucl_two, ← hleg]; congr 1; simp; norm_num
      have e2' : eucl ![1 / 2, t] ![0, 0] = l := by
        rw [eucl_two, ← hleg]; congr 1; simp; norm_num
      have e3 : eucl ![1, 0] ![1 / 2, t] = l := by
        rw [eucl_two, ← hleg]; congr 1; simp; norm_num
      have e3' : eucl ![1 / 2, t] ![1, 0] = l := by
        rw [eucl_two, ← hleg]; congr 1; simp; norm_num
      have e0 : ∀ w : Pt 2, eucl w w = 0 := fun w => by rw [eucl_two]; simp
      refine sysDet_three _ rfl _ _ _ ![2 * eta - 2 * l ^ 3, 1, 1, -2] (fun h => ?_) ?_ ?_ ?_ ?_
      · have := congrFun h 1
        simp at this
      all_goals
        simp only [e0, e1, e1', e2, e2', e3, e3', cubicKernel, Matrix.cons_val, Matrix.cons_val_zero, Matrix.cons_val_one]
        linarith
  · -- the base has length `r` with `r^2 log r = eps^2 log eps + eta`
    have hee : -(eps ^ 2 * Real.log eps) < 1e-6 := by simpa using C77_tps_default 1 (by norm_num)
    have hee0 : eps ^ 2 * Real.log eps ≤ 0 := by
      have : Real.log eps ≤ 0 := Real.log_nonpos eps_pos.le (by unfold eps; norm_num)
      nlinarith [sq_nonneg eps]
    have hlog := Real.log_two_gt_d9
    have hs2 : Real.sqrt 2 ^ 2 = 2 := Real.sq_sqrt (by norm_num)
    have hs0 : 0 < Real.sqrt 2 := by positivity
    have hs1 : 1 / 2 ≤ Real.sqrt 2 := by nlinarith
    obtain ⟨r, ⟨hr1, hr2⟩, hr⟩ : ∃ r ∈ Set.Icc (1 / 2 : ℝ) (Real.sqrt 2), r ^ 2 * Real.log r = eps ^ 2 * Real.log eps + eta := by
      have hcont : ContinuousOn (fun r : ℝ => r ^ 2 * Real.log r) (Set.Icc (1 / 2) (Real.sqrt 2)) :=
        (continuousOn_id.pow 2).mul (Real.continuousOn_log.mono fun r hr => by
          have : (1 : ℝ) / 2 ≤ r := hr.1
          simp only [Set.mem_compl_iff, Set.mem_singleton_iff]
          linarith)
      apply intermediate_value_Icc hs1 hcont
      constructor
      · show (1 / 2 : ℝ) ^ 2 * Real.log (1 / 2) ≤ _
        rw [one_div, Real.log_inv]
        norm_num at hee ⊢
        linarith
      · show _ ≤ Real.sqrt 2 ^ 2 * Real.log (Real.sqrt 2)
        rw [hs2, Real.log_sqrt (by norm_num)]
        linarith
    have hepsr : ¬ r < eps := by
      have : eps ≤ 1 / 2 := by unfold eps; norm_num
      linarith
    set t := r / Real.sqrt 2 with ht
    have htp : 0 < t := by positivity
    have ht1 : t ≤ 1 := by rw [ht, div_le_one hs0]; exact hr2
    have ht2 : t ^ 2 + t ^ 2 = r ^ 2 := by rw [ht, div_pow, hs2]; ring
    refine ⟨![0, 0], ![t, t], ![t, 0], fails_of _ _ _ _ _ ?_ ?_ ?_⟩
    · intro w hw i
      simp only [List.mem_cons, List.not_mem_nil, or_false] at hw
      rcases hw with rfl | rfl | rfl <;> fin_cases i <;> simp <;> exact ⟨htp.le, ht1⟩
    · apply not_collinear
      simp
      exact htp.ne'
    · intro trans lu chol
      have e0 : ∀ w : Pt 2, eucl w w = 0 := fun w => by rw [eucl_two]; simp
      have e1 : eucl ![0, 0] ![t, t] = r := by rw [eucl_two]; simp [ht2]; exact Real.sqrt_sq (by linarith)
      have e1' : eucl ![t, t] ![0, 0] = r := by rw [eucl_two]; simp [ht2]; exact Real.sqrt_sq (by linarith)
      have e2 : eucl ![t, 0] ![0, 0] = t := by rw [eucl_two]; simp [htp.le]
      have e3 : eucl ![t, 0] ![t, t] = t := by rw [eucl_two]; simp [htp.le]
      have k0 : tpsKernel.eval 0 = eps ^ 2 * Real.log eps := by simp [tpsKernel, clampEps, eps_pos]
      have k1 : tpsKernel.eval r = eps ^ 2 * Real.log eps + eta := by
        rw [← hr]; simp only [tpsKernel, clampEps]; rw [if_neg hepsr]
      refine sysDet_three _ rfl _ _ _ ![0, 1, -1, 0] (fun h => ?_) ?_ ?_ ?_ ?_
      · have := congrFun h 1
        simp at this
      all_goals
        simp [e0, e1, e1', e2, e3, k0, k1]

/-- The hypotheses of `C95_suitable` are met: three vertices of the unit square. -/
example : ([(![0, 0], 1), (![1, 0], 2), (![0, 1], 3)] : List (Pt 2 × ℝ)) ≠ [] ∧
    (([(![0, 0], 1), (![1, 0], 2), (![0, 1], 3)] : List (Pt 2 × ℝ)).map Prod.fst).Nodup ∧
    ¬ OnHyperplane (([(![0, 0], 1), (![1, 0], 2), (![0, 1], 3)] : List (Pt 2 × ℝ)).map Prod.fst) := by
  have hn : ¬ OnHyperplane (([(![0, 0], 1), (![1, 0], 2), (![0, 1], 3)] : List (Pt 2 × ℝ)).map Prod.fst) :=
    not_collinear _ _ _ (by simp)
  refine ⟨by simp, ?_, hn⟩
  simp

end Verif.Props
