import Verif.Props.Surrogate
import Verif.Surrogate.Deriv

/-! # Property C49: predict_deriv is the gradient of predict -/

namespace Verif.Props

open Verif.Num Verif.Utils Verif.Surrogate Finset

variable {d : ℕ}

/-- After the history `ops`, `predict` is a real function `g` and `predict_deriv` at `x` returns its partial derivatives. -/
def IsGradient (p : Par d) (ops : List (Op d)) (x : Pt d) : Prop :=
  ∃ (g : Pt d → ℝ) (D : Fin d → ℝ), (∀ y, (predict p (rrun p ops) y).2 = some (g y)) ∧
    (predictDeriv p (rrun p ops) x).2 = some D ∧
    ∀ j, HasDerivAt (fun t => g (Function.update x j t)) (D j) (x j)

/-- The distance in the unit box between `x` and a data point. -/
noncomputable def unitDist (p : Par d) (x y : Pt d) : ℝ := eucl (toUnitBox x p.lb p.ub) (toUnitBox y p.lb p.ub)

theorem gradient_of_ok (p : Par d) (hlu : LuSpec p.lu) (hchol : CholSpec p.chol)
    (hT : p.tail = constantTail d ∨ p.tail = linearTail d) (ops : List (Op d)) (hops : NoMultiColumn ops) (x : Pt d)
    (hx : (predict p (rrun p ops) x).2 ≠ none)
    (hK : ∀ q ∈ dataOf d ops, KernelOk p.kernel (unitDist p x q.1)) : IsGradient p ops x := by
  obtain ⟨hg, hh⟩ := rrun_good p hlu hchol ops hops
  have hT' : TailOk p.tail := by
    rcases hT with h | h <;> rw [h]
    · exact constantTail_ok
    · exact linearTail_ok
  unfold IsGradient
  set s := rrun p ops with hs
  obtain ⟨h1, h2, h3, h4, h5, h6, h7, _⟩ := fit_spec p hlu hchol s hg
  have hr : (Surrogate.fit p s).raised = false := by
    rcases hb : (Surrogate.fit p s).raised with _ | _
    · rfl
    · exfalso; apply hx; unfold predict; simp [hb]
  obtain ⟨F, hF, hk, _, hsol⟩ := h1.upd (h7 hr)
  refine ⟨fun y => evalAt p s.Xu s.Xu.length F.c (toUnitBox y p.lb p.ub), evalDeriv p s.Xu s.Xu.length F.c x, ?_, ?_, ?_⟩
  · intro y
    unfold predict
    simp only [hr, hF, h3, h5, hg.num]
    simp
  · unfold predictDeriv
    simp only [hr, hF, h3, h5, hg.num]
    simp
  · intro j
    refine evalAt_deriv p s.Xu s.Xu.length F.c x j hT' ?_
    intro i hi
    have hXu := hh.Xu
    have hi' : i < (dataOf d ops).length := by rw [hXu, List.length_map] at hi; exact hi
    have : s.Xu.getD i 0 = toUnitBox (dataOf d ops)[i].1 p.lb p.ub := by
      rw [hXu]; simp [hi']
    rw [this]
    exact hK _ (List.getElem_mem hi')

/-- Cubic kernel: at data points and at points not closer to one than machine precision. -/
theorem C49_cubic (p : Par d) (hlu : LuSpec p.lu) (hchol : CholSpec p.chol) (hk : p.kernel = cubicKernel)
    (hT : p.tail = constantTail d ∨ p.tail = linearTail d) (ops : List (Op d)) (hops : NoMultiColumn ops) (x : Pt d)
    (hx : (predict p (rrun p ops) x).2 ≠ none)
    (hd : ∀ q ∈ dataOf d ops, unitDist p x q.1 = 0 ∨ eps ≤ unitDist p x q.1) : IsGradient p ops x :=
  gradient_of_ok p hlu hchol hT ops hops x hx fun q hq => hk ▸ cubic_ok _ (hd q hq)

/-- Thin plate splines: at data points and at points farther than machine precision. -/
theorem C49_tps (p : Par d) (hlu : LuSpec p.lu) (hchol : CholSpec p.chol) (hk : p.kernel = tpsKernel)
    (hT : p.tail = constantTail d ∨ p.tail = linearTail d) (ops : List (Op d)) (hops : NoMultiColumn ops) (x : Pt d)
    (hx : (predict p (rrun p ops) x).2 ≠ none)
    (hd : ∀ q ∈ dataOf d ops, unitDist p x q.1 = 0 ∨ eps < unitDist p x q.1) : IsGradient p ops x :=
  gradient_of_ok p hlu hchol hT ops hops x hx fun q hq => hk ▸ tps_ok _ (hd q hq)

/-- Linear kernel: at points not closer to a data point than machine precision. -/
theorem C49_linear (p : Par d) (hlu : LuSpec p.lu) (hchol : CholSpec p.chol) (hk : p.kernel = linearKernel)
    (hT : p.tail = constantTail d ∨ p.tail = linearTail d) (ops : List (Op d)) (hops : NoMultiColumn ops) (x : Pt d)
    (hx : (predict p (rrun p ops) x).2 ≠ none)
    (hd : ∀ q ∈ dataOf d ops, eps ≤ unitDist p x q.1) : IsGradient p ops x :=
  gradient_of_ok p hlu hchol hT ops hops x hx fun q hq => hk ▸ linear_ok _ (hd q hq)

/-- A prediction exists whenever the system is nonsingular; here the system of the two points `0` and `1` in one dimension
with cubic kernel and linear tail, and the point `1/2` is far from both. -/
example : ∃ p : Par 1, LuSpec p.lu ∧ CholSpec p.chol ∧ p.kernel = cubicKernel ∧ p.tail = linearTail 1 ∧
    ∃ ops : List (Op 1), NoMultiColumn ops ∧ dataOf 1 ops = [((fun _ => 0), 1), ((fun _ => 1), 2)] ∧
      (predict p (rrun p ops) fun _ => 1 / 2).2 ≠ none ∧
      ∀ q ∈ dataOf 1 ops, eps ≤ unitDist p (fun _ => 1 / 2) q.1 := by
  obtain ⟨lu, chol, h1, h2, _⟩ := exists_library
  set p : Par 1 := ⟨fun _ => 0, fun _ => 1, cubicKernel, linearTail 1, 0, fun f => f, lu, chol⟩ with hp
  have hno : NoMultiColumn (d := 1) [.add (.vec [0]) (.float 1), .add (.vec [1]) (.float 2)] := by
    intro xx fx h
    simp only [List.mem_cons, List.not_mem_nil, or_false, Op.add.injEq] at h
    rcases h with ⟨_, rfl⟩ | ⟨_, rfl⟩ <;> trivial
  have hdat : dataOf 1 [.add (.vec [0]) (.float 1), .add (.vec [1]) (.float 2)] =
      [((fun _ => 0), 1), ((fun _ => 1), 2)] := by
    simp only [dataOf, List.foldl_cons, List.foldl_nil, accepted, pointsOf, valuesOf, List.length_cons, List.length_nil]
    simp
  refine ⟨p, h1, h2, rfl, rfl, _, hno, hdat, ?_, ?_⟩
  · intro h0
    have := ((C48_solves p h1 h2 _ hno (fun _ => 1 / 2)).1.mp h0).resolve_right (not_failedFit p _ (by simp))
    rw [hdat] at this
    have he : ([((fun _ => 0), 1), ((fun _ => 1), 2)] : List (Pt 1 × ℝ)).map (fun q => toUnitBox q.1 p.lb p.ub) =
        [(fun _ => 0), (fun _ => 1)] := by
      simp only [List.map_cons, List.map_nil, List.cons.injEq, and_true]
      constructor <;> (funext i; simp [toUnitBox, hp])
    rw [he] at this
    have hm : toMatrix 4 (sysMat p [(fun _ => 0), (fun _ => 1)]) =
        !![0, 0, 1, 1; 0, 0, 0, 1; 1, 0, 0, 1; 1, 1, 1, 0] := by
      ext i j
      fin_cases i <;> fin_cases j <;>
        simp [toMatrix, sysMat, linearTail, cubicKernel, eucl, hp]
    change (toMatrix 4 _).det = 0 at this
    rw [hm] at this
    simp [Matrix.det_succ_row_zero, Fin.sum_univ_succ, Fin.succAbove] at this
  · rw [hdat]
    have he : eps ≤ 1 / 2 := by unfold eps; norm_num
    intro q hq
    simp only [List.mem_cons, List.not_mem_nil, or_false] at hq
    rcases hq with rfl | rfl
    · simp only [unitDist, eucl, toUnitBox, hp]
      norm_num
      rw [show (4 : ℝ) = 2 ^ 2 by norm_num, Real.sqrt_sq (by norm_num)]
      linarith
    · simp only [unitDist, eucl, toUnitBox, hp]
      norm_num
      rw [show (4 : ℝ) = 2 ^ 2 by norm_num, Real.sqrt_sq (by norm_num)]
      linarith

end Verif.Props
