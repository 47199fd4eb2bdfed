import Verif.Props.Surrogate
import Mathlib.LinearAlgebra.Matrix.Reindex

/-!
# The fitting equations without indices into the system matrix

Helpers for C85-C88: what `RBFInterpolant._fit` solves (rbf.py:113-168), stated for the list of data.
-/

namespace Verif.Surrogate

open Verif.Num Verif.Utils Verif.Props Finset

variable {d : ℕ}

/-- The tail part of the expansion. -/
noncomputable def tailPart (p : Par d) (b : ℕ → ℝ) (y : Pt d) : ℝ := ∑ k ∈ range p.tail.dimTail, p.tail.eval y k * b k

/-- The kernel part of the expansion. -/
noncomputable def kernelPart (p : Par d) (D : List (Pt d × ℝ)) (lam : ℕ → ℝ) (y : Pt d) : ℝ :=
  ∑ i : Fin D.length, p.kernel.eval (eucl y (toUnitBox D[i].1 p.lb p.ub)) * lam i

/-- `lam`, `b` are coefficients of the regularized interpolant of the data `D` with transformed values `v`. -/
structure Coef (p : Par d) (D : List (Pt d × ℝ)) (v : ℕ → ℝ) (lam b : ℕ → ℝ) : Prop where
  orth : ∀ k < p.tail.dimTail, ∑ i : Fin D.length, lam i * p.tail.eval (toUnitBox D[i].1 p.lb p.ub) k = 0
  fits : ∀ i : Fin D.length, kernelPart p D lam (toUnitBox D[i].1 p.lb p.ub) +
    tailPart p b (toUnitBox D[i].1 p.lb p.ub) + p.eta * lam i = v i

/-- The points of the unit box. -/
noncomputable def ptsOf (p : Par d) (D : List (Pt d × ℝ)) : List (Pt d) := D.map fun q => toUnitBox q.1 p.lb p.ub

theorem ptsOf_getD (p : Par d) (D : List (Pt d × ℝ)) (i : Fin D.length) :
    (ptsOf p D).getD i 0 = toUnitBox D[i].1 p.lb p.ub := by simp [ptsOf]

theorem evalAt_eq (p : Par d) (D : List (Pt d × ℝ)) (c : Vec) (y : Pt d) :
    evalAt p (ptsOf p D) (ptsOf p D).length c y =
      kernelPart p D (fun i => c (p.tail.dimTail + i)) y + tailPart p c y := by
  unfold evalAt kernelPart tailPart
  congr 1
  have hl : (ptsOf p D).length = D.length := by simp [ptsOf]
  rw [hl, Finset.sum_range]
  exact Finset.sum_congr rfl fun i _ => by rw [ptsOf_getD p D i]

/-- Product of the system matrix with a vector: the tail rows. -/
theorem sysMat_tail_row (p : Par d) (D : List (Pt d × ℝ)) (c : Vec) (k : ℕ) (hk : k < p.tail.dimTail) :
    ∑ j ∈ range (p.tail.dimTail + (ptsOf p D).length), sysMat p (ptsOf p D) k j * c j =
      ∑ i : Fin D.length, c (p.tail.dimTail + i) * p.tail.eval (toUnitBox D[i].1 p.lb p.ub) k := by
  have hl : (ptsOf p D).length = D.length := by simp [ptsOf]
  set t := p.tail.dimTail with ht
  rw [Finset.sum_range_add, hl]
  have hz : ∑ j ∈ range t, sysMat p (ptsOf p D) k j * c j = 0 := by
    apply Finset.sum_eq_zero
    intro j hj
    unfold sysMat
    simp only
    rw [if_pos hk, if_pos (mem_range.mp hj), zero_mul]
  rw [hz, zero_add, Finset.sum_range]
  refine Finset.sum_congr rfl fun i _ => ?_
  unfold sysMat
  simp only
  rw [if_pos hk, if_neg (by omega), ← ht, show t + i.1 - t = i.1 by omega, ptsOf_getD p D i]
  ring

/-- Product of the system matrix with a vector: the data rows. -/
theorem sysMat_data_row (p : Par d) (D : List (Pt d × ℝ)) (c : Vec) (i : Fin D.length) :
    ∑ j ∈ range (p.tail.dimTail + (ptsOf p D).length), sysMat p (ptsOf p D) (p.tail.dimTail + i) j * c j =
      kernelPart p D (fun i => c (p.tail.dimTail + i)) (toUnitBox D[i].1 p.lb p.ub) +
        tailPart p c (toUnitBox D[i].1 p.lb p.ub) + p.eta * c (p.tail.dimTail + i) := by
  have hl : (ptsOf p D).length = D.length := by simp [ptsOf]
  have hi2 : i.1 < D.length := i.2
  rw [Finset.sum_range_add, hl]
  set t := p.tail.dimTail with ht
  set X := ptsOf p D with hX
  have e1 : ∑ j ∈ range t, sysMat p X (t + i) j * c j = tailPart p c (toUnitBox D[i].1 p.lb p.ub) := by
    refine Finset.sum_congr rfl fun k hk => ?_
    unfold sysMat
    simp only
    rw [if_neg (by omega), if_pos (mem_range.mp hk), ← ht, show t + i.1 - t = i.1 by omega, hX, ptsOf_getD p D i]
  have e2 : ∑ j ∈ range D.length, sysMat p X (t + i) (t + j) * c (t + j) =
      kernelPart p D (fun i => c (t + i)) (toUnitBox D[i].1 p.lb p.ub) + p.eta * c (t + i) := by
    have e3 : ∀ j : Fin D.length, sysMat p X (t + i) (t + j) * c (t + j) =
        p.kernel.eval (eucl (toUnitBox D[i].1 p.lb p.ub) (toUnitBox D[j].1 p.lb p.ub)) * c (t + j) +
          if j = i then p.eta * c (t + j) else 0 := by
      intro j
      unfold sysMat
      simp only
      rw [if_neg (by omega), if_neg (by omega), ← ht, show t + i.1 - t = i.1 by omega, show t + j.1 - t = j.1 by omega,
        hX, ptsOf_getD p D i, ptsOf_getD p D j]
      by_cases hj : j = i
      · subst hj; rw [if_pos rfl, if_pos rfl]; ring
      · rw [if_neg (fun h => hj (Fin.ext (by omega))), if_neg hj]; ring
    rw [Finset.sum_range, Finset.sum_congr rfl fun j _ => e3 j, Finset.sum_add_distrib]
    unfold kernelPart
    simp
  rw [e1, e2]
  ring

theorem solves_iff (p : Par d) (D : List (Pt d × ℝ)) (c : Vec) (f : List ℝ) :
    Solves p (ptsOf p D) f c ↔ Coef p D (fun i => (p.trans f).getD i 0) (fun i => c (p.tail.dimTail + i)) c := by
  have hl : (ptsOf p D).length = D.length := by simp [ptsOf]
  constructor
  · intro h
    refine ⟨fun k hk => ?_, fun i => ?_⟩
    · rw [← sysMat_tail_row p D c k hk, h k (by omega)]
      unfold rhsOf rhsVec
      rw [if_pos hk]
    · rw [← sysMat_data_row p D c i, h _ (by have := i.2; omega)]
      unfold rhsOf rhsVec
      rw [if_neg (by omega), show p.tail.dimTail + i.1 - p.tail.dimTail = i.1 by omega]
  · intro h i hi
    by_cases hk : i < p.tail.dimTail
    · rw [sysMat_tail_row p D c i hk]
      unfold rhsOf rhsVec
      rw [if_pos hk]
      exact h.orth i hk
    · obtain ⟨j, rfl⟩ := Nat.exists_eq_add_of_le (not_lt.mp hk)
      have hj : j < D.length := by omega
      have := sysMat_data_row p D c ⟨j, hj⟩
      simp only at this
      rw [this]
      unfold rhsOf rhsVec
      rw [if_neg hk, show p.tail.dimTail + j - p.tail.dimTail = j by omega]
      exact h.fits ⟨j, hj⟩

/-- One vector of coefficients from the two parts. -/
def joinCoef (t : ℕ) (lam b : ℕ → ℝ) : Vec := fun j => if j < t then b j else lam (j - t)

theorem coef_join (p : Par d) (D : List (Pt d × ℝ)) (v lam b : ℕ → ℝ) (h : Coef p D v lam b) :
    Coef p D v (fun i => joinCoef p.tail.dimTail lam b (p.tail.dimTail + i)) (joinCoef p.tail.dimTail lam b) := by
  have h1 : (fun i => joinCoef p.tail.dimTail lam b (p.tail.dimTail + i)) = lam := by
    funext i
    unfold joinCoef
    rw [if_neg (by omega), show p.tail.dimTail + i - p.tail.dimTail = i by omega]
  have h2 : ∀ y, tailPart p (joinCoef p.tail.dimTail lam b) y = tailPart p b y := by
    intro y
    refine Finset.sum_congr rfl fun k hk => ?_
    unfold joinCoef
    rw [if_pos (mem_range.mp hk)]
  rw [h1]
  exact ⟨h.orth, fun i => by rw [h2]; exact h.fits i⟩

/-- Two solutions of a nonsingular system are equal. -/
theorem coef_unique (p : Par d) (X : List (Pt d)) (f : List ℝ) (c c' : Vec) (hdet : sysDet p X ≠ 0)
    (h : Solves p X f c) (h' : Solves p X f c') : ∀ j < p.tail.dimTail + X.length, c j = c' j := by
  by_contra hne
  push Not at hne
  obtain ⟨j, hj, hjne⟩ := hne
  apply hdet
  unfold sysDet
  rw [← Matrix.exists_mulVec_eq_zero_iff]
  refine ⟨fun i => c i - c' i, ?_, ?_⟩
  · intro h0
    have := congrFun h0 ⟨j, hj⟩
    exact hjne (sub_eq_zero.mp this)
  · funext i
    simp only [Matrix.mulVec, dotProduct, Pi.zero_apply, toMatrix, Matrix.of_apply]
    have h1 := h i i.2
    have h2 := h' i i.2
    rw [Finset.sum_range] at h1 h2
    simp only [mul_sub, Finset.sum_sub_distrib, h1, h2, sub_self]

/-- The predictions after a history that can be fitted are given by any coefficients that satisfy the equations for its
data. -/
theorem predict_coef (p : Par d) (hlu : LuSpec p.lu) (hchol : CholSpec p.chol) (ops : List (Op d))
    (hops : NoMultiColumn ops) (hfit : ∃ x, (predict p (rrun p ops) x).2 ≠ none) (lam b : ℕ → ℝ)
    (h : Coef p (dataOf d ops) (fun i => (p.trans ((dataOf d ops).map Prod.snd)).getD i 0) lam b) (x : Pt d) :
    (predict p (rrun p ops) x).2 =
      some (kernelPart p (dataOf d ops) lam (toUnitBox x p.lb p.ub) + tailPart p b (toUnitBox x p.lb p.ub)) := by
  obtain ⟨x₀, hx₀⟩ := hfit
  obtain ⟨hdet, _, c, hc, he⟩ := predict_solves p hlu hchol ops hops x₀ hx₀
  have hc' := (solves_iff p (dataOf d ops) (joinCoef p.tail.dimTail lam b) _).mpr (coef_join p _ _ _ _ h)
  rw [he x, evalAt_unique p _ _ c _ hdet hc hc']
  congr 1
  have := evalAt_eq p (dataOf d ops) (joinCoef p.tail.dimTail lam b) (toUnitBox x p.lb p.ub)
  refine this.trans ?_
  congr 1
  · unfold kernelPart joinCoef
    refine Finset.sum_congr rfl fun i _ => ?_
    beta_reduce
    rw [if_neg (by omega), show p.tail.dimTail + i.1 - p.tail.dimTail = i.1 by omega]
  · refine Finset.sum_congr rfl fun k hk => ?_
    unfold joinCoef
    rw [if_pos (mem_range.mp hk)]

/-- The same for `predict_deriv`. -/
theorem predictDeriv_coef (p : Par d) (hlu : LuSpec p.lu) (hchol : CholSpec p.chol) (ops : List (Op d))
    (hops : NoMultiColumn ops) (hfit : ∃ x, (predict p (rrun p ops) x).2 ≠ none) (lam b : ℕ → ℝ)
    (h : Coef p (dataOf d ops) (fun i => (p.trans ((dataOf d ops).map Prod.snd)).getD i 0) lam b) (x : Pt d) :
    ∃ c : Vec, (∀ j < p.tail.dimTail + (ptsOf p (dataOf d ops)).length, c j = joinCoef p.tail.dimTail lam b j) ∧
      (predictDeriv p (rrun p ops) x).2 =
        some (evalDeriv p (ptsOf p (dataOf d ops)) (ptsOf p (dataOf d ops)).length c x) := by
  obtain ⟨x₀, hx₀⟩ := hfit
  obtain ⟨hg, hh⟩ := rrun_good p hlu hchol ops hops
  obtain ⟨hdet, _⟩ := predict_solves p hlu hchol ops hops x₀ hx₀
  have hc' := (solves_iff p (dataOf d ops) (joinCoef p.tail.dimTail lam b) _).mpr (coef_join p _ _ _ _ h)
  set s := rrun p ops with hs
  obtain ⟨g1, g2, g3, g4, g5, g6, g7, _⟩ := fit_spec p hlu hchol s hg
  have hXu : s.Xu = ptsOf p (dataOf d ops) := hh.Xu
  have hr : (Surrogate.fit p s).raised = false := by
    rcases hb : (Surrogate.fit p s).raised with _ | _
    · rfl
    · exfalso; apply hx₀; unfold predict; simp [hb]
  obtain ⟨F, hF, hk, _, hsol⟩ := g1.upd (g7 hr)
  rw [g3, g4, hh.fX, hXu] at hsol
  refine ⟨F.c, coef_unique p _ _ _ _ hdet hsol hc', ?_⟩
  unfold predictDeriv
  simp only [hr, hF, g3, g5, hg.num, hXu]
  simp

/-- There are such coefficients. -/
theorem exists_coef (p : Par d) (hlu : LuSpec p.lu) (hchol : CholSpec p.chol) (ops : List (Op d))
    (hops : NoMultiColumn ops) (hfit : ∃ x, (predict p (rrun p ops) x).2 ≠ none) :
    ∃ lam b, Coef p (dataOf d ops) (fun i => (p.trans ((dataOf d ops).map Prod.snd)).getD i 0) lam b := by
  obtain ⟨x₀, hx₀⟩ := hfit
  obtain ⟨_, _, c, hc, _⟩ := predict_solves p hlu hchol ops hops x₀ hx₀
  exact ⟨_, _, (solves_iff p (dataOf d ops) c _).mp hc⟩

/-- If one prediction is given, all are. -/
theorem predict_all (p : Par d) (hlu : LuSpec p.lu) (hchol : CholSpec p.chol) (ops : List (Op d))
    (hops : NoMultiColumn ops) (x y : Pt d) (h : (predict p (rrun p ops) x).2 ≠ none) :
    (predict p (rrun p ops) y).2 ≠ none := by
  intro hn
  exact h ((C48_solves p hlu hchol ops hops x).1.mpr ((C48_solves p hlu hchol ops hops y).1.mp hn))

/-- Without an earlier failed fit, a fit is impossible exactly if the equations with zero values have a nonzero solution. -/
theorem predict_none_coef (p : Par d) (hlu : LuSpec p.lu) (hchol : CholSpec p.chol) (ops : List (Op d))
    (hops : NoMultiColumn ops) (hff : ¬ FailedFit p ops) (x : Pt d) :
    (predict p (rrun p ops) x).2 = none ↔ ∃ lam b, Coef p (dataOf d ops) (fun _ => 0) lam b ∧
      ((∃ i < (dataOf d ops).length, lam i ≠ 0) ∨ ∃ k < p.tail.dimTail, b k ≠ 0) := by
  rw [(C48_solves p hlu hchol ops hops x).1, or_iff_left hff]
  change sysDet p (ptsOf p (dataOf d ops)) = 0 ↔ _
  have hl : (ptsOf p (dataOf d ops)).length = (dataOf d ops).length := by simp [ptsOf]
  unfold sysDet
  rw [← Matrix.exists_mulVec_eq_zero_iff]
  constructor
  · rintro ⟨c, hne, hc⟩
    set c' : Vec := fun j => if h : j < p.tail.dimTail + (ptsOf p (dataOf d ops)).length then c ⟨j, h⟩ else 0 with hc'
    have hrow : ∀ i < p.tail.dimTail + (ptsOf p (dataOf d ops)).length,
        ∑ j ∈ range (p.tail.dimTail + (ptsOf p (dataOf d ops)).length), sysMat p (ptsOf p (dataOf d ops)) i j * c' j = 0 := by
      intro i hi
      have := congrFun hc ⟨i, hi⟩
      simp only [Matrix.mulVec, dotProduct, Pi.zero_apply, toMatrix, Matrix.of_apply] at this
      rw [Finset.sum_range, ← this]
      refine Finset.sum_congr rfl fun j _ => ?_
      simp [hc']
    refine ⟨fun i => c' (p.tail.dimTail + i), c', ⟨fun k hk => ?_, fun i => ?_⟩, ?_⟩
    · rw [← sysMat_tail_row p _ c' k hk]
      exact hrow k (by omega)
    · rw [← sysMat_data_row p _ c' i]
      exact hrow _ (by have := i.2; omega)
    · obtain ⟨j, hj⟩ := Function.ne_iff.mp hne
      have hj' : c' j ≠ 0 := by simpa [hc'] using hj
      by_cases hjt : j.1 < p.tail.dimTail
      · exact .inr ⟨j, hjt, hj'⟩
      · refine .inl ⟨j - p.tail.dimTail, by have := j.2; omega, ?_⟩
        beta_reduce
        rw [show p.tail.dimTail + (j.1 - p.tail.dimTail) = j.1 by omega]
        exact hj'
  · rintro ⟨lam, b, h, hne⟩
    have h' := coef_join p _ _ _ _ h
    refine ⟨fun j => joinCoef p.tail.dimTail lam b j, ?_, ?_⟩
    · rcases hne with ⟨i, hi, hne⟩ | ⟨k, hk, hne⟩
      · intro h0
        have := congrFun h0 ⟨p.tail.dimTail + i, by omega⟩
        simp only [joinCoef, Pi.zero_apply] at this
        rw [if_neg (by omega), show p.tail.dimTail + i - p.tail.dimTail = i by omega] at this
        exact hne this
      · intro h0
        have := congrFun h0 ⟨k, by omega⟩
        simp only [joinCoef, Pi.zero_apply] at this
        rw [if_pos hk] at this
        exact hne this
    · funext i
      simp only [Matrix.mulVec, dotProduct, Pi.zero_apply, toMatrix, Matrix.of_apply]
      rw [← Finset.sum_range (fun j => sysMat p (ptsOf p (dataOf d ops)) i j * joinCoef p.tail.dimTail lam b j)]
      by_cases hk : i.1 < p.tail.dimTail
      · rw [sysMat_tail_row p _ _ i hk]
        exact h'.orth i hk
      · have hj : i.1 - p.tail.dimTail < (dataOf d ops).length := by have := i.2; omega
        have := sysMat_data_row p (dataOf d ops) (joinCoef p.tail.dimTail lam b) ⟨i.1 - p.tail.dimTail, hj⟩
        simp only at this
        rw [show p.tail.dimTail + (i.1 - p.tail.dimTail) = i.1 by omega] at this
        rw [this]
        have := h'.fits ⟨i.1 - p.tail.dimTail, hj⟩
        simp only at this
        rw [show p.tail.dimTail + (i.1 - p.tail.dimTail) = i.1 by omega] at this
        exact this

/-! ## Linear combinations and rearrangements of coefficients -/

theorem kernelPart_comb (p : Par d) (D : List (Pt d × ℝ)) (α β : ℝ) (l₁ l₂ : ℕ → ℝ) (y : Pt d) :
    kernelPart p D (fun i => α * l₁ i + β * l₂ i) y = α * kernelPart p D l₁ y + β * kernelPart p D l₂ y := by
  unfold kernelPart
  rw [Finset.mul_sum, Finset.mul_sum, ← Finset.sum_add_distrib]
  exact Finset.sum_congr rfl fun i _ => by ring

theorem tailPart_comb (p : Par d) (α β : ℝ) (b₁ b₂ : ℕ → ℝ) (y : Pt d) :
    tailPart p (fun i => α * b₁ i + β * b₂ i) y = α * tailPart p b₁ y + β * tailPart p b₂ y := by
  unfold tailPart
  rw [Finset.mul_sum, Finset.mul_sum, ← Finset.sum_add_distrib]
  exact Finset.sum_congr rfl fun i _ => by ring

theorem Coef.comb {p : Par d} {D : List (Pt d × ℝ)} {v₁ v₂ l₁ l₂ b₁ b₂ : ℕ → ℝ} (α β : ℝ) (h₁ : Coef p D v₁ l₁ b₁)
    (h₂ : Coef p D v₂ l₂ b₂) :
    Coef p D (fun i => α * v₁ i + β * v₂ i) (fun i => α * l₁ i + β * l₂ i) (fun k => α * b₁ k + β * b₂ k) := by
  refine ⟨fun k hk => ?_, fun i => ?_⟩
  · have e : ∑ i : Fin D.length, (α * l₁ i + β * l₂ i) * p.tail.eval (toUnitBox D[i].1 p.lb p.ub) k =
        α * ∑ i : Fin D.length, l₁ i * p.tail.eval (toUnitBox D[i].1 p.lb p.ub) k +
        β * ∑ i : Fin D.length, l₂ i * p.tail.eval (toUnitBox D[i].1 p.lb p.ub) k := by
      rw [Finset.mul_sum, Finset.mul_sum, ← Finset.sum_add_distrib]
      exact Finset.sum_congr rfl fun i _ => by ring
    rw [e, h₁.orth k hk, h₂.orth k hk]
    ring
  · rw [kernelPart_comb, tailPart_comb, ← h₁.fits i, ← h₂.fits i]
    ring

/-- The coefficients depend on the points only (and the values `v`): data lists with the same points. -/
theorem Coef.congr {p : Par d} {D D' : List (Pt d × ℝ)} {v lam b : ℕ → ℝ} (h : Coef p D v lam b)
    (he : D.map Prod.fst = D'.map Prod.fst) : Coef p D' v lam b ∧ ∀ y, kernelPart p D' lam y = kernelPart p D lam y := by
  have hlen : D.length = D'.length := by simpa using congrArg List.length he
  have hget : ∀ i : Fin D.length, D[i].1 = (D'[i.1]'(by have := i.2; omega)).1 := by
    intro i
    have h1 : D[i].1 = (D.map Prod.fst)[i.1]'(by simp) := by simp
    rw [h1]
    simp only [he]
    simp
  have hk : ∀ y, kernelPart p D' lam y = kernelPart p D lam y := by
    intro y
    unfold kernelPart
    rw [← (finCongr hlen).sum_comp]
    refine Finset.sum_congr rfl fun i _ => ?_
    rw [hget i]
    rfl
  refine ⟨⟨fun k hkt => ?_, fun i => ?_⟩, hk⟩
  · rw [← h.orth k hkt, ← (finCongr hlen).sum_comp]
    refine Finset.sum_congr rfl fun i _ => ?_
    rw [hget i]
    rfl
  · rw [hk]
    have := h.fits (Fin.cast hlen.symm i)
    rw [hget] at this
    exact this

/-- A rearrangement of a list comes from a bijection of the positions. -/
theorem perm_equiv {α : Type} {l l' : List α} (h : l.Perm l') :
    ∃ σ : Fin l.length ≃ Fin l'.length, ∀ i, l[i] = l'[σ i] := by
  induction h with
  | nil => exact ⟨Equiv.refl _, fun i => rfl⟩
  | @cons x l l' _ ih =>
    obtain ⟨σ, hσ⟩ := ih
    refine ⟨(finSuccEquiv l.length).trans ((Equiv.optionCongr σ).trans (finSuccEquiv l'.length).symm), fun i => ?_⟩
    refine Fin.cases ?_ (fun j => ?_) i
    · rfl
    · have h1 : ((finSuccEquiv l.length).trans ((Equiv.optionCongr σ).trans (finSuccEquiv l'.length).symm)) j.succ =
          (σ j).succ := by simp
      rw [Fin.getElem_fin, Fin.getElem_fin]
      have h2 : ((finSuccEquiv l.length).trans ((Equiv.optionCongr σ).trans (finSuccEquiv l'.length).symm)
          (j.succ : Fin (l.length + 1))).1 = (σ j).1 + 1 := by rw [h1]; rfl
      have h3 := hσ j
      rw [Fin.getElem_fin, Fin.getElem_fin] at h3
      simp only [Fin.val_succ, List.getElem_cons_succ]
      rw [h3]
      symm
      simp only [List.length_cons]
      have : (x :: l')[(σ j).1 + 1]'(by simp) = l'[(σ j).1] := rfl
      rw [← this]
      congr 1
  | swap x y l =>
    refine ⟨Equiv.swap ⟨0, by simp⟩ ⟨1, by simp⟩, fun i => ?_⟩
    rcases i with ⟨_ | _ | n, hn⟩
    · have : Equiv.swap (⟨0, by simp⟩ : Fin (x :: y :: l).length) ⟨1, by simp⟩ ⟨0, hn⟩ = ⟨1, by simp⟩ := Equiv.swap_apply_left _ _
      exact congrArg (List.get (x :: y :: l)) this.symm
    · have : Equiv.swap (⟨0, by simp⟩ : Fin (x :: y :: l).length) ⟨1, by simp⟩ ⟨1, hn⟩ = ⟨0, by simp⟩ := Equiv.swap_apply_right _ _
      exact congrArg (List.get (x :: y :: l)) this.symm
    · have : Equiv.swap (⟨0, by simp⟩ : Fin (x :: y :: l).length) ⟨1, by simp⟩ ⟨n + 2, hn⟩ = ⟨n + 2, hn⟩ :=
        Equiv.swap_apply_of_ne_of_ne (by simp [Fin.ext_iff]) (by simp [Fin.ext_iff])
      exact congrArg (List.get (x :: y :: l)) this.symm
  | trans _ _ ih₁ ih₂ =>
    obtain ⟨σ, hσ⟩ := ih₁
    obtain ⟨τ, hτ⟩ := ih₂
    exact ⟨σ.trans τ, fun i => (hσ i).trans (hτ (σ i))⟩

/-- Rearranging the data rearranges the coefficients. -/
theorem Coef.perm {p : Par d} {D D' : List (Pt d × ℝ)} {v v' lam b : ℕ → ℝ} (σ : Fin D'.length ≃ Fin D.length)
    (hσ : ∀ i, D'[i] = D[σ i]) (hv : ∀ i, v' i.1 = v (σ i)) (h : Coef p D v lam b) :
    Coef p D' v' (fun i => if hi : i < D'.length then lam (σ ⟨i, hi⟩) else 0) b ∧
      ∀ y, kernelPart p D' (fun i => if hi : i < D'.length then lam (σ ⟨i, hi⟩) else 0) y = kernelPart p D lam y := by
  have hk : ∀ y, kernelPart p D' (fun i => if hi : i < D'.length then lam (σ ⟨i, hi⟩) else 0) y = kernelPart p D lam y := by
    intro y
    unfold kernelPart
    rw [← σ.sum_comp]
    refine Finset.sum_congr rfl fun i _ => ?_
    simp only [Fin.is_lt, dite_true, Fin.eta]
    rw [hσ i]
  refine ⟨⟨fun k hkt => ?_, fun i => ?_⟩, hk⟩
  · rw [← h.orth k hkt, ← σ.sum_comp]
    refine Finset.sum_congr rfl fun i _ => ?_
    simp only [Fin.is_lt, dite_true, Fin.eta]
    rw [hσ i]
  · rw [hk, hv i, ← h.fits (σ i)]
    simp only [Fin.is_lt, dite_true, Fin.eta]
    rw [hσ i]

end Verif.Surrogate
