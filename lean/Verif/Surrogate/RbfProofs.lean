import Verif.Surrogate.LinAlg
import Mathlib.LinearAlgebra.FiniteDimensional.Lemmas

/-! # The fitting state of the RBF interpolant -/

namespace Verif.Surrogate

open Verif.Num Verif.Utils Finset

variable {d : ℕ}

theorem FacOk.congr {N : ℕ} {A A' L U : Mat} {piv : ℕ → ℕ} (h : FacOk N A L U piv)
    (he : ∀ i < N, ∀ j < N, A i j = A' i j) : FacOk N A' L U piv :=
  ⟨h.lower, h.upper, h.ldiag, h.lt, h.surj, fun i hi j hj => by rw [← he _ (h.lt i hi) _ hj]; exact h.prod i hi j hj⟩

theorem toMatrix_congr {N : ℕ} {A A' : Mat} (he : ∀ i < N, ∀ j < N, A i j = A' i j) : toMatrix N A = toMatrix N A' := by
  ext i j; exact he i i.2 j j.2

theorem sysMat_sym (p : Par d) (X : List (Pt d)) (i j : ℕ) : sysMat p X i j = sysMat p X j i := by
  unfold sysMat
  simp only
  by_cases hi : i < p.tail.dimTail <;> by_cases hj : j < p.tail.dimTail <;> simp only [hi, hj, if_true, if_false]
  rw [eucl_comm]
  by_cases hij : i = j
  · subst hij; rfl
  · rw [if_neg hij, if_neg (Ne.symm hij)]

/-- The entries of the leading part only depend on the points of the leading part. -/
theorem sysMat_append (p : Par d) (X Y : List (Pt d)) (i j : ℕ) (hi : i < p.tail.dimTail + X.length)
    (hj : j < p.tail.dimTail + X.length) : sysMat p (X ++ Y) i j = sysMat p X i j := by
  have hg : ∀ a, p.tail.dimTail ≤ a → a < p.tail.dimTail + X.length →
      (X ++ Y).getD (a - p.tail.dimTail) 0 = X.getD (a - p.tail.dimTail) 0 := by
    intro a h1 h2
    simp [List.getElem?_append_left (show a - p.tail.dimTail < X.length by omega)]
  unfold sysMat
  simp only
  by_cases h1 : i < p.tail.dimTail <;> by_cases h2 : j < p.tail.dimTail <;> simp only [h1, h2, if_true, if_false]
  · rw [hg j (by omega) hj]
  · rw [hg i (by omega) hi]
  · rw [hg i (by omega) hi, hg j (by omega) hj]

theorem sysMat_take (p : Par d) (X : List (Pt d)) (k : ℕ) (hk : k ≤ X.length) (i j : ℕ) (hi : i < p.tail.dimTail + k)
    (hj : j < p.tail.dimTail + k) : sysMat p X i j = sysMat p (X.take k) i j := by
  have hl : (X.take k).length = k := by rw [List.length_take]; omega
  conv_lhs => rw [← List.take_append_drop k X]
  exact sysMat_append p _ _ i j (by omega) (by omega)

/-- The right-hand side as in the code. -/
def rhsOf (p : Par d) (f : List ℝ) : Vec := rhsVec p.tail.dimTail (p.trans f)

/-- `c` solves the fitting equations for the points `X` with values `f`. -/
def Solves (p : Par d) (X : List (Pt d)) (f : List ℝ) (c : Vec) : Prop :=
  ∀ i < p.tail.dimTail + X.length, ∑ j ∈ range (p.tail.dimTail + X.length), sysMat p X i j * c j = rhsOf p f i

/-- The system matrix of `n` points. -/
noncomputable def sysDet (p : Par d) (X : List (Pt d)) : ℝ := (toMatrix (p.tail.dimTail + X.length) (sysMat p X)).det

/-- A nonsingular system has at least `ntail` points. -/
theorem dimTail_le (p : Par d) (X : List (Pt d)) (h : sysDet p X ≠ 0) : p.tail.dimTail ≤ X.length := by
  by_contra hn
  set t := p.tail.dimTail with ht
  -- a nonzero vector supported on the tail columns that is orthogonal to all rows
  let P : Matrix (Fin X.length) (Fin t) ℝ := Matrix.of fun i k => p.tail.eval (X.getD i 0) k
  have hker : LinearMap.ker P.mulVecLin ≠ ⊥ := by
    apply LinearMap.ker_ne_bot_of_finrank_lt
    simp only [Module.finrank_fintype_fun_eq_card, Fintype.card_fin]
    omega
  obtain ⟨w, hw, hw0⟩ := (Submodule.ne_bot_iff _).mp hker
  apply h
  unfold sysDet
  rw [← Matrix.exists_mulVec_eq_zero_iff]
  refine ⟨fun i => if hi : i.1 < t then w ⟨i, hi⟩ else 0, ?_, ?_⟩
  · obtain ⟨k, hk⟩ := Function.ne_iff.mp hw0
    intro h0
    have hk2 := k.2
    have := congrFun h0 ⟨k, by omega⟩
    simp only [Fin.is_lt, dif_pos, Pi.zero_apply] at this
    exact hk this
  · funext i
    simp only [Matrix.mulVec, dotProduct, Pi.zero_apply, toMatrix, Matrix.of_apply]
    have hsum : ∀ i : Fin (t + X.length), ∑ j : Fin (t + X.length), sysMat p X i j * (if hj : j.1 < t then w ⟨j, hj⟩ else 0) =
        ∑ j : Fin t, sysMat p X i j * w j := by
      intro i
      rw [Fin.sum_univ_add]
      simp
    rw [hsum]
    by_cases hi : i.1 < t
    · apply Finset.sum_eq_zero
      intro j _
      unfold sysMat
      simp only
      rw [if_pos hi, if_pos j.2, zero_mul]
    · have := congrFun (LinearMap.mem_ker.mp hw) ⟨i - t, by have := i.2; omega⟩
      simp only [Matrix.mulVecLin_apply, Matrix.mulVec, dotProduct, P, Matrix.of_apply, Pi.zero_apply] at this
      rw [← this]
      refine Finset.sum_congr rfl fun j _ => ?_
      unfold sysMat
      simp only
      rw [if_neg hi, if_pos j.2]

/-- What is stored of a fit has a zero on the diagonal of `U`: the fit of the first `k` points failed. -/
def Bad (p : Par d) (m : Option Fac) : Prop := ∃ F, m = some F ∧ zeroDiag (p.tail.dimTail + F.k) F.U

/-- The stored data agree, and what is stored of a fit is a factorization for the leading points. -/
structure Good (p : Par d) (s : RSt d) : Prop where
  num : s.numPts = s.Xu.length
  fac : ∀ F, s.model = some F → F.n = F.k ∧ p.tail.dimTail ≤ F.k ∧ F.k ≤ s.Xu.length ∧
    FacOk (p.tail.dimTail + F.k) (sysMat p s.Xu) F.L F.U F.piv
  upd : s.updated = true → ∃ F, s.model = some F ∧ F.k = s.Xu.length ∧ ¬ zeroDiag (p.tail.dimTail + F.k) F.U ∧
    Solves p s.Xu s.fX F.c

/-- What a fit for the points of `s` may leave behind. -/
structure FitOk (p : Par d) (s : RSt d) (r : Res (Option Fac)) : Prop where
  fac : ∀ F, r.st = some F → F.n = F.k ∧ p.tail.dimTail ≤ F.k ∧ F.k ≤ s.Xu.length ∧ FacOk (p.tail.dimTail + F.k) (sysMat p s.Xu) F.L F.U F.piv
  solved : r.raised = false → ∃ F, r.st = some F ∧ F.k = s.Xu.length ∧ ¬ zeroDiag (p.tail.dimTail + F.k) F.U ∧
    Solves p s.Xu s.fX F.c

theorem FacOk.zeroDiag_iff {N : ℕ} {A L U : Mat} {piv : ℕ → ℕ} (h : FacOk N A L U piv) :
    zeroDiag N U ↔ (toMatrix N A).det = 0 := by
  rw [← not_iff_not, ← ne_eq (toMatrix N A).det, h.det]
  unfold zeroDiag
  push Not
  rfl

theorem solveCoef_spec (p : Par d) (s : RSt d) (hn : s.numPts = s.Xu.length) (ht : p.tail.dimTail ≤ s.Xu.length)
    (old : Option Fac) (L U : Mat) (piv : ℕ → ℕ)
    (h : FacOk (p.tail.dimTail + s.Xu.length) (sysMat p s.Xu) L U piv) :
    FitOk p s (solveCoef p s old L U piv) ∧
    ((solveCoef p s old L U piv).raised = true ↔ sysDet p s.Xu = 0) ∧
    (Bad p (solveCoef p s old L U piv).st ↔ sysDet p s.Xu = 0) := by
  have h' : FacOk (p.tail.dimTail + s.numPts) (sysMat p s.Xu) L U piv := by rw [hn]; exact h
  have hz : zeroDiag (p.tail.dimTail + s.numPts) U ↔ sysDet p s.Xu = 0 := by rw [hn]; exact h.zeroDiag_iff
  have h1 : ¬ zeroDiag (p.tail.dimTail + s.numPts) L := fun ⟨i, hi, h0⟩ => h'.ldiag i hi h0
  unfold solveCoef
  by_cases h2 : zeroDiag (p.tail.dimTail + s.numPts) U
  · simp only [if_neg h1, if_pos h2]
    refine ⟨⟨fun F hF => ?_, by simp⟩, by simp [← hz, h2], by simp [← hz, h2, Bad]⟩
    simp only [Option.some.injEq] at hF
    subst hF
    exact ⟨rfl, by simp only [hn]; exact ht, hn.le, h'⟩
  · simp only [if_neg h1, if_neg h2]
    have hu : ∀ i < p.tail.dimTail + s.numPts, U i i ≠ 0 := fun i hi h0 => h2 ⟨i, hi, h0⟩
    refine ⟨⟨fun F hF => ?_, fun _ => ⟨_, rfl, hn, h2, ?_⟩⟩, by simp [← hz, h2], by simp [← hz, h2, Bad]⟩
    · simp only [Option.some.injEq] at hF
      subst hF
      exact ⟨rfl, by simp only [hn]; exact ht, hn.le, h'⟩
    · have := h'.solve hu (rhsOf p s.fX)
      simp only [hn] at this
      simp only [hn]
      exact this

theorem fitInit_spec (p : Par d) (hlu : LuSpec p.lu) (s : RSt d) (hn : s.numPts = s.Xu.length) :
    FitOk p s (fitInit p s) ∧ ((fitInit p s).raised = true ↔ sysDet p s.Xu = 0) ∧
    (Bad p (fitInit p s).st ↔ p.tail.dimTail ≤ s.Xu.length ∧ sysDet p s.Xu = 0) := by
  unfold fitInit
  by_cases h : s.numPts ≥ p.tail.dimTail
  · rw [if_pos h]
    have hl : p.tail.dimTail ≤ s.Xu.length := by omega
    simp only [hn, hl, true_and]
    exact solveCoef_spec p s hn hl _ _ _ _ (lu_facOk hlu _ _)
  · rw [if_neg h]
    have hdet : sysDet p s.Xu = 0 := by
      by_contra hdet
      have := dimTail_le p s.Xu hdet
      omega
    have hl : ¬ p.tail.dimTail ≤ s.Xu.length := by omega
    exact ⟨⟨by simp, by simp⟩, by simp [hdet], by simp [Bad, hl]⟩

/-- The stored factors only matter in the leading part. -/
theorem FacOk.congrLU {N : ℕ} {A L U L' U' : Mat} {piv piv' : ℕ → ℕ} (h : FacOk N A L U piv)
    (hL : ∀ i < N, ∀ j < N, L' i j = L i j) (hU : ∀ i < N, ∀ j < N, U' i j = U i j) (hp : ∀ i < N, piv' i = piv i) :
    FacOk N A L' U' piv' := by
  refine ⟨fun i hi j hj hij => ?_, fun i hi j hj hij => ?_, fun i hi => ?_, fun i hi => ?_, fun i hi => ?_, fun i hi j hj => ?_⟩
  · rw [hL i hi j hj]; exact h.lower i hi j hj hij
  · rw [hU i hi j hj]; exact h.upper i hi j hj hij
  · rw [hL i hi i hi]; exact h.ldiag i hi
  · rw [hp i hi]; exact h.lt i hi
  · obtain ⟨r, hr, h2⟩ := h.surj i hi
    exact ⟨r, hr, by rw [hp r hr, h2]⟩
  · rw [hp i hi, h.prod i hi j hj]
    refine Finset.sum_congr rfl fun k hk => ?_
    rw [mem_range] at hk
    rw [hL i hi k hk, hU k hk j hj]

/-- The new entries of the system matrix are `Pnew` and `Phinew`. -/
theorem new_entries (p : Par d) (s : RSt d) (F : Fac) (hk : F.k ≤ s.Xu.length) :
    (∀ i < p.tail.dimTail + F.k, ∀ b < s.Xu.length - F.k,
      sysMat p s.Xu i (p.tail.dimTail + F.k + b) = pNew p s.Xu F.k i b) ∧
    ∀ a < s.Xu.length - F.k, ∀ b < s.Xu.length - F.k,
      sysMat p s.Xu (p.tail.dimTail + F.k + a) (p.tail.dimTail + F.k + b) = phiNew p s.Xu F.k a b := by
  constructor
  · intro i hi b hb
    unfold sysMat pNew
    simp only
    by_cases h1 : i < p.tail.dimTail
    · rw [if_pos h1, if_neg (by omega), if_pos h1,
        show p.tail.dimTail + F.k + b - p.tail.dimTail = F.k + b by omega]
    · rw [if_neg h1, if_neg (by omega), if_neg h1, if_neg (by omega),
        show p.tail.dimTail + F.k + b - p.tail.dimTail = F.k + b by omega]
      ring
  · intro a ha b hb
    unfold sysMat phiNew
    simp only
    rw [if_neg (by omega), if_neg (by omega), show p.tail.dimTail + F.k + b - p.tail.dimTail = F.k + b by omega,
      show p.tail.dimTail + F.k + a - p.tail.dimTail = F.k + a by omega]
    by_cases hab : a = b
    · rw [if_pos (by omega), if_pos hab]
    · rw [if_neg (by omega), if_neg hab]

/-- Without new points the system is that of the stored factorization. -/
theorem bad_det (p : Par d) (s : RSt d) (F : Fac) (hk : F.k = s.Xu.length)
    (h : FacOk (p.tail.dimTail + F.k) (sysMat p s.Xu) F.L F.U F.piv) :
    zeroDiag (p.tail.dimTail + F.k) F.U ↔ sysDet p s.Xu = 0 := by
  rw [h.zeroDiag_iff, hk]
  rfl

theorem fitNew_spec (p : Par d) (hlu : LuSpec p.lu) (hchol : CholSpec p.chol) (s : RSt d) (hg : Good p s) :
    FitOk p s (fitNew p s) ∧
    ((fitNew p s).raised = true ↔ sysDet p s.Xu = 0 ∨ Bad p s.model) ∧
    (Bad p (fitNew p s).st ↔ Bad p s.model ∨ (p.tail.dimTail ≤ s.Xu.length ∧ sysDet p s.Xu = 0)) := by
  have hnum := hg.num
  unfold fitNew
  rcases hm : s.model with _ | F
  · obtain ⟨a, b, c⟩ := fitInit_spec p hlu s hg.num
    exact ⟨a, by simp [b, Bad], by rw [c]; simp [Bad]⟩
  · obtain ⟨hnk, htk, hk, hf⟩ := hg.fac F hm
    have hbad : Bad p (some F) ↔ zeroDiag (p.tail.dimTail + F.k) F.U := by simp [Bad]
    have hlz : ¬ zeroDiag (p.tail.dimTail + F.k) F.L := fun ⟨i, hi, h0⟩ => hf.ldiag i hi h0
    simp only
    rw [hbad]
    by_cases hz : zeroDiag (p.tail.dimTail + F.k) F.U
    · -- the stored factorization is that of a failed fit
      have key : ∀ r : Res (Option Fac), FitOk p s r ∧ r.raised = true ∧ Bad p r.st → FitOk p s r ∧
          (r.raised = true ↔ sysDet p s.Xu = 0 ∨ zeroDiag (p.tail.dimTail + F.k) F.U) ∧
          (Bad p r.st ↔ zeroDiag (p.tail.dimTail + F.k) F.U ∨ (p.tail.dimTail ≤ s.Xu.length ∧ sysDet p s.Xu = 0)) :=
        fun r h => ⟨h.1, by simp [h.2.1, hz], by simp [h.2.2, hz]⟩
      apply key
      by_cases hnew : s.numPts - F.k > 0
      · rw [if_pos (.inr ⟨hnew, .inl hz⟩)]
        exact ⟨⟨fun G hG => by
          simp only [Option.some.injEq] at hG
          subst hG; exact ⟨hnk, htk, hk, hf⟩, by simp⟩, rfl, hbad.mpr hz⟩
      · rw [if_neg (by rintro (h | ⟨h, _⟩); exacts [h hnk, hnew h])]
        have hkl : F.k = s.Xu.length := by omega
        have hdet := (bad_det p s F hkl hf).mp hz
        have hlen : p.tail.dimTail + F.k = p.tail.dimTail + s.Xu.length := by omega
        split
        · obtain ⟨a, b, c⟩ := fitInit_spec p hlu s hg.num
          exact ⟨a, b.mpr hdet, c.mpr ⟨by omega, hdet⟩⟩
        · rename_i C hC
          obtain ⟨a, b, c⟩ := solveCoef_spec p s hg.num (by omega) (some F) (extL (p.tail.dimTail + F.k) F.L (l21 F.U (pNew p s.Xu F.k)) C)
            (extU (p.tail.dimTail + F.k) F.U (u12 F.L F.piv (pNew p s.Xu F.k)) C) (extPiv (p.tail.dimTail + F.k) F.piv) (by
              rw [← hkl]
              refine hf.congrLU (fun i hi j hj => ?_) (fun i hi j hj => ?_) fun i hi => ?_
              · simp [extL, hi, hj]
              · simp [extU, hi, hj]
              · simp [extPiv, hi])
          exact ⟨a, b.mpr hdet, c.mpr hdet⟩
    · simp only [hz, or_false, false_or]
      have hu : ∀ i < p.tail.dimTail + F.k, F.U i i ≠ 0 := fun i hi h0 => hz ⟨i, hi, h0⟩
      rw [if_neg (by rintro (h | ⟨_, h | h⟩); exacts [h hnk, hz h, hlz h])]
      split
      · exact fitInit_spec p hlu s hg.num
      · rename_i C hC
        obtain ⟨c1, c2, c3⟩ := hchol _ _ _ hC
        have hm' : s.numPts - F.k = s.Xu.length - F.k := by rw [hg.num]
        rw [hm'] at c1 c2 c3
        obtain ⟨e1, e2⟩ := new_entries p s F hk
        have := ext_facOk (m := s.Xu.length - F.k) hf hu (fun i _ j _ => sysMat_sym p s.Xu i j) (pNew p s.Xu F.k)
          (phiNew p s.Xu F.k) e1 e2 c1 c2 c3
        rw [show p.tail.dimTail + F.k + (s.Xu.length - F.k) = p.tail.dimTail + s.Xu.length by omega] at this
        obtain ⟨a, b, c⟩ := solveCoef_spec p s hg.num (by omega) (some F) _ _ _ this.1
        have hdet : sysDet p s.Xu ≠ 0 := this.1.det.mpr this.2
        exact ⟨a, b, by simp [c, hdet]⟩

/-- After `_fit`: an exception exactly if the system is singular or the last fit had failed, otherwise the coefficients
solve it. -/
theorem fit_spec (p : Par d) (hlu : LuSpec p.lu) (hchol : CholSpec p.chol) (s : RSt d) (hg : Good p s) :
    Good p (fit p s).st ∧ (fit p s).st.X = s.X ∧ (fit p s).st.Xu = s.Xu ∧ (fit p s).st.fX = s.fX ∧
      (fit p s).st.numPts = s.numPts ∧
      ((fit p s).raised = true ↔ sysDet p s.Xu = 0 ∨ Bad p s.model) ∧
      ((fit p s).raised = false → (fit p s).st.updated = true) ∧
      (Bad p (fit p s).st.model ↔ Bad p s.model ∨ (p.tail.dimTail ≤ s.Xu.length ∧ sysDet p s.Xu = 0)) := by
  unfold fit
  by_cases hu : s.updated = true
  · rw [if_pos hu]
    obtain ⟨F, h1, h2, h3, _⟩ := hg.upd hu
    obtain ⟨_, _, _, h4⟩ := hg.fac F h1
    have hdet : sysDet p s.Xu ≠ 0 := mt (bad_det p s F h2 h4).mpr h3
    refine ⟨hg, rfl, rfl, rfl, rfl, ?_, fun _ => hu, ?_⟩
    · simp only [h1, Bad, hdet, Option.some.injEq, exists_eq_left', h3]; simp
    · simp [hdet]
  · rw [if_neg hu]
    obtain ⟨h1, h2, h3⟩ := fitNew_spec p hlu hchol s hg
    refine ⟨⟨hg.num, h1.fac, fun h => h1.solved ?_⟩, rfl, rfl, rfl, rfl, h2, fun h => ?_, h3⟩
    · simpa using h
    · simpa using h

end Verif.Surrogate
