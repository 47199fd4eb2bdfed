import Verif.Surrogate.Exist
import Verif.Surrogate.RbfProofs

/-! # When is the factorization extended? -/

namespace Verif.Surrogate

open Verif.Num Verif.Utils Finset

variable {d : ℕ}

/-- The leading `N × N` part of `S` is symmetric and positive definite. -/
def PosDefOn (N : ℕ) (S : Mat) : Prop :=
  (∀ i < N, ∀ j < N, S i j = S j i) ∧
    ∀ v : Vec, (∃ i < N, v i ≠ 0) → 0 < ∑ i ∈ range N, ∑ j ∈ range N, v i * S i j * v j

/-- Contract of `scipy.linalg.cholesky` (LAPACK `potrf`), second half: it succeeds for a positive definite matrix.
(Used at rbf.py:150.) -/
def CholComplete (chol : ℕ → Mat → Option Mat) : Prop := ∀ N S, PosDefOn N S → chol N S ≠ none

/-! ## Positive definite matrices have a Cholesky factor -/

theorem exists_chol (N : ℕ) (S : Mat) (h : PosDefOn N S) : ∃ C : Mat, (∀ i < N, 0 < C i i) ∧
    (∀ i < N, ∀ j < N, i < j → C i j = 0) ∧ ∀ i < N, ∀ j < N, S i j = ∑ k ∈ range N, C i k * C j k := by
  induction N with
  | zero => exact ⟨fun _ _ => 0, by simp, by simp, by simp⟩
  | succ N ih =>
    obtain ⟨hs, hp⟩ := h
    have hN : PosDefOn N S := by
      refine ⟨fun i hi j hj => hs i (by omega) j (by omega), fun v hv => ?_⟩
      have := hp (fun i => if i < N then v i else 0) (by
        obtain ⟨i, hi, h0⟩ := hv
        exact ⟨i, by omega, by simp only [if_pos hi]; exact h0⟩)
      rw [Finset.sum_range_succ] at this
      simp only [lt_irrefl, if_false, zero_mul, Finset.sum_const_zero, add_zero] at this
      convert this using 1
      refine Finset.sum_congr rfl fun i hi => ?_
      rw [Finset.sum_range_succ]
      simp only [lt_irrefl, if_false, mul_zero, add_zero]
      refine Finset.sum_congr rfl fun j hj => ?_
      rw [if_pos (mem_range.mp hi), if_pos (mem_range.mp hj)]
    obtain ⟨C, c1, c2, c3⟩ := ih hN
    have c1' : ∀ i < N, C i i ≠ 0 := fun i hi => (c1 i hi).ne'
    let w : Vec := fwd C fun i => S i N
    have hw : ∀ i < N, ∑ k ∈ range N, C i k * w k = S i N := fun i hi => fwd_solves _ c1' c2 i hi
    let z : Vec := bwd N (fun i j => C j i) w
    have hz : ∀ k < N, ∑ j ∈ range N, C j k * z j = w k := fun k hk =>
      bwd_solves (T := fun i j => C j i) w c1' (fun i hi j hj hij => c2 j hj i hi hij) k hk
    -- the Schur complement of the last entry
    have hSz : ∀ i < N, ∑ j ∈ range N, S i j * z j = S i N := by
      intro i hi
      rw [← hw i hi]
      have : ∀ j ∈ range N, S i j * z j = ∑ k ∈ range N, C i k * (C j k * z j) := by
        intro j hj
        rw [c3 i hi j (mem_range.mp hj), Finset.sum_mul]
        exact Finset.sum_congr rfl fun k _ => by ring
      rw [Finset.sum_congr rfl this, Finset.sum_comm]
      refine Finset.sum_congr rfl fun k hk => ?_
      rw [← Finset.mul_sum, hz k (mem_range.mp hk)]
    have hwz : ∑ j ∈ range N, z j * S j N = ∑ k ∈ range N, w k ^ 2 := by
      have : ∀ j ∈ range N, z j * S j N = ∑ k ∈ range N, (C j k * z j) * w k := by
        intro j hj
        rw [← hw j (mem_range.mp hj), Finset.mul_sum]
        exact Finset.sum_congr rfl fun k _ => by ring
      rw [Finset.sum_congr rfl this, Finset.sum_comm]
      refine Finset.sum_congr rfl fun k hk => ?_
      rw [← Finset.sum_mul, hz k (mem_range.mp hk)]
      ring
    have hpos : 0 < S N N - ∑ k ∈ range N, w k ^ 2 := by
      have := hp (fun i => if i < N then z i else -1) ⟨N, by omega, by simp⟩
      rw [Finset.sum_range_succ] at this
      have e1 : ∀ i ∈ range N, ∑ j ∈ range (N + 1), (if i < N then z i else -1) * S i j * (if j < N then z j else -1) = 0 := by
        intro i hi
        rw [Finset.sum_range_succ]
        simp only [lt_irrefl, if_false]
        have : ∀ j ∈ range N, (if i < N then z i else -1) * S i j * (if j < N then z j else -1) = z i * (S i j * z j) := by
          intro j hj
          rw [if_pos (mem_range.mp hi), if_pos (mem_range.mp hj)]
          ring
        rw [Finset.sum_congr rfl this, ← Finset.mul_sum, hSz i (mem_range.mp hi), if_pos (mem_range.mp hi)]
        ring
      rw [Finset.sum_eq_zero e1, zero_add, Finset.sum_range_succ] at this
      have e2 : ∀ j ∈ range N, (if N < N then z N else -1) * S N j * (if j < N then z j else -1) = -(z j * S j N) := by
        intro j hj
        have hj' := mem_range.mp hj
        rw [if_neg (lt_irrefl _), if_pos hj', hs N (by omega) j (by omega)]
        ring
      rw [Finset.sum_congr rfl e2, Finset.sum_neg_distrib, hwz, if_neg (lt_irrefl _)] at this
      linarith
    let r : ℝ := Real.sqrt (S N N - ∑ k ∈ range N, w k ^ 2)
    have hr : 0 < r := Real.sqrt_pos.mpr hpos
    have hr2 : r * r = S N N - ∑ k ∈ range N, w k ^ 2 := Real.mul_self_sqrt hpos.le
    refine ⟨fun i j => if i < N then (if j < N then C i j else 0) else if j < N then w j else r, ?_, ?_, ?_⟩
    · intro i hi
      by_cases h1 : i < N
      · simp only [if_pos h1]; exact c1 i h1
      · simp only [if_neg h1]; exact hr
    · intro i hi j hj hij
      have h1 : i < N := by omega
      simp only [if_pos h1]
      by_cases h2 : j < N
      · rw [if_pos h2]; exact c2 i h1 j h2 hij
      · rw [if_neg h2]
    · intro i hi j hj
      rw [Finset.sum_range_succ]
      simp only [lt_irrefl, if_false]
      by_cases h1 : i < N
      · by_cases h2 : j < N
        · simp only [if_pos h1, if_pos h2, mul_zero, add_zero]
          rw [c3 i h1 j h2]
          refine Finset.sum_congr rfl fun k hk => ?_
          rw [if_pos (mem_range.mp hk), if_pos (mem_range.mp hk)]
        · have : j = N := by omega
          subst this
          simp only [if_pos h1, lt_irrefl, if_false, zero_mul, add_zero]
          rw [← hw i h1]
          refine Finset.sum_congr rfl fun k hk => ?_
          rw [if_pos (mem_range.mp hk), if_pos (mem_range.mp hk)]
      · have hi' : i = N := by omega
        subst hi'
        by_cases h2 : j < i
        · simp only [lt_irrefl, if_false, if_pos h2, mul_zero, add_zero]
          rw [hs i (by omega) j hj, ← hw j h2]
          refine Finset.sum_congr rfl fun k hk => ?_
          rw [if_pos (mem_range.mp hk), if_pos (mem_range.mp hk)]
          ring
        · have : j = i := by omega
          subst this
          simp only [lt_irrefl, if_false]
          rw [hr2]
          have : ∀ k ∈ range j, (if k < j then w k else r) * (if k < j then w k else r) = w k ^ 2 := by
            intro k hk
            rw [if_pos (mem_range.mp hk)]; ring
          rw [Finset.sum_congr rfl this]
          ring

/-- There is a library that meets all contracts. -/
theorem exists_library_complete : ∃ (lu : ℕ → Mat → LuOut) (chol : ℕ → Mat → Option Mat), LuSpec lu ∧ CholSpec chol ∧
    CholComplete chol := by
  obtain ⟨lu, chol, h1, h2, h3⟩ := exists_library
  refine ⟨lu, chol, h1, h2, fun N S hS => ?_⟩
  obtain ⟨C, c1, c2, c3⟩ := exists_chol N S hS
  exact h3 N S C c1 c2 fun i hi j hj => c3 i hi j (by omega)

/-! ## The quadratic form of the Schur complement -/

theorem schur_form {K m : ℕ} {A L U : Mat} {piv : ℕ → ℕ} (h : FacOk K A L U piv) (hu : ∀ i < K, U i i ≠ 0)
    (hA : ∀ i < K + m, ∀ j < K + m, A i j = A j i) (B Phi : Mat) (hB : ∀ i < K, ∀ b < m, A i (K + b) = B i b)
    (hPhi : ∀ a < m, ∀ b < m, A (K + a) (K + b) = Phi a b) (v : Vec) :
    ∃ y : Vec, (∀ a, y (K + a) = v a) ∧ (∀ i < K, ∑ j ∈ range (K + m), A i j * y j = 0) ∧
      ∑ a ∈ range m, ∑ b ∈ range m, v a * schur K Phi (l21 U B) (u12 L piv B) a b * v b =
        ∑ i ∈ range (K + m), y i * ∑ j ∈ range (K + m), A i j * y j := by
  let z : ℕ → Vec := fun b => bwd K U (fun m => u12 L piv B m b)
  have hz : ∀ b, ∀ m < K, ∑ j ∈ range K, U m j * z b j = u12 L piv B m b := fun b m hm => bwd_solves _ hu h.upper m hm
  have hAz : ∀ b, ∀ i < K, ∑ j ∈ range K, A i j * z b j = B i b := by
    intro b i hi
    obtain ⟨r, hr, rfl⟩ := h.surj i hi
    rw [h.mulVec _ r hr, ← u12_spec h B b r hr]
    exact Finset.sum_congr rfl fun k hk => by rw [hz b k (mem_range.mp hk)]
  have hW : ∀ a b, ∑ m ∈ range K, l21 U B a m * u12 L piv B m b = ∑ j ∈ range K, B j a * z b j := by
    intro a b
    have h1 : ∑ m ∈ range K, l21 U B a m * u12 L piv B m b = ∑ j ∈ range K, (∑ m ∈ range K, l21 U B a m * U m j) * z b j := by
      simp only [Finset.sum_mul]
      rw [Finset.sum_comm]
      refine Finset.sum_congr rfl fun m hm => ?_
      rw [← hz b m (mem_range.mp hm), Finset.mul_sum]
      exact Finset.sum_congr rfl fun j _ => by ring
    rw [h1]
    exact Finset.sum_congr rfl fun j hj => by rw [l21_spec h hu B a j (mem_range.mp hj)]
  let y : Vec := fun j => if j < K then -∑ b ∈ range m, z b j * v b else v (j - K)
  have hyK : ∀ a, y (K + a) = v a := by
    intro a; simp only [y]; rw [if_neg (by omega)]; congr 1; omega
  have hyl : ∀ j < K, y j = -∑ b ∈ range m, z b j * v b := fun j hj => by simp only [y]; rw [if_pos hj]
  have hsplit : ∀ i, ∑ j ∈ range (K + m), A i j * y j =
      (∑ b ∈ range m, A i (K + b) * v b) - ∑ b ∈ range m, (∑ j ∈ range K, A i j * z b j) * v b := by
    intro i
    rw [Finset.sum_range_add]
    have e1 : ∑ j ∈ range K, A i j * y j = -∑ b ∈ range m, (∑ j ∈ range K, A i j * z b j) * v b := by
      simp only [Finset.sum_mul]
      rw [Finset.sum_comm, ← Finset.sum_neg_distrib]
      refine Finset.sum_congr rfl fun j hj => ?_
      rw [hyl j (mem_range.mp hj), mul_neg, Finset.mul_sum]
      congr 1
      exact Finset.sum_congr rfl fun b _ => by ring
    simp only [hyK]
    rw [e1]; ring
  have hfirst : ∀ i < K, ∑ j ∈ range (K + m), A i j * y j = 0 := by
    intro i hi
    rw [hsplit, ← Finset.sum_sub_distrib]
    refine Finset.sum_eq_zero fun b hb => ?_
    rw [hAz b i hi, hB i hi b (mem_range.mp hb)]
    ring
  refine ⟨y, hyK, hfirst, ?_⟩
  have hz0 : ∑ i ∈ range K, y i * ∑ j ∈ range (K + m), A i j * y j = 0 :=
    Finset.sum_eq_zero fun i hi => by rw [hfirst i (mem_range.mp hi), mul_zero]
  rw [Finset.sum_range_add _ K m, hz0, zero_add]
  refine Finset.sum_congr rfl fun a ha => ?_
  rw [mem_range] at ha
  rw [hyK, hsplit, ← Finset.sum_sub_distrib, Finset.mul_sum]
  refine Finset.sum_congr rfl fun b hb => ?_
  rw [mem_range] at hb
  have e : ∑ j ∈ range K, A (K + a) j * z b j = ∑ j ∈ range K, B j a * z b j := by
    refine Finset.sum_congr rfl fun j hj => ?_
    rw [mem_range] at hj
    rw [hA (K + a) (by omega) j (by omega), hB j hj a ha]
  unfold schur
  rw [hPhi a ha b hb, hW, e]
  ring

/-- The form of the system matrix on vectors that satisfy the tail equations. -/
theorem sysMat_form (p : Par d) (X : List (Pt d)) (y : Vec)
    (hy : ∀ i < p.tail.dimTail, ∑ j ∈ range (p.tail.dimTail + X.length), sysMat p X i j * y j = 0) :
    (∀ k < p.tail.dimTail, ∑ i : Fin X.length, y (p.tail.dimTail + i) * p.tail.eval (X.get i) k = 0) ∧
    ∑ i ∈ range (p.tail.dimTail + X.length), y i * ∑ j ∈ range (p.tail.dimTail + X.length), sysMat p X i j * y j =
      ∑ i : Fin X.length, ∑ j : Fin X.length, y (p.tail.dimTail + i) * y (p.tail.dimTail + j) *
        p.kernel.eval (eucl (X.get i) (X.get j)) + p.eta * ∑ i : Fin X.length, y (p.tail.dimTail + i) ^ 2 := by
  set t := p.tail.dimTail with ht
  have htail : ∀ k < t, ∑ i : Fin X.length, y (t + i) * p.tail.eval (X.get i) k = 0 := by
    intro k hk
    have := hy k hk
    rw [Finset.sum_range_add, Finset.sum_eq_zero (fun j hj => by
      unfold sysMat; simp only; rw [if_pos (by omega), if_pos (by rw [mem_range] at hj; omega), zero_mul]), zero_add] at this
    rw [← this, Finset.sum_range]
    refine Finset.sum_congr rfl fun i _ => ?_
    unfold sysMat
    simp only
    rw [if_pos (by omega), if_neg (by omega), mul_comm]
    congr 2
    simp [← ht]
  refine ⟨htail, ?_⟩
  rw [Finset.sum_range_add, Finset.sum_eq_zero (fun i hi => by rw [hy i (mem_range.mp hi), mul_zero]), zero_add]
  have hrow : ∀ i : Fin X.length, ∑ j ∈ range (t + X.length), sysMat p X (t + i) j * y j =
      (∑ k ∈ range t, p.tail.eval (X.get i) k * y k) +
        (∑ j : Fin X.length, p.kernel.eval (eucl (X.get i) (X.get j)) * y (t + j) + p.eta * y (t + i)) := by
    intro i
    rw [Finset.sum_range_add]
    congr 1
    · refine Finset.sum_congr rfl fun k hk => ?_
      rw [mem_range] at hk
      unfold sysMat
      simp only
      rw [if_neg (by omega), if_pos (by omega)]
      congr 2
      simp [← ht]
    · rw [Finset.sum_range]
      have : ∀ j : Fin X.length, sysMat p X (t + i) (t + j) * y (t + j) =
          p.kernel.eval (eucl (X.get i) (X.get j)) * y (t + j) + p.eta * (if i = j then y (t + j) else 0) := by
        intro j
        unfold sysMat
        simp only
        rw [if_neg (by omega), if_neg (by omega)]
        have e1 : X.getD (t + i - p.tail.dimTail) 0 = X.get i := by simp [← ht]
        have e2 : X.getD (t + j - p.tail.dimTail) 0 = X.get j := by simp [← ht]
        rw [e1, e2]
        by_cases hij : i = j
        · simp [hij]; ring
        · rw [if_neg fun h => hij (Fin.ext (by omega)), if_neg hij]; ring
      simp only [this, Finset.sum_add_distrib, ← Finset.mul_sum]
      simp
  rw [Finset.sum_range]
  simp only [hrow, mul_add, Finset.sum_add_distrib]
  have h1 : ∑ i : Fin X.length, y (t + i) * (∑ k ∈ range t, p.tail.eval (X.get i) k * y k) = 0 := by
    simp only [Finset.mul_sum]
    rw [Finset.sum_comm]
    refine Finset.sum_eq_zero fun k hk => ?_
    have := htail k (mem_range.mp hk)
    have e : ∀ i : Fin X.length, y (t + i) * (p.tail.eval (X.get i) k * y k) = y (t + i) * p.tail.eval (X.get i) k * y k :=
      fun i => by ring
    simp only [e, ← Finset.sum_mul, this, zero_mul]
  rw [h1, zero_add]
  congr 1
  · refine Finset.sum_congr rfl fun i _ => ?_
    rw [Finset.mul_sum]
    exact Finset.sum_congr rfl fun j _ => by ring
  · rw [Finset.mul_sum]
    exact Finset.sum_congr rfl fun i _ => by ring

/-! ## Definite forms and the fit -/

/-- The form of kernel and regularization, on the vectors orthogonal to the tail. -/
noncomputable def kform (p : Par d) (X : List (Pt d)) (c : Fin X.length → ℝ) : ℝ :=
  ∑ i, ∑ j, c i * c j * p.kernel.eval (eucl (X.get i) (X.get j)) + p.eta * ∑ i, c i ^ 2

/-- Orthogonal to the tail. -/
def TailFree (p : Par d) (X : List (Pt d)) (c : Fin X.length → ℝ) : Prop :=
  ∀ k < p.tail.dimTail, ∑ i, c i * p.tail.eval (X.get i) k = 0

theorem Good.udiag {p : Par d} {s : RSt d} (hnb : ¬ Bad p s.model) {F : Fac} (hF : s.model = some F) :
    ∀ i < p.tail.dimTail + F.k, F.U i i ≠ 0 := fun i hi h0 => hnb ⟨F, hF, i, hi, h0⟩

/-- The form of the Schur complement of a fit is a value of the form of the kernel. -/
theorem fit_schur_form (p : Par d) (s : RSt d) (hg : Good p s) (hnb : ¬ Bad p s.model) (F : Fac)
    (hF : s.model = some F) (v : Vec)
    (hv : ∃ i < s.numPts - F.k, v i ≠ 0) :
    ∃ c : Fin s.Xu.length → ℝ, TailFree p s.Xu c ∧ c ≠ 0 ∧
      ∑ a ∈ range (s.numPts - F.k), ∑ b ∈ range (s.numPts - F.k), v a * schur (p.tail.dimTail + F.k) (phiNew p s.Xu F.k)
        (l21 F.U (pNew p s.Xu F.k)) (u12 F.L F.piv (pNew p s.Xu F.k)) a b * v b = kform p s.Xu c := by
  obtain ⟨hnk, htk, hk, hf⟩ := hg.fac F hF
  have hu := Good.udiag hnb hF
  obtain ⟨e1, e2⟩ := new_entries p s F hk
  obtain ⟨y, y1, y2, y3⟩ := schur_form (m := s.Xu.length - F.k) hf hu (fun i _ j _ => sysMat_sym p s.Xu i j) _ _ e1 e2 v
  rw [hg.num] at hv ⊢
  rw [show p.tail.dimTail + F.k + (s.Xu.length - F.k) = p.tail.dimTail + s.Xu.length by omega] at y2 y3
  obtain ⟨f1, f2⟩ := sysMat_form p s.Xu y fun i hi => y2 i (by omega)
  refine ⟨fun i => y (p.tail.dimTail + i), f1, fun h0 => ?_, y3.trans f2⟩
  obtain ⟨i, hi, hne⟩ := hv
  apply hne
  rw [← y1 i]
  have := congrFun h0 ⟨F.k + i, by omega⟩
  simp only [Pi.zero_apply] at this
  rw [← this]
  congr 1
  omega

/-- If the form is positive definite, the Cholesky factorization of the Schur complement succeeds. -/
theorem fit_chol (p : Par d) (hcc : CholComplete p.chol) (s : RSt d) (hg : Good p s) (hnb : ¬ Bad p s.model) (F : Fac)
    (hF : s.model = some F) (hpos : ∀ c, TailFree p s.Xu c → c ≠ 0 → 0 < kform p s.Xu c) :
    ∃ C, p.chol (s.numPts - F.k) (schur (p.tail.dimTail + F.k) (phiNew p s.Xu F.k)
      (l21 F.U (pNew p s.Xu F.k)) (u12 F.L F.piv (pNew p s.Xu F.k))) = some C := by
  obtain ⟨hnk, htk, hk, hf⟩ := hg.fac F hF
  have hu := Good.udiag hnb hF
  obtain ⟨e1, e2⟩ := new_entries p s F hk
  have hnum := hg.num
  refine Option.ne_none_iff_exists'.mp (hcc _ _ ⟨fun i hi j hj => ?_, fun v hv => ?_⟩)
  · unfold schur
    rw [schur_sym hf hu (fun i _ j _ => sysMat_sym p s.Xu i j) _ i j, ← e2 i (by omega) j (by omega),
      ← e2 j (by omega) i (by omega), sysMat_sym]
  · obtain ⟨c, c1, c2, c3⟩ := fit_schur_form p s hg hnb F hF v hv
    rw [c3]
    exact hpos c c1 c2

/-- If the form is positive definite, the stored factorization is extended: `lu_factor` is not called. -/
theorem fit_extends (p : Par d) (hchol : CholSpec p.chol) (hcc : CholComplete p.chol) (s : RSt d) (hg : Good p s)
    (hnb : ¬ Bad p s.model)
    (hm : s.model ≠ none) (hpos : ∀ c, TailFree p s.Xu c → c ≠ 0 → 0 < kform p s.Xu c) (lu' : ℕ → Mat → LuOut) :
    fit { p with lu := lu' } s = fit p s ∧ (fit p s).raised = false ∧ (fit p s).st.model ≠ none ∧
    ∀ F F', s.model = some F → (fit p s).st.model = some F' → F.k ≤ F'.k ∧
      (∀ i < p.tail.dimTail + F.k, ∀ j < p.tail.dimTail + F.k, F'.L i j = F.L i j ∧ F'.U i j = F.U i j) ∧
      ∀ i < p.tail.dimTail + F.k, F'.piv i = F.piv i := by
  obtain ⟨F, hF⟩ := Option.ne_none_iff_exists'.mp hm
  obtain ⟨hnk, htk, hk, hf⟩ := hg.fac F hF
  have hu := Good.udiag hnb hF
  obtain ⟨e1, e2⟩ := new_entries p s F hk
  have hnum := hg.num
  obtain ⟨C, hC⟩ := fit_chol p hcc s hg hnb F hF hpos
  obtain ⟨c1, c2, c3⟩ := hchol _ _ _ hC
  rw [hnum] at c1 c2 c3
  have hnz : ¬ (F.n ≠ F.k ∨
      (s.numPts - F.k > 0 ∧ (zeroDiag (p.tail.dimTail + F.k) F.U ∨ zeroDiag (p.tail.dimTail + F.k) F.L))) := by
    rintro (h | ⟨_, ⟨i, hi, h0⟩ | ⟨i, hi, h0⟩⟩)
    · exact h hnk
    · exact hu i hi h0
    · exact hf.ldiag i hi h0
  have key : ∀ lu'', fitNew { p with lu := lu'' } s = solveCoef p s (some F)
      (extL (p.tail.dimTail + F.k) F.L (l21 F.U (pNew p s.Xu F.k)) C)
      (extU (p.tail.dimTail + F.k) F.U (u12 F.L F.piv (pNew p s.Xu F.k)) C) (extPiv (p.tail.dimTail + F.k) F.piv) := by
    intro lu''
    unfold fitNew
    simp only [hF]
    rw [if_neg hnz]
    have hC' : p.chol (s.numPts - F.k) (schur (p.tail.dimTail + F.k) (phiNew { p with lu := lu'' } s.Xu F.k)
      (l21 F.U (pNew { p with lu := lu'' } s.Xu F.k)) (u12 F.L F.piv (pNew { p with lu := lu'' } s.Xu F.k))) = some C := hC
    simp only [hC']
    rfl
  have hkey := key p.lu
  obtain ⟨x1, x2⟩ := ext_facOk (m := s.Xu.length - F.k) hf hu (fun i _ j _ => sysMat_sym p s.Xu i j) (pNew p s.Xu F.k)
        (phiNew p s.Xu F.k) e1 e2 c1 c2 c3
  rw [show p.tail.dimTail + F.k + (s.Xu.length - F.k) = p.tail.dimTail + s.numPts by omega] at x1 x2
  have hsome : ∃ c, fitNew p s = ⟨some ⟨s.numPts, s.numPts, extL (p.tail.dimTail + F.k) F.L (l21 F.U (pNew p s.Xu F.k)) C,
      extU (p.tail.dimTail + F.k) F.U (u12 F.L F.piv (pNew p s.Xu F.k)) C, extPiv (p.tail.dimTail + F.k) F.piv, c⟩, false⟩ := by
    have : fitNew p s = fitNew { p with lu := p.lu } s := rfl
    rw [this, hkey]
    unfold solveCoef
    simp only
    rw [if_neg (by rintro ⟨i, hi, h0⟩; exact x1.ldiag i hi h0), if_neg (by rintro ⟨i, hi, h0⟩; exact x2 i hi h0)]
    exact ⟨_, rfl⟩
  obtain ⟨c, hc⟩ := hsome
  unfold fit
  by_cases hupd : s.updated = true
  · simp only [if_pos hupd]
    refine ⟨trivial, trivial, hm, fun G G' h1 h2 => ?_⟩
    rw [h1] at h2
    simp only [Option.some.injEq] at h2
    subst h2
    exact ⟨le_rfl, fun _ _ _ _ => ⟨rfl, rfl⟩, fun _ _ => rfl⟩
  · simp only [if_neg hupd]
    rw [key lu', ← hkey]
    have hc' : fitNew { p with lu := p.lu } s = _ := hc
    simp only [hc', hc]
    refine ⟨trivial, trivial, by simp, fun G G' h1 h2 => ?_⟩
    rw [hF] at h1
    simp only [Option.some.injEq] at h1 h2
    subst h1 h2
    refine ⟨by simp only; omega, fun i hi j hj => ?_, fun i hi => ?_⟩
    · simp only [extL, extU, if_pos hi, if_pos hj]; exact ⟨trivial, trivial⟩
    · simp only [extPiv, if_pos hi]

/-- If the form is negative definite, the Cholesky factorization of the Schur complement fails. -/
theorem fit_noChol (p : Par d) (hchol : CholSpec p.chol) (s : RSt d) (hg : Good p s)
    (hnb : ¬ Bad p s.model) (F : Fac) (hF : s.model = some F) (hnew : F.k < s.numPts)
    (hneg : ∀ c, TailFree p s.Xu c → c ≠ 0 → kform p s.Xu c < 0) :
    ¬ (F.n ≠ F.k ∨
      (s.numPts - F.k > 0 ∧ (zeroDiag (p.tail.dimTail + F.k) F.U ∨ zeroDiag (p.tail.dimTail + F.k) F.L))) ∧
    p.chol (s.numPts - F.k) (schur (p.tail.dimTail + F.k) (phiNew p s.Xu F.k)
      (l21 F.U (pNew p s.Xu F.k)) (u12 F.L F.piv (pNew p s.Xu F.k))) = none := by
  obtain ⟨hnk, htk, hk, hf⟩ := hg.fac F hF
  have hu := Good.udiag hnb hF
  refine ⟨?_, ?_⟩
  · rintro (h | ⟨_, ⟨i, hi, h0⟩ | ⟨i, hi, h0⟩⟩)
    · exact h hnk
    · exact hu i hi h0
    · exact hf.ldiag i hi h0
  rcases hC : p.chol (s.numPts - F.k) (schur (p.tail.dimTail + F.k) (phiNew p s.Xu F.k)
      (l21 F.U (pNew p s.Xu F.k)) (u12 F.L F.piv (pNew p s.Xu F.k))) with _ | C
  · rfl
  · exfalso
    obtain ⟨c1, c2, c3⟩ := hchol _ _ _ hC
    obtain ⟨c, h1, h2, h3⟩ := fit_schur_form p s hg hnb F hF (fun i => if i = 0 then 1 else 0) ⟨0, by omega, by simp⟩
    have hlt := hneg c h1 h2
    rw [← h3] at hlt
    have e : ∀ (S : Mat), ∑ a ∈ range (s.numPts - F.k), ∑ b ∈ range (s.numPts - F.k),
        (if a = 0 then (1 : ℝ) else 0) * S a b * (if b = 0 then 1 else 0) = S 0 0 := by
      intro S
      rw [Finset.sum_eq_single 0, Finset.sum_eq_single 0]
      · simp
      · intro b _ hb; simp [hb]
      · intro h; simp at h; omega
      · intro a _ ha; simp [ha]
      · intro h; simp at h; omega
    rw [e] at hlt
    have := c3 0 (by omega) 0 le_rfl
    rw [this] at hlt
    exact absurd (Finset.sum_nonneg fun k _ => mul_self_nonneg (C 0 k)) (not_le.mpr hlt)

/-- If the form is negative definite, nothing is ever extended: after adding a point the fit is that of an interpolant that
has never been fitted. -/
theorem fit_scratch (p : Par d) (hchol : CholSpec p.chol) (s : RSt d) (hg : Good p s)
    (hnb : ¬ Bad p s.model) (F : Fac) (hF : s.model = some F) (hnew : F.k < s.numPts)
    (hneg : ∀ c, TailFree p s.Xu c → c ≠ 0 → kform p s.Xu c < 0) :
    fitNew p s = fitInit p s := by
  obtain ⟨h1, h2⟩ := fit_noChol p hchol s hg hnb F hF hnew hneg
  unfold fitNew
  simp only [hF]
  rw [if_neg h1]
  simp only [h2]

end Verif.Surrogate
