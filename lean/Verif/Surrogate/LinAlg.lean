import Verif.Surrogate.Rbf
import Mathlib.LinearAlgebra.Matrix.Block
import Mathlib.LinearAlgebra.Matrix.ToLinearEquiv
import Mathlib.LinearAlgebra.Matrix.NonsingularInverse

/-! # Correctness of the triangular solves and of the factorization update -/

namespace Verif.Surrogate

open Verif.Num Verif.Utils Finset

/-! ## Substitution -/

theorem fwd_eq (T : Mat) (b : Vec) (i : ℕ) (h : T i i ≠ 0) :
    ∑ j ∈ range i, T i j * fwd T b j + T i i * fwd T b i = b i := by
  rw [fwd, mul_div_cancel₀ _ h, Finset.sum_range]
  ring

theorem fwd_solves {N : ℕ} {T : Mat} (b : Vec) (hd : ∀ i < N, T i i ≠ 0) (hl : ∀ i < N, ∀ j < N, i < j → T i j = 0)
    (i : ℕ) (hi : i < N) : ∑ j ∈ range N, T i j * fwd T b j = b i := by
  rw [← fwd_eq T b i (hd i hi), ← Finset.sum_range_succ (fun j => T i j * fwd T b j)]
  symm
  apply Finset.sum_subset
  · intro j hj; rw [mem_range] at hj ⊢; omega
  · intro j hj hj'
    rw [mem_range] at hj hj'
    rw [hl i hi j hj (by omega), zero_mul]

theorem bwd_solves {N : ℕ} {T : Mat} (b : Vec) (hd : ∀ i < N, T i i ≠ 0) (hu : ∀ i < N, ∀ j < N, j < i → T i j = 0)
    (i : ℕ) (hi : i < N) : ∑ j ∈ range N, T i j * bwd N T b j = b i := by
  have h := fwd_solves (N := N) (T := fun a c => T (N - 1 - a) (N - 1 - c)) (fun a => b (N - 1 - a))
    (fun a ha => hd _ (by omega)) (fun a ha c hc hac => hu _ (by omega) _ (by omega) (by omega)) (N - 1 - i) (by omega)
  simp only [show N - 1 - (N - 1 - i) = i by omega] at h
  rw [← h, ← Finset.sum_range_reflect]
  refine Finset.sum_congr rfl fun j hj => ?_
  rw [mem_range] at hj
  unfold bwd
  rw [show N - 1 - (N - 1 - j) = j by omega]

/-! ## Factorizations -/

/-- The leading `N × N` part of `A`, rows permuted by `piv`, is `L U`. -/
structure FacOk (N : ℕ) (A L U : Mat) (piv : ℕ → ℕ) : Prop where
  lower : ∀ i < N, ∀ j < N, i < j → L i j = 0
  upper : ∀ i < N, ∀ j < N, j < i → U i j = 0
  ldiag : ∀ i < N, L i i ≠ 0
  lt : ∀ i < N, piv i < N
  surj : ∀ j < N, ∃ i < N, piv i = j
  prod : ∀ i < N, ∀ j < N, A (piv i) j = ∑ k ∈ range N, L i k * U k j

/-- Multiplying out. -/
theorem FacOk.mulVec {N : ℕ} {A L U : Mat} {piv : ℕ → ℕ} (h : FacOk N A L U piv) (v : Vec) (i : ℕ) (hi : i < N) :
    ∑ j ∈ range N, A (piv i) j * v j = ∑ k ∈ range N, L i k * ∑ j ∈ range N, U k j * v j := by
  simp only [Finset.mul_sum]
  rw [Finset.sum_comm]
  refine Finset.sum_congr rfl fun j hj => ?_
  rw [h.prod i hi j (mem_range.mp hj), Finset.sum_mul]
  exact Finset.sum_congr rfl fun k _ => by ring

/-- The two substitutions solve the system. -/
theorem FacOk.solve {N : ℕ} {A L U : Mat} {piv : ℕ → ℕ} (h : FacOk N A L U piv) (hu : ∀ i < N, U i i ≠ 0) (rhs : Vec)
    (i : ℕ) (hi : i < N) : ∑ j ∈ range N, A i j * bwd N U (fwd L fun a => rhs (piv a)) j = rhs i := by
  obtain ⟨a, ha, rfl⟩ := h.surj i hi
  rw [h.mulVec _ a ha, ← fwd_solves (fun a => rhs (piv a)) h.ldiag h.lower a ha]
  refine Finset.sum_congr rfl fun k hk => ?_
  rw [bwd_solves _ hu h.upper k (mem_range.mp hk)]

/-- The leading part as a square matrix. -/
def toMatrix (N : ℕ) (A : Mat) : Matrix (Fin N) (Fin N) ℝ := Matrix.of fun i j => A i j

theorem FacOk.det {N : ℕ} {A L U : Mat} {piv : ℕ → ℕ} (h : FacOk N A L U piv) :
    (toMatrix N A).det ≠ 0 ↔ ∀ i < N, U i i ≠ 0 := by
  let σ : Fin N → Fin N := fun i => ⟨piv i, h.lt i i.2⟩
  have hσ : Function.Bijective σ := by
    apply Finite.surjective_iff_bijective.mp
    intro j
    obtain ⟨i, hi, he⟩ := h.surj j j.2
    exact ⟨⟨i, hi⟩, Fin.ext he⟩
  let e : Equiv.Perm (Fin N) := Equiv.ofBijective σ hσ
  have hprod : (toMatrix N A).submatrix e id = toMatrix N L * toMatrix N U := by
    ext i j
    simp only [Matrix.submatrix_apply, toMatrix, Matrix.of_apply, Matrix.mul_apply, id]
    have := h.prod i i.2 j j.2
    rw [Finset.sum_range] at this
    exact this
  have hdet := congrArg Matrix.det hprod
  rw [Matrix.det_permute, Matrix.det_mul] at hdet
  have hL : (toMatrix N L).det = ∏ i : Fin N, L i i := by
    rw [Matrix.det_of_lowerTriangular]
    · rfl
    · intro i j hij; exact h.lower i i.2 j j.2 (by simpa using hij)
  have hU : (toMatrix N U).det = ∏ i : Fin N, U i i := by
    rw [Matrix.det_of_upperTriangular]
    · rfl
    · intro i j hij; exact h.upper i i.2 j j.2 (by simpa using hij)
  have hL0 : (toMatrix N L).det ≠ 0 := by
    rw [hL, Finset.prod_ne_zero_iff]; exact fun i _ => h.ldiag i i.2
  have hs : ((Equiv.Perm.sign e : ℤ) : ℝ) ≠ 0 := by
    rcases Int.units_eq_one_or (Equiv.Perm.sign e) with h1 | h1 <;> rw [h1] <;> norm_num
  have key : (toMatrix N A).det ≠ 0 ↔ (toMatrix N U).det ≠ 0 := by
    constructor
    · intro hA hU0
      rw [hU0, mul_zero] at hdet
      exact (mul_ne_zero hs hA) hdet
    · intro hU0 hA
      rw [hA, mul_zero] at hdet
      exact (mul_ne_zero hL0 hU0) hdet.symm
  rw [key, hU, Finset.prod_ne_zero_iff]
  exact ⟨fun hh i hi => hh ⟨i, hi⟩ (Finset.mem_univ _), fun hh i _ => hh i i.2⟩

/-! ## The factorization from scratch -/

theorem lowerOf_spec (LU : Mat) : (∀ i j, i < j → lowerOf LU i j = 0) ∧ ∀ i, lowerOf LU i i = 1 := by
  refine ⟨fun i j h => ?_, fun i => ?_⟩
  · unfold lowerOf; rw [if_neg (by omega), if_neg (by omega)]; ring
  · unfold lowerOf; simp

theorem upperOf_spec (LU : Mat) : ∀ i j, j < i → upperOf LU i j = 0 := by
  intro i j h; unfold upperOf; rw [if_neg (by omega)]

/-- Interchanging the rows of `A` is composing with the interchanged index vector. -/
theorem interchange_comp {α : Type} (N : ℕ) (ipiv : ℕ → ℕ) (a : ℕ → α) (i : ℕ) :
    interchange N ipiv a i = a (interchange N ipiv (fun i => i) i) := by
  unfold interchange
  suffices H : ∀ (l : List ℕ) (q : ℕ → ℕ) (i : ℕ), l.foldl (fun a i => swapAt a i (ipiv i)) (fun i => a (q i)) i =
      a (l.foldl (fun a i => swapAt a i (ipiv i)) q i) from H _ (fun i => i) i
  intro l
  induction l with
  | nil => intro q i; rfl
  | cons x l ih =>
    intro q i
    rw [List.foldl_cons, List.foldl_cons, ← ih]
    have : swapAt (fun i => a (q i)) x (ipiv x) = fun i => a (swapAt q x (ipiv x) i) := by
      funext y
      unfold swapAt
      split_ifs <;> rfl
    rw [this]

/-- The index vector stays a permutation of the first `N` indices. -/
theorem interchange_perm (N : ℕ) (ipiv : ℕ → ℕ) (h : ∀ i < N, ipiv i < N) :
    (∀ i < N, interchange N ipiv (fun i => i) i < N) ∧ ∀ j < N, ∃ i < N, interchange N ipiv (fun i => i) i = j := by
  unfold interchange
  suffices H : ∀ (l : List ℕ) (q : ℕ → ℕ), (∀ x ∈ l, x < N) → (∀ i < N, q i < N) → (∀ j < N, ∃ i < N, q i = j) →
      (∀ i < N, l.foldl (fun a i => swapAt a i (ipiv i)) q i < N) ∧
      ∀ j < N, ∃ i < N, l.foldl (fun a i => swapAt a i (ipiv i)) q i = j from
    H _ _ (fun x hx => List.mem_range.mp hx) (fun i hi => hi) (fun j hj => ⟨j, hj, rfl⟩)
  intro l
  induction l with
  | nil => intro q _ h1 h2; exact ⟨h1, h2⟩
  | cons x l ih =>
    intro q hl h1 h2
    rw [List.foldl_cons]
    have hx := hl x (by simp)
    have hpx := h x hx
    refine ih _ (fun y hy => hl y (by simp [hy])) ?_ ?_
    · intro i hi
      unfold swapAt
      split_ifs
      · exact h1 _ hpx
      · exact h1 _ hx
      · exact h1 _ hi
    · intro j hj
      obtain ⟨i, hi, rfl⟩ := h2 j hj
      by_cases e1 : i = x
      · refine ⟨ipiv x, hpx, ?_⟩
        unfold swapAt
        by_cases e2 : ipiv x = x
        · rw [if_pos e2, e2, e1]
        · rw [if_neg e2, if_pos rfl, e1]
      · by_cases e2 : i = ipiv x
        · refine ⟨x, hx, ?_⟩
          unfold swapAt
          rw [if_pos rfl, e2]
        · refine ⟨i, hi, ?_⟩
          unfold swapAt
          rw [if_neg e1, if_neg e2]

theorem lu_facOk {lu : ℕ → Mat → LuOut} (h : LuSpec lu) (N : ℕ) (A : Mat) :
    FacOk N A (lowerOf (lu N A).LU) (upperOf (lu N A).LU) (interchange N (lu N A).ipiv fun i => i) := by
  obtain ⟨h1, h2⟩ := h N A
  obtain ⟨p1, p2⟩ := interchange_perm N (lu N A).ipiv fun i hi => (h1 i hi).2
  refine ⟨fun i _ j _ hij => (lowerOf_spec _).1 i j hij, fun i _ j _ hij => upperOf_spec _ i j hij,
    fun i _ => by rw [(lowerOf_spec _).2]; exact one_ne_zero, p1, p2, fun i hi j hj => ?_⟩
  have := h2 i hi j hj
  rw [interchange_comp] at this
  exact this

/-! ## The extension -/

/-- Rows of `L21`: `L21 U = B^T`. -/
theorem l21_spec {K : ℕ} {A L U : Mat} {piv : ℕ → ℕ} (h : FacOk K A L U piv) (hu : ∀ i < K, U i i ≠ 0) (B : Mat) (a : ℕ)
    (j : ℕ) (hj : j < K) : ∑ k ∈ range K, l21 U B a k * U k j = B j a := by
  have := fwd_solves (N := K) (T := fun r c => U c r) (fun b => B b a) hu (fun i hi c hc hic => h.upper c hc i hi hic) j hj
  rw [← this]
  exact Finset.sum_congr rfl fun k _ => mul_comm _ _

/-- Columns of `U12`: `L U12 = B[piv]`. -/
theorem u12_spec {K : ℕ} {A L U : Mat} {piv : ℕ → ℕ} (h : FacOk K A L U piv) (B : Mat) (b : ℕ) (i : ℕ) (hi : i < K) :
    ∑ k ∈ range K, L i k * u12 L piv B k b = B (piv i) b :=
  fwd_solves (fun a => B (piv a) b) h.ldiag h.lower i hi

/-- `L21 U12 = B^T A^{-1} B` is symmetric if `A` is. -/
theorem schur_sym {K : ℕ} {A L U : Mat} {piv : ℕ → ℕ} (h : FacOk K A L U piv) (hu : ∀ i < K, U i i ≠ 0)
    (hA : ∀ i < K, ∀ j < K, A i j = A j i) (B : Mat) (a b : ℕ) :
    ∑ m ∈ range K, l21 U B a m * u12 L piv B m b = ∑ m ∈ range K, l21 U B b m * u12 L piv B m a := by
  let z : ℕ → Vec := fun b => bwd K U (fun m => u12 L piv B m b)
  have hz : ∀ b, ∀ m < K, ∑ j ∈ range K, U m j * z b j = u12 L piv B m b := fun b m hm => bwd_solves _ hu h.upper m hm
  have hAz : ∀ b, ∀ i < K, ∑ j ∈ range K, A i j * z b j = B i b := by
    intro b i hi
    obtain ⟨r, hr, rfl⟩ := h.surj i hi
    rw [h.mulVec _ r hr, ← u12_spec h B b r hr]
    exact Finset.sum_congr rfl fun k hk => by rw [hz b k (mem_range.mp hk)]
  have hW : ∀ a b, ∑ m ∈ range K, l21 U B a m * u12 L piv B m b = ∑ j ∈ range K, ∑ i ∈ range K, A j i * z a i * z b j := by
    intro a b
    have h1 : ∑ m ∈ range K, l21 U B a m * u12 L piv B m b = ∑ j ∈ range K, (∑ m ∈ range K, l21 U B a m * U m j) * z b j := by
      simp only [Finset.sum_mul]
      rw [Finset.sum_comm]
      refine Finset.sum_congr rfl fun m hm => ?_
      rw [← hz b m (mem_range.mp hm), Finset.mul_sum]
      exact Finset.sum_congr rfl fun j _ => by ring
    rw [h1]
    refine Finset.sum_congr rfl fun j hj => ?_
    rw [l21_spec h hu B a j (mem_range.mp hj), ← hAz a j (mem_range.mp hj), Finset.sum_mul]
  rw [hW, hW, Finset.sum_comm]
  refine Finset.sum_congr rfl fun i hi => Finset.sum_congr rfl fun j hj => ?_
  rw [hA i (mem_range.mp hi) j (mem_range.mp hj)]
  ring

/-- The updated factorization is one of the extended matrix, and nonsingular. -/
theorem ext_facOk {K m : ℕ} {A L U C : Mat} {piv : ℕ → ℕ} (h : FacOk K A L U piv) (hu : ∀ i < K, U i i ≠ 0)
    (hA : ∀ i < K + m, ∀ j < K + m, A i j = A j i) (B Phi : Mat) (hB : ∀ i < K, ∀ b < m, A i (K + b) = B i b)
    (hPhi : ∀ a < m, ∀ b < m, A (K + a) (K + b) = Phi a b)
    (hC1 : ∀ i < m, 0 < C i i) (hC2 : ∀ i < m, ∀ j < m, i < j → C i j = 0)
    (hC3 : ∀ i < m, ∀ j ≤ i, schur K Phi (l21 U B) (u12 L piv B) i j = ∑ k ∈ range m, C i k * C j k) :
    FacOk (K + m) A (extL K L (l21 U B) C) (extU K U (u12 L piv B) C) (extPiv K piv) ∧
      ∀ i < K + m, extU K U (u12 L piv B) C i i ≠ 0 := by
  have hschur : ∀ a < m, ∀ b < m, schur K Phi (l21 U B) (u12 L piv B) a b = ∑ k ∈ range m, C a k * C b k := by
    intro a ha b hb
    rcases le_total b a with hab | hab
    · exact hC3 a ha b hab
    · have h1 := hC3 b hb a hab
      have hsym : schur K Phi (l21 U B) (u12 L piv B) a b = schur K Phi (l21 U B) (u12 L piv B) b a := by
        unfold schur
        rw [schur_sym h hu (fun i hi j hj => hA i (by omega) j (by omega)) B a b, ← hPhi a ha b hb, ← hPhi b hb a ha,
          hA (K + a) (by omega) (K + b) (by omega)]
      rw [hsym, h1]
      exact Finset.sum_congr rfl fun k _ => mul_comm _ _
  refine ⟨⟨?_, ?_, ?_, ?_, ?_, ?_⟩, ?_⟩
  · intro i hi j hj hij
    unfold extL
    by_cases h1 : i < K
    · rw [if_pos h1]
      by_cases h2 : j < K
      · rw [if_pos h2]; exact h.lower i h1 j h2 hij
      · rw [if_neg h2]
    · rw [if_neg h1, if_neg (by omega)]; exact hC2 _ (by omega) _ (by omega) (by omega)
  · intro i hi j hj hij
    unfold extU
    by_cases h1 : i < K
    · rw [if_pos h1, if_pos (by omega)]; exact h.upper i h1 j (by omega) hij
    · rw [if_neg h1]
      by_cases h2 : j < K
      · rw [if_pos h2]
      · rw [if_neg h2]; exact hC2 _ (by omega) _ (by omega) (by omega)
  · intro i hi
    unfold extL
    by_cases h1 : i < K
    · rw [if_pos h1, if_pos h1]; exact h.ldiag i h1
    · rw [if_neg h1, if_neg h1]; exact (hC1 _ (by omega)).ne'
  · intro i hi
    unfold extPiv
    by_cases h1 : i < K
    · rw [if_pos h1]; have := h.lt i h1; omega
    · rw [if_neg h1]; exact hi
  · intro j hj
    by_cases h1 : j < K
    · obtain ⟨i, hi, he⟩ := h.surj j h1
      exact ⟨i, by omega, by unfold extPiv; rw [if_pos hi, he]⟩
    · exact ⟨j, hj, by unfold extPiv; rw [if_neg h1]⟩
  · intro i hi j hj
    rw [Finset.sum_range_add]
    by_cases h1 : i < K
    · have hz : ∑ x ∈ range m, extL K L (l21 U B) C i (K + x) * extU K U (u12 L piv B) C (K + x) j = 0 := by
        apply Finset.sum_eq_zero
        intro x _
        unfold extL
        rw [if_pos h1, if_neg (by omega), zero_mul]
      rw [hz, add_zero]
      by_cases h2 : j < K
      · have : ∀ k ∈ range K, extL K L (l21 U B) C i k * extU K U (u12 L piv B) C k j = L i k * U k j := by
          intro k hk
          rw [mem_range] at hk
          unfold extL extU
          rw [if_pos h1, if_pos hk, if_pos hk, if_pos h2]
        rw [Finset.sum_congr rfl this, ← h.prod i h1 j h2]
        unfold extPiv; rw [if_pos h1]
      · have : ∀ k ∈ range K, extL K L (l21 U B) C i k * extU K U (u12 L piv B) C k j = L i k * u12 L piv B k (j - K) := by
          intro k hk
          rw [mem_range] at hk
          unfold extL extU
          rw [if_pos h1, if_pos hk, if_pos hk, if_neg h2]
        rw [Finset.sum_congr rfl this, u12_spec h B (j - K) i h1, ← hB _ (h.lt i h1) _ (by omega)]
        unfold extPiv; rw [if_pos h1, show K + (j - K) = j by omega]
    · have hpiv : extPiv K piv i = i := by unfold extPiv; rw [if_neg h1]
      rw [hpiv]
      by_cases h2 : j < K
      · have hz : ∑ x ∈ range m, extL K L (l21 U B) C i (K + x) * extU K U (u12 L piv B) C (K + x) j = 0 := by
          apply Finset.sum_eq_zero
          intro x _
          unfold extU
          rw [if_neg (by omega), if_pos h2, mul_zero]
        have : ∀ k ∈ range K, extL K L (l21 U B) C i k * extU K U (u12 L piv B) C k j = l21 U B (i - K) k * U k j := by
          intro k hk
          rw [mem_range] at hk
          unfold extL extU
          rw [if_neg h1, if_pos hk, if_pos hk, if_pos h2]
        rw [hz, add_zero, Finset.sum_congr rfl this, l21_spec h hu B (i - K) j h2, hA i hi j hj, ← hB j h2 _ (by omega),
          show K + (i - K) = i by omega]
      · have t1 : ∀ k ∈ range K, extL K L (l21 U B) C i k * extU K U (u12 L piv B) C k j =
            l21 U B (i - K) k * u12 L piv B k (j - K) := by
          intro k hk
          rw [mem_range] at hk
          unfold extL extU
          rw [if_neg h1, if_pos hk, if_pos hk, if_neg h2]
        have t2 : ∀ x ∈ range m, extL K L (l21 U B) C i (K + x) * extU K U (u12 L piv B) C (K + x) j =
            C (i - K) x * C (j - K) x := by
          intro x hx
          unfold extL extU
          rw [if_neg h1, if_neg (by omega), if_neg (by omega), if_neg h2, show K + x - K = x by omega]
        rw [Finset.sum_congr rfl t1, Finset.sum_congr rfl t2, ← hschur _ (by omega) _ (by omega)]
        unfold schur
        rw [← hPhi _ (by omega) _ (by omega), show K + (i - K) = i by omega, show K + (j - K) = j by omega]
        ring
  · intro i hi
    unfold extU
    by_cases h1 : i < K
    · rw [if_pos h1, if_pos h1]; exact hu i h1
    · rw [if_neg h1, if_neg h1]; exact (hC1 _ (by omega)).ne'

end Verif.Surrogate
