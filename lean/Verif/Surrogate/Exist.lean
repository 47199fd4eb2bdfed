import Verif.Surrogate.LinAlg

/-! # The contracts of the numerical library can be met -/

namespace Verif.Surrogate

open Finset

theorem interchange_succ {α : Type} (N : ℕ) (ip : ℕ → ℕ) (p : ℕ) (a : ℕ → α) :
    (∀ i, interchange (N + 1) (fun i => if i = 0 then p else ip (i - 1) + 1) a (i + 1) =
      swapAt a 0 p (interchange N ip (fun i => i) i + 1)) ∧
    interchange (N + 1) (fun i => if i = 0 then p else ip (i - 1) + 1) a 0 = swapAt a 0 p 0 := by
  unfold interchange
  rw [List.range_succ_eq_map, List.foldl_cons, List.foldl_map]
  simp only [if_true]
  suffices H : ∀ (l : List ℕ) (b : ℕ → α) (q : ℕ → ℕ), (∀ i, b (i + 1) = swapAt a 0 p (q i + 1)) → b 0 = swapAt a 0 p 0 →
      (∀ i, l.foldl (fun c y => swapAt c (y + 1) (if y + 1 = 0 then p else ip (y + 1 - 1) + 1)) b (i + 1) =
        swapAt a 0 p (l.foldl (fun c i => swapAt c i (ip i)) q i + 1)) ∧
      l.foldl (fun c y => swapAt c (y + 1) (if y + 1 = 0 then p else ip (y + 1 - 1) + 1)) b 0 = swapAt a 0 p 0 from
    H _ _ _ (fun i => rfl) rfl
  intro l
  induction l with
  | nil => intro b q h1 h2; exact ⟨h1, h2⟩
  | cons x l ih =>
    intro b q h1 h2
    rw [List.foldl_cons, List.foldl_cons]
    refine ih _ _ (fun i => ?_) ?_
    · rw [if_neg (by omega), show x + 1 - 1 = x by omega]
      unfold swapAt
      by_cases e1 : i = x
      · rw [if_pos (by omega), if_pos e1]; exact h1 _
      · rw [if_neg (by omega), if_neg e1]
        by_cases e2 : i = ip x
        · rw [if_pos (by omega), if_pos e2]; exact h1 _
        · rw [if_neg (by omega), if_neg e2]; exact h1 _
    · rw [if_neg (by omega)]
      show swapAt b (x + 1) _ 0 = _
      rw [← h2]
      unfold swapAt
      rw [if_neg (by omega), if_neg (by omega)]

/-- Every square matrix has a factorization with row interchanges. -/
theorem exists_lu (N : ℕ) (A : Mat) : ∃ o : LuOut, (∀ i < N, i ≤ o.ipiv i ∧ o.ipiv i < N) ∧
    ∀ i < N, ∀ j < N, interchange N o.ipiv A i j = ∑ k ∈ range N, lowerOf o.LU i k * upperOf o.LU k j := by
  classical
  induction N generalizing A with
  | zero => exact ⟨⟨fun _ _ => 0, fun i => i⟩, by simp, by simp⟩
  | succ N ih =>
    obtain ⟨p, hp, hpiv⟩ : ∃ p < N + 1, A p 0 = 0 → ∀ i < N + 1, A i 0 = 0 := by
      by_cases h : ∃ p < N + 1, A p 0 ≠ 0
      · obtain ⟨p, hp, h0⟩ := h; exact ⟨p, hp, fun h => absurd h h0⟩
      · push Not at h; exact ⟨0, by omega, fun _ => h⟩
    set A1 := swapAt A 0 p with hA1
    have hA10 : A1 0 = A p := by simp [hA1, swapAt]
    have hA1z : A1 0 0 = 0 → ∀ i < N + 1, A1 i 0 = 0 := by
      intro h0 i hi
      rw [hA10] at h0
      have := hpiv h0
      rw [hA1]; unfold swapAt
      split_ifs
      · exact this p hp
      · exact this 0 (by omega)
      · exact this i hi
    let l : ℕ → ℝ := fun i => if A1 0 0 = 0 then 0 else A1 i 0 / A1 0 0
    have hl : ∀ i < N + 1, A1 i 0 = l i * A1 0 0 := by
      intro i hi
      by_cases h0 : A1 0 0 = 0
      · rw [h0, mul_zero]; exact hA1z h0 i hi
      · simp only [l, if_neg h0]; rw [div_mul_cancel₀ _ h0]
    obtain ⟨o, ho1, ho2⟩ := ih (fun i j => A1 (i + 1) (j + 1) - l (i + 1) * A1 0 (j + 1))
    set π := interchange N o.ipiv (fun i => i) with hπ
    obtain ⟨hperm, _⟩ := interchange_perm N o.ipiv fun i hi => (ho1 i hi).2
    let LU : Mat := fun i j => if i = 0 then A1 0 j else if j = 0 then l (π (i - 1) + 1) else o.LU (i - 1) (j - 1)
    refine ⟨⟨LU, fun i => if i = 0 then p else o.ipiv (i - 1) + 1⟩, ?_, ?_⟩
    · intro i hi
      by_cases h0 : i = 0
      · simp only [h0, if_true]; omega
      · simp only [h0, if_false]
        have := ho1 (i - 1) (by omega)
        omega
    · obtain ⟨hs, hz⟩ := interchange_succ N o.ipiv p A
      have hL : ∀ i k, lowerOf LU (i + 1) (k + 1) = lowerOf o.LU i k := by
        intro i k
        unfold lowerOf
        by_cases h1 : k < i
        · rw [if_pos (by omega), if_pos h1, if_neg (by omega), if_neg (by omega)]
          simp [LU]
        · rw [if_neg (by omega), if_neg h1]
          by_cases h2 : i = k
          · rw [if_pos (by omega), if_pos h2]
          · rw [if_neg (by omega), if_neg h2]
      have hU : ∀ k j, upperOf LU (k + 1) (j + 1) = upperOf o.LU k j := by
        intro k j
        unfold upperOf
        by_cases h1 : k ≤ j
        · rw [if_pos (by omega), if_pos h1]; simp [LU]
        · rw [if_neg (by omega), if_neg h1]
      have hU0 : ∀ j, upperOf LU 0 j = A1 0 j := by intro j; unfold upperOf; simp [LU]
      have hUz : ∀ k, upperOf LU (k + 1) 0 = 0 := fun k => upperOf_spec LU _ _ (by omega)
      have hL0 : ∀ i, lowerOf LU (i + 1) 0 = l (π i + 1) := by
        intro i; unfold lowerOf; rw [if_pos (by omega), if_neg (by omega)]; simp [LU]
      intro i hi j hj
      rw [Finset.sum_range_succ']
      rcases i with _ | i
      · rw [hz, ← hA1]
        have : ∀ k ∈ range N, lowerOf LU 0 (k + 1) * upperOf LU (k + 1) j = 0 := fun k _ => by
          rw [(lowerOf_spec LU).1 0 (k + 1) (by omega), zero_mul]
        rw [Finset.sum_eq_zero this, (lowerOf_spec LU).2, hU0]; ring
      · rw [hs, ← hA1, ← hπ]
        have hπi : π i < N := hperm i (by omega)
        rcases j with _ | j
        · have : ∀ k ∈ range N, lowerOf LU (i + 1) (k + 1) * upperOf LU (k + 1) 0 = 0 := fun k _ => by rw [hUz, mul_zero]
          rw [Finset.sum_eq_zero this, hL0, hU0, zero_add]
          exact hl _ (by omega)
        · have h2 := ho2 i (by omega) j (by omega)
          rw [interchange_comp, ← hπ] at h2
          simp only [hL, hU, hL0, hU0]
          rw [← h2]; ring

/-- There is a library that meets the contracts; its Cholesky factorization succeeds whenever there is a factor. -/
theorem exists_library : ∃ (lu : ℕ → Mat → LuOut) (chol : ℕ → Mat → Option Mat), LuSpec lu ∧ CholSpec chol ∧
    ∀ (N : ℕ) (S C : Mat), (∀ i < N, 0 < C i i) → (∀ i < N, ∀ j < N, i < j → C i j = 0) →
      (∀ i < N, ∀ j ≤ i, S i j = ∑ k ∈ range N, C i k * C j k) → chol N S ≠ none := by
  classical
  choose lu h1 h2 using exists_lu
  let Ok : ℕ → Mat → Mat → Prop := fun N S C => (∀ i < N, 0 < C i i) ∧ (∀ i < N, ∀ j < N, i < j → C i j = 0) ∧
    ∀ i < N, ∀ j ≤ i, S i j = ∑ k ∈ range N, C i k * C j k
  refine ⟨lu, fun N S => if h : ∃ C, Ok N S C then some h.choose else none, fun N A => ⟨h1 N A, h2 N A⟩, ?_, ?_⟩
  · intro N S C hC
    simp only at hC
    by_cases h : ∃ C, Ok N S C
    · rw [dif_pos h] at hC
      simp only [Option.some.injEq] at hC
      subst hC
      exact h.choose_spec
    · rw [dif_neg h] at hC; simp at hC
  · intro N S C c1 c2 c3
    simp only
    rw [dif_pos ⟨C, c1, c2, c3⟩]
    simp

end Verif.Surrogate
