import Verif.Design.Complete

/-! # Property C124: which designs the symmetric Latin hypercube can generate -/

namespace Verif.Props

open Verif.Num Verif.Spec Verif.Utils Verif.Design

variable {n d : ℕ}

/-- A symmetric Latin hypercube of `n` points in the unit cube: each of the equidistant levels `k / (n - 1)` is taken in every
variable, and with a point also its reflection about the center belongs to the design. -/
structure SymLatin (D : Des n d) : Prop where
  latin : ∀ j, ∀ k : Fin n, ∃ i, D i j = (k : ℝ) / ((n : ℝ) - 1)
  symm : ∀ i, ∃ i', ∀ j, D i j + D i' j = 1

/-- The generator can return exactly the symmetric Latin hypercubes, up to the order of their points. -/
theorem C124_exactly (hn : 2 ≤ n) (D : Des n d) :
    SymLatin D ↔ ∃ (ρ : Equiv.Perm (Fin n)) (coin : ℕ → ℕ → Bool) (σ : ℕ → Equiv.Perm (Fin (n / 2))),
      ∀ i, slhd n d coin σ i = D (ρ i) := by
  refine ⟨fun h => slhd_complete hn D h.latin h.symm, ?_⟩
  rintro ⟨ρ, coin, σ, h⟩
  have hD : ∀ i, D i = slhd n d coin σ (ρ.symm i) := fun i => by rw [h]; simp
  refine ⟨fun j k => ?_, fun i => ⟨ρ (ρ.symm i).rev, fun j => ?_⟩⟩
  · obtain ⟨i, hi, _⟩ := C43_latin hn coin σ j k k.2
    exact ⟨ρ i, by rw [← h]; exact hi⟩
  · rw [hD, ← h, C43_symmetric hn]
    ring

/-- The order of the points is not arbitrary: they are sorted by their first variable. -/
theorem C124_sorted (hn : 2 ≤ n) (coin : ℕ → ℕ → Bool) (σ : ℕ → Equiv.Perm (Fin (n / 2))) (i : Fin n) (j : Fin d) (hj : j.1 = 0) :
    slhd n d coin σ i j = (i : ℝ) / ((n : ℝ) - 1) := by
  obtain ⟨c, τ, ⟨hz, _⟩, htop, hs⟩ := slhdArr_spec' n d coin σ j j.2
  obtain ⟨rfl, rfl⟩ := hz hj
  have top : ∀ i, i < n / 2 → slhdArr n d coin σ i j = (i : ℤ) + 1 := fun i hi => by
    rw [htop i hi]; simp [topVal]
  have all : slhdArr n d coin σ i j = ((i : ℕ) : ℤ) + 1 := by
    by_cases hi : i.1 < n / 2
    · exact top i hi
    · have h1 := hs i i.2
      by_cases hi' : n - 1 - i.1 < n / 2
      · have h5 := top _ hi'
        have := i.2
        omega
      · have : n - 1 - i.1 = i.1 := by have := i.2; omega
        rw [this] at h1
        have := i.2
        omega
  rw [slhd_apply]
  show (((slhdArr n d coin σ i j : ℤ) : ℝ) - 1) / _ = _
  rw [all]
  push_cast
  rw [add_sub_cancel_right]

theorem qualifies_rows {D : Des n d} (h : Qualifies D) (ρ : Equiv.Perm (Fin n)) : Qualifies (fun i => D (ρ i)) := by
  refine ⟨fun i j hij => h.1 _ _ fun he => hij (ρ.injective he), ?_⟩
  exact (Matrix.rank_submatrix (Matrix.of D) ρ (Equiv.refl _)).trans h.2

/-- Every symmetric Latin hypercube that qualifies in the domain (distinct points, full rank) can be the result of
`generate_points`, for any number of iterations, up to the order of its points. -/
theorem C124_result (hn : 2 ≤ n) (D : Des n d) (hD : SymLatin D) (bounds : Option (Pt d × Pt d)) (iv : List (Fin d))
    (hq : Qualifies (mapDesign bounds iv D)) (iterations : ℕ) (hi : 1 ≤ iterations) :
    ∃ (rnd : List ((ℕ → ℕ → Bool) × (ℕ → Equiv.Perm (Fin (n / 2))))) (X : Des n d) (ρ : Equiv.Perm (Fin n)),
      rnd.length = iterations ∧ slhdPoints n d rnd bounds iv = some X ∧ ∀ i, X i = mapDesign bounds iv D (ρ i) := by
  obtain ⟨ρ, coin, σ, h⟩ := (C124_exactly hn D).mp hD
  have hm : ∀ i, mapDesign bounds iv (slhd n d coin σ) i = mapDesign bounds iv D (ρ i) := by
    intro i
    cases bounds with
    | none => exact h i
    | some b => obtain ⟨lb, ub⟩ := b; simp only [mapDesign, h]
  refine ⟨List.replicate iterations (coin, σ), mapDesign bounds iv (slhd n d coin σ), ρ, List.length_replicate, ?_, hm⟩
  unfold slhdPoints
  rw [List.map_replicate]
  rcases hX : expdesDist (List.replicate iterations (slhd n d coin σ)) bounds iv with _ | X
  · exfalso
    refine (C45_select _ _ _).2.mp hX (mapDesign bounds iv (slhd n d coin σ))
      (List.mem_map.mpr ⟨_, List.mem_replicate.mpr ⟨by omega, rfl⟩, rfl⟩) ?_
    have : mapDesign bounds iv (slhd n d coin σ) = fun i => mapDesign bounds iv D (ρ i) := funext hm
    rw [this]
    exact qualifies_rows hq ρ
  · obtain ⟨h1, _⟩ := (C45_select _ _ _).1 X hX
    obtain ⟨g, hg, rfl⟩ := List.mem_map.mp h1
    rw [List.eq_of_mem_replicate hg]

/-- A Latin hypercube of `n` points in the unit cube: in every variable each of the `n` intervals of length `1 / n` contains
a point. -/
def Latin (D : Des n d) : Prop := ∀ j, ∀ k : Fin n, ∃ i, (k : ℝ) ≤ n * D i j ∧ n * D i j < k + 1

/-- The Latin hypercube (by the contract assumed of pyDOE2) can return exactly the Latin hypercubes. -/
theorem C124_lhd (hn : 1 ≤ n) (D : Des n d) :
    Latin D ↔ ∃ (u : Fin n → Fin d → ℝ) (σ : Fin d → Equiv.Perm (Fin n)), (∀ i j, 0 ≤ u i j ∧ u i j < 1) ∧ lhs n d u σ = D := by
  have hp : (0 : ℝ) < n := by exact_mod_cast hn
  constructor
  · intro h
    choose e he using h
    have hinj : ∀ j, Function.Injective (e j) := by
      intro j k k' hk
      have h1 := he j k
      have h2 := he j k'
      rw [hk] at h1
      apply Fin.ext
      have a1 : (k : ℝ) < k' + 1 := h1.1.trans_lt h2.2
      have a2 : (k' : ℝ) < k + 1 := h2.1.trans_lt h1.2
      have b1 : k.1 < k'.1 + 1 := by exact_mod_cast a1
      have b2 : k'.1 < k.1 + 1 := by exact_mod_cast a2
      omega
    let E : Fin d → Equiv.Perm (Fin n) := fun j => Equiv.ofBijective (e j) (Finite.injective_iff_bijective.mp (hinj j))
    have hE : ∀ j, ∀ k : Fin n, (k : ℝ) ≤ n * D (E j k) j ∧ n * D (E j k) j < k + 1 := fun j k => he j k
    refine ⟨fun k j => n * D (E j k) j - k, fun j => (E j).symm, fun k j => ?_, ?_⟩
    · have := hE j k
      exact ⟨sub_nonneg.mpr this.1, by beta_reduce; linarith [this.2]⟩
    · funext i j
      unfold lhs
      dsimp only
      rw [Equiv.apply_symm_apply, add_sub_cancel, mul_div_cancel_left₀ _ hp.ne']
  · rintro ⟨u, σ, hu, rfl⟩ j k
    refine ⟨(σ j).symm k, ?_⟩
    unfold lhs
    rw [Equiv.apply_symm_apply, mul_div_cancel₀ _ hp.ne']
    have := hu k j
    exact ⟨by linarith [this.1], by linarith [this.2]⟩

/-! ## A case that meets the hypotheses -/

/-- Four points in the square, not sorted by the first variable: a symmetric Latin hypercube that qualifies. -/
theorem square4 : ∃ D : Des 4 2, SymLatin D ∧ Qualifies (mapDesign (some (![0, 0], ![1, 1])) [] D) ∧ D 0 0 = 1 / 3 ∧ D 1 0 = 0 := by
  refine ⟨![![1 / 3, 1], ![0, 1 / 3], ![1, 2 / 3], ![2 / 3, 0]], ⟨fun j k => ?_, fun i => ?_⟩, ?_, rfl, rfl⟩
  · fin_cases j <;> fin_cases k
    · exact ⟨1, by norm_num⟩
    · exact ⟨0, by norm_num⟩
    · exact ⟨3, by show (2 / 3 : ℝ) = _; norm_num⟩
    · exact ⟨2, by show (1 : ℝ) = _; norm_num⟩
    · exact ⟨3, by show (0 : ℝ) = _; norm_num⟩
    · exact ⟨1, by norm_num⟩
    · exact ⟨2, by show (2 / 3 : ℝ) = _; norm_num⟩
    · exact ⟨0, by norm_num⟩
  · refine ⟨i.rev, fun j => ?_⟩
    fin_cases i <;> fin_cases j <;> norm_num [Fin.rev]
  · rw [mapDesign_unit]
    refine ⟨fun i j hij he => hij ?_, le_antisymm ((Matrix.rank_le_card_width _).trans (by simp)) ?_⟩
    · have := congrFun he 0
      fin_cases i <;> fin_cases j <;> first | rfl | norm_num at this
    · have hsub := Matrix.rank_submatrix_le (Matrix.of ![![1 / 3, (1 : ℝ)], ![0, 1 / 3], ![1, 2 / 3], ![2 / 3, 0]])
        ![(0 : Fin 4), 1] (Equiv.refl (Fin 2))
      refine le_trans ?_ hsub
      rw [Matrix.rank_of_isUnit]
      · simp
      · rw [Matrix.isUnit_iff_isUnit_det, Matrix.det_fin_two, isUnit_iff_ne_zero]
        norm_num

example : ∃ (D : Des 4 2) (rnd : List ((ℕ → ℕ → Bool) × (ℕ → Equiv.Perm (Fin (4 / 2))))) (X : Des 4 2) (ρ : Equiv.Perm (Fin 4)),
    rnd.length = 10 ∧ slhdPoints 4 2 rnd (some (![0, 0], ![1, 1])) [] = some X ∧ (∀ i, X i = D (ρ i)) ∧ D 0 0 = 1 / 3 := by
  obtain ⟨D, h1, h2, h3, _⟩ := square4
  obtain ⟨rnd, X, ρ, a, b, c⟩ := C124_result (by norm_num) D h1 _ _ h2 10 (by norm_num)
  rw [mapDesign_unit] at c
  exact ⟨D, rnd, X, ρ, a, b, c, h3⟩

/-- A Latin hypercube of two points on a line. -/
example : ∃ (u : Fin 2 → Fin 1 → ℝ) (σ : Fin 1 → Equiv.Perm (Fin 2)), (∀ i j, 0 ≤ u i j ∧ u i j < 1) ∧
    lhs 2 1 u σ = ![![3 / 4], ![1 / 5]] := by
  refine (C124_lhd (by norm_num) _).mp fun j k => ?_
  fin_cases j; fin_cases k
  · exact ⟨1, by norm_num⟩
  · exact ⟨0, by norm_num⟩

end Verif.Props
