import Verif.Props.Design
import Verif.Problems.Model

/-! # Property C102: designs and the origin of the variables -/

namespace Verif.Props

open Verif.Num Verif.Spec Verif.Utils Verif.Design

variable {n d : ℕ}

theorem mapDesign_cont (lb ub : Pt d) (D : Des n d) (i : Fin n) (j : Fin d) :
    mapDesign (some (lb, ub)) [] D i j = lb j + (ub j - lb j) * D i j := by
  simp only [mapDesign]; rw [C38_cont _ _ _ _ _ (by simp)]; rfl

theorem rank_scale (u : Fin d → ℝ) (hu : ∀ j, u j ≠ 0) (D : Des n d) :
    (Matrix.of fun i j => u j * D i j).rank = (Matrix.of D).rank := by
  have h : (Matrix.of fun i j => u j * D i j) = Matrix.of D * Matrix.diagonal u := by
    ext i j; rw [Matrix.mul_diagonal]; exact mul_comm _ _
  rw [h]
  apply Matrix.rank_mul_eq_left_of_isUnit_det
  rw [Matrix.det_diagonal, isUnit_iff_ne_zero]
  exact Finset.prod_ne_zero_iff.mpr fun j _ => hu j

/-- Multiplication by `c` of a score. -/
noncomputable def scoreMul (c : ℝ) : WithTop ℝ → WithTop ℝ := WithTop.map (c * ·)

theorem scoreMul_strictMono {c : ℝ} (hc : 0 < c) : StrictMono (scoreMul c) :=
  WithTop.strictMono_map_iff.mpr fun _ _ h => mul_lt_mul_of_pos_left h hc

theorem score_scale {c : ℝ} (hc : 0 < c) (D : Des n d) : score (fun i j => c * D i j) = scoreMul c (score D) := by
  unfold score
  rw [Finset.apply_inf_eq_inf_comp_of_linearOrder (g := scoreMul c) (mono_g := (scoreMul_strictMono hc).monotone) (top := rfl)]
  refine Finset.inf_congr rfl fun p _ => ?_
  simp only [Function.comp_apply]
  by_cases hp : p.1 = p.2
  · rw [if_pos hp, if_pos hp]; rfl
  · rw [if_neg hp, if_neg hp]
    simp only [scoreMul, WithTop.map_coe]
    congr 1
    unfold eucl
    rw [show (∑ i, (c * D p.1 i - c * D p.2 i) ^ 2) = c ^ 2 * ∑ i, (D p.1 i - D p.2 i) ^ 2 by
      rw [Finset.mul_sum]; exact Finset.sum_congr rfl fun i _ => by ring]
    rw [Real.sqrt_mul (sq_nonneg c), Real.sqrt_sq hc.le]

theorem foldl_pick_scale {c : ℝ} (hc : 0 < c) (Ds : List (Des n d)) (s : Option (Des n d) × WithTop ℝ) :
    (Ds.map fun D i j => c * D i j).foldl pickStep (s.1.map (fun D i j => c * D i j), scoreMul c s.2) =
      ((Ds.foldl pickStep s).1.map (fun D i j => c * D i j), scoreMul c (Ds.foldl pickStep s).2) := by
  induction Ds generalizing s with
  | nil => rfl
  | cons D Ds ih =>
    rw [List.map_cons, List.foldl_cons, List.foldl_cons, ← ih]
    congr 1
    have h1 : score (fun i j => c * D i j) > scoreMul c s.2 ↔ score D > s.2 := by
      rw [score_scale hc]; exact (scoreMul_strictMono hc).lt_iff_lt
    have h2 := rank_scale (fun _ => c) (fun _ => hc.ne') D
    simp only [pickStep]
    by_cases h : score D > s.2 ∧ (Matrix.of D).rank = d
    · rw [if_pos h, if_pos ⟨h1.mpr h.1, h2.trans h.2⟩, score_scale hc]; rfl
    · rw [if_neg h, if_neg (fun h' => h ⟨h1.mp h'.1, h2.symm.trans h'.2⟩)]

theorem expdes_scale {c : ℝ} (hc : 0 < c) (gens : List (Des n d)) (lb ub : Pt d) :
    expdesDist gens (some (fun j => c * lb j, fun j => c * ub j)) [] =
      (expdesDist gens (some (lb, ub)) []).map fun X i j => c * X i j := by
  have h := foldl_pick_scale hc (gens.map (mapDesign (some (lb, ub)) [])) (none, 0)
  have hm : (gens.map (mapDesign (some (lb, ub)) [])).map (fun D i j => c * D i j) =
      gens.map (mapDesign (some (fun j => c * lb j, fun j => c * ub j)) []) := by
    rw [List.map_map]
    refine List.map_congr_left fun D _ => ?_
    funext i j
    simp only [Function.comp_apply, mapDesign_cont]; ring
  rw [hm] at h
  have hz : scoreMul c 0 = 0 := by simp [scoreMul, ← WithTop.coe_zero]
  simp only [Option.map_none, hz] at h
  unfold expdesDist
  rw [h]

/-- Continuous variables: if all bounds are multiplied by the same `c > 0`, both hypercubes, with the same draws, return the
design with all points multiplied by `c`, or raise the exception together. -/
theorem C102_scale_partial {c : ℝ} (hc : 0 < c) (lb ub : Pt d) :
    (∀ rnd, slhdPoints n d rnd (some (fun j => c * lb j, fun j => c * ub j)) [] =
      (slhdPoints n d rnd (some (lb, ub)) []).map fun X i j => c * X i j) ∧
    ∀ rnd, lhdPoints n d rnd (some (fun j => c * lb j, fun j => c * ub j)) [] =
      (lhdPoints n d rnd (some (lb, ub)) []).map fun X i j => c * X i j :=
  ⟨fun _ => expdes_scale hc _ lb ub, fun _ => expdes_scale hc _ lb ub⟩

/-- Continuous variables: whether a valid design is found does not depend on the units of the single variables. -/
theorem C102_found_partial (u : Fin d → ℝ) (hu : ∀ j, u j ≠ 0) (lb ub : Pt d) :
    (∀ rnd, slhdPoints n d rnd (some (fun j => u j * lb j, fun j => u j * ub j)) [] = none ↔
      slhdPoints n d rnd (some (lb, ub)) [] = none) ∧
    ∀ rnd, lhdPoints n d rnd (some (fun j => u j * lb j, fun j => u j * ub j)) [] = none ↔
      lhdPoints n d rnd (some (lb, ub)) [] = none := by
  have key : ∀ gens : List (Des n d), expdesDist gens (some (fun j => u j * lb j, fun j => u j * ub j)) [] = none ↔
      expdesDist gens (some (lb, ub)) [] = none := by
    intro gens
    have hq : ∀ D : Des n d, Qualifies (fun i j => u j * D i j) ↔ Qualifies D := by
      intro D
      unfold Qualifies
      rw [rank_scale u hu]
      refine and_congr_left fun _ => ?_
      refine forall_congr' fun i => forall_congr' fun k => imp_congr_right fun _ => not_congr ?_
      constructor
      · intro h; funext j; exact mul_left_cancel₀ (hu j) (congrFun h j)
      · intro h; funext j; exact congrArg (u j * ·) (congrFun h j)
    have hm : gens.map (mapDesign (some (fun j => u j * lb j, fun j => u j * ub j)) []) =
        (gens.map (mapDesign (some (lb, ub)) [])).map fun D i j => u j * D i j := by
      rw [List.map_map]
      refine List.map_congr_left fun D _ => ?_
      funext i j
      simp only [Function.comp_apply, mapDesign_cont]; ring
    rw [(C45_select _ _ _).2, (C45_select _ _ _).2, hm]
    simp only [List.forall_mem_map, hq]
  exact ⟨fun _ => key _, fun _ => key _⟩

/-- The two-factorial design converts for any change of units and origin of the single variables. -/
theorem C102_twofactorial (u v lb ub : Pt d) :
    twoFactorialPoints d (some (fun j => u j * lb j + v j, fun j => u j * ub j + v j)) [] =
      (twoFactorialPoints d (some (lb, ub)) []).map fun x j => u j * x j + v j := by
  simp only [twoFactorialPoints, List.map_map]
  refine List.map_congr_left fun x _ => ?_
  funext j
  simp only [Function.comp_apply]
  rw [C38_cont _ _ _ _ _ (by simp), C38_cont _ _ _ _ _ (by simp)]
  simp only [fromUnitBox]; ring

/-- A symmetric Latin hypercube of fewer than `2 * dim` points on a domain that is symmetric about the origin (for instance
`[-1, 1]^d`): no design is ever accepted, whatever is drawn and however many iterations are made. -/
theorem C102_symmetric_refuted (hn : 2 ≤ n) (hd : n / 2 < d) (ub : Pt d) (h : ∀ j, 0 < ub j)
    (rnd : List ((ℕ → ℕ → Bool) × (ℕ → Equiv.Perm (Fin (n / 2))))) :
    slhdPoints n d rnd (some (fun j => -ub j, ub)) [] = none := by
  unfold slhdPoints
  rw [(C45_select _ _ _).2]
  intro X hX hq
  obtain ⟨D, hD, rfl⟩ := List.mem_map.mp hX
  obtain ⟨r, _, rfl⟩ := List.mem_map.mp hD
  obtain ⟨w, c, hw, hc⟩ := slhd_degenerate hn hd r.1 r.2
  -- the hyperplane passes through the center
  have hc2 : 2 * c = ∑ j, w j := by
    have h1 := hc ⟨0, by omega⟩
    have h2 := hc (Fin.rev ⟨0, by omega⟩)
    simp only [C43_symmetric hn] at h2
    have : ∑ j, w j * slhd n d r.1 r.2 ⟨0, by omega⟩ j + ∑ j, w j * (1 - slhd n d r.1 r.2 ⟨0, by omega⟩ j) = ∑ j, w j := by
      rw [← Finset.sum_add_distrib]
      exact Finset.sum_congr rfl fun j _ => by ring
    linarith
  -- the points are annihilated by a nonzero vector
  set M := Matrix.of (mapDesign (some (fun j => -ub j, ub)) [] (slhd n d r.1 r.2)) with hM
  have hker : M.mulVec (fun j => w j / ub j) = 0 := by
    funext i
    simp only [Matrix.mulVec, dotProduct, hM, Matrix.of_apply, mapDesign_cont, Pi.zero_apply]
    have : ∀ j, (-ub j + (ub j - -ub j) * slhd n d r.1 r.2 i j) * (w j / ub j) = 2 * (w j * slhd n d r.1 r.2 i j) - w j := by
      intro j
      have := (h j).ne'
      field_simp
      ring
    simp only [this, Finset.sum_sub_distrib, ← Finset.mul_sum, hc i, hc2, sub_self]
  have hrank : M.rank = d := hq.2
  have hinj : LinearMap.ker M.mulVecLin = ⊥ := by
    have h1 := LinearMap.finrank_range_add_finrank_ker M.mulVecLin
    have h2 : Module.finrank ℝ (LinearMap.range M.mulVecLin) = d := hrank
    rw [h2, Module.finrank_fintype_fun_eq_card, Fintype.card_fin] at h1
    exact Submodule.finrank_eq_zero.mp (by omega)
  have hmem : (fun j => w j / ub j) ∈ LinearMap.ker M.mulVecLin := by
    rw [LinearMap.mem_ker, Matrix.mulVecLin_apply]; exact hker
  rw [hinj, Submodule.mem_bot] at hmem
  apply hw
  funext j
  have h1 := congrFun hmem j
  have h2 := (h j).ne'
  simpa [h2] using h1

/-- In particular `dim + 1` points, the least number for a linear tail, in any dimension from 2 on. -/
theorem C102_minimal_refuted (hd : 2 ≤ d) (ub : Pt d) (h : ∀ j, 0 < ub j)
    (rnd : List ((ℕ → ℕ → Bool) × (ℕ → Equiv.Perm (Fin ((d + 1) / 2))))) :
    slhdPoints (d + 1) d rnd (some (fun j => -ub j, ub)) [] = none :=
  C102_symmetric_refuted (by omega) (by omega) ub h rnd

/-- Three points in two dimensions, the same draws: a design on `[0, 2]²`, an exception on `[-1, 1]²`. -/
theorem C102_shift_refuted : ∃ (rnd : List ((ℕ → ℕ → Bool) × (ℕ → Equiv.Perm (Fin (3 / 2))))) (X : Des 3 2),
    slhdPoints 3 2 rnd (some (fun _ => 0, fun _ => 2)) [] = some X ∧
    slhdPoints 3 2 rnd (some (fun _ => 0 + -1, fun _ => 2 + -1)) [] = none := by
  obtain ⟨X, hX, _⟩ := C66_instance_refuted
  refine ⟨[((fun _ _ => true), fun _ => 1)], fun i j => 2 * X i j, ?_, ?_⟩
  · have := (C102_scale_partial (n := 3) (d := 2) (c := 2) (by norm_num) ![0, 0] ![1, 1]).1 [((fun _ _ => true), fun _ => 1)]
    rw [hX] at this
    rw [← Option.map_some (f := fun X : Des 3 2 => fun i j => 2 * X i j), ← this]
    congr 3 <;> (funext j; fin_cases j <;> norm_num)
  · have := C102_symmetric_refuted (n := 3) (d := 2) (by norm_num) (by norm_num) (fun _ => 1) (fun _ => one_pos)
      [((fun _ _ => true), fun _ => 1)]
    rw [← this]
    norm_num

/-- Eleven of the test problems of the library have such a domain, in every dimension. -/
theorem C102_problems_refuted (hd : 2 ≤ d) (p : Problems.Problem)
    (hp : p ∈ [Problems.exponential d, Problems.griewank d, Problems.himmelblau d, Problems.levy d, Problems.perm d,
      Problems.rastrigin d, Problems.rosenbrock d, Problems.schwefel d, Problems.sphere d, Problems.sumOfSquares d,
      Problems.weierstrass d])
    (rnd : List ((ℕ → ℕ → Bool) × (ℕ → Equiv.Perm (Fin ((d + 1) / 2))))) :
    slhdPoints (d + 1) d rnd (some (fun j => p.lb.getD j 0, fun j => p.ub.getD j 0)) [] = none := by
  have key : ∀ b : ℝ, 0 < b → p.lb = Problems.const d (-b) → p.ub = Problems.const d b →
      slhdPoints (d + 1) d rnd (some (fun j => p.lb.getD j 0, fun j => p.ub.getD j 0)) [] = none := by
    intro b hb h1 h2
    rw [← C102_minimal_refuted hd (fun _ => b) (fun _ => hb) rnd, h1, h2]
    congr 3 <;> (funext j; simp [Problems.const, List.getD_eq_getElem?_getD])
  simp only [List.mem_cons, List.not_mem_nil, or_false] at hp
  rcases hp with rfl | rfl | rfl | rfl | rfl | rfl | rfl | rfl | rfl | rfl | rfl
  · exact key 5.12 (by norm_num) rfl rfl
  · exact key 512 (by norm_num) rfl rfl
  · exact key 5.12 (by norm_num) rfl rfl
  · exact key 5 (by norm_num) rfl rfl
  · exact key 5 (by norm_num) rfl rfl
  · exact key 5.12 (by norm_num) rfl rfl
  · exact key 2.048 (by norm_num) rfl rfl
  · exact key 512 (by norm_num) rfl rfl
  · exact key 5.12 (by norm_num) rfl rfl
  · exact key 5 (by norm_num) rfl rfl
  · exact key 5 (by norm_num) rfl rfl

end Verif.Props
