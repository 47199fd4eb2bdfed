import Verif.Props.SopRenumber
import Mathlib.LinearAlgebra.Matrix.Rank

/-! # Property C144: the experimental design and the orientation of the variables -/

namespace Verif.Props

open Verif.Num Verif.Utils Verif.Cand Verif.Design Verif.Strategy Verif.Spec Verif.Loop Verif.Sop

variable {d n : ℕ} (ε : Fin d → Bool)

/-- Two designs that differ in the signs of the variables and the order of the points. -/
def Mirrored (X Y : Des n d) : Prop := ∃ ρ : Equiv.Perm (Fin n), ∀ i, Y i = Loop.mirror ε (X (ρ i))

variable {ε}

theorem Mirrored.score {X Y : Des n d} (h : Mirrored ε X Y) : score Y = score X := by
  obtain ⟨ρ, h⟩ := h
  have he : ∀ i j, eucl (Y i) (Y j) = eucl (X (ρ i)) (X (ρ j)) := fun i j => by rw [h, h, eucl_mirror]
  unfold Design.score
  have hp : ∀ p : Fin n × Fin n, (if p.1 = p.2 then (⊤ : WithTop ℝ) else ((eucl (Y p.1) (Y p.2) : ℝ) : WithTop ℝ)) =
      if ρ p.1 = ρ p.2 then ⊤ else ((eucl (X (ρ p.1)) (X (ρ p.2)) : ℝ) : WithTop ℝ) := by
    intro p
    simp only [he, ρ.injective.eq_iff]
  apply le_antisymm
  · refine Finset.le_inf fun q _ => ?_
    have := Finset.inf_le (f := fun p : Fin n × Fin n => if p.1 = p.2 then (⊤ : WithTop ℝ) else
      ((eucl (Y p.1) (Y p.2) : ℝ) : WithTop ℝ)) (Finset.mem_univ (ρ.symm q.1, ρ.symm q.2))
    beta_reduce at this
    rw [hp] at this
    simpa using this
  · refine Finset.le_inf fun q _ => ?_
    rw [hp]
    exact Finset.inf_le (f := fun p : Fin n × Fin n => if p.1 = p.2 then (⊤ : WithTop ℝ) else
      ((eucl (X p.1) (X p.2) : ℝ) : WithTop ℝ)) (Finset.mem_univ (ρ q.1, ρ q.2))

theorem Mirrored.rank {X Y : Des n d} (h : Mirrored ε X Y) : (Matrix.of Y).rank = (Matrix.of X).rank := by
  obtain ⟨ρ, h⟩ := h
  have e : Matrix.of Y = (Matrix.of X).submatrix ρ (Equiv.refl _) * Matrix.diagonal (fun j => if ε j then (-1 : ℝ) else 1) := by
    ext i j
    rw [Matrix.mul_diagonal]
    show Y i j = X (ρ i) j * _
    rw [h]
    unfold Loop.mirror
    split_ifs <;> ring
  rw [e, Matrix.rank_mul_eq_left_of_isUnit_det, Matrix.rank_submatrix]
  rw [Matrix.det_diagonal, isUnit_iff_ne_zero, Finset.prod_ne_zero_iff]
  intro j _
  split_ifs <;> norm_num

theorem pick_mirror {G G' : List (Des n d)} (hG : List.Forall₂ (Mirrored ε) G G')
    {s s' : Option (Des n d) × WithTop ℝ} (h1 : Option.Rel (Mirrored ε) s.1 s'.1) (h2 : s'.2 = s.2) :
    Option.Rel (Mirrored ε) (G.foldl pickStep s).1 (G'.foldl pickStep s').1 := by
  induction hG generalizing s s' with
  | nil => exact h1
  | @cons X Y G G' hXY _ ih =>
    rw [List.foldl_cons, List.foldl_cons]
    have hc : (Design.score Y > s'.2 ∧ (Matrix.of Y).rank = d) ↔ (Design.score X > s.2 ∧ (Matrix.of X).rank = d) := by
      rw [hXY.score, hXY.rank, h2]
    unfold pickStep
    by_cases h : Design.score X > s.2 ∧ (Matrix.of X).rank = d
    · rw [if_pos h, if_pos (hc.mpr h)]
      exact ih (.some hXY) hXY.score
    · rw [if_neg h, if_neg (fun h' => h (hc.mp h'))]
      exact ih h1 h2

theorem fromUnitBox_mirror (lb ub u : Pt d) :
    fromUnitBox (mirrorUnit ε u) (fun i => if ε i then -ub i else lb i) (fun i => if ε i then -lb i else ub i) =
      Loop.mirror ε (fromUnitBox u lb ub) := by
  funext i
  simp only [fromUnitBox, mirrorUnit, Loop.mirror]
  split_ifs <;> ring

theorem mapDesign_mirror (p : OptProb d) (hb : ∀ i, p.lb i ≤ p.ub i) {X Y : Des n d} {ρ : Equiv.Perm (Fin n)}
    (h : ∀ i, Y i = mirrorUnit ε (X (ρ i))) (i : Fin n) :
    mapDesign (some ((p.mirror ε).lb, (p.mirror ε).ub)) (p.mirror ε).intVar Y i =
      Loop.mirror ε (mapDesign (some (p.lb, p.ub)) p.intVar X (ρ i)) := by
  simp only [mapDesign]
  rw [← roundVars_mirror ε p hb, h i, ← fromUnitBox_mirror]
  rfl

theorem expdes_mirror (p : OptProb d) (hb : ∀ i, p.lb i ≤ p.ub i) {G G' : List (Des n d)}
    (hG : List.Forall₂ (fun X Y : Des n d => ∃ ρ : Equiv.Perm (Fin n), ∀ i, Y i = mirrorUnit ε (X (ρ i))) G G') :
    Option.Rel (Mirrored ε) (expdesDist G (some (p.lb, p.ub)) p.intVar)
      (expdesDist G' (some ((p.mirror ε).lb, (p.mirror ε).ub)) (p.mirror ε).intVar) := by
  unfold expdesDist
  refine pick_mirror ?_ .none rfl
  rw [List.forall₂_map_left_iff, List.forall₂_map_right_iff]
  refine hG.imp fun X Y h => ?_
  obtain ⟨ρ, h⟩ := h
  exact ⟨ρ, fun i => mapDesign_mirror p hb h i⟩

/-- Symmetric Latin hypercube: the mirrored points are, in some order, a possible design of the mirrored problem. -/
theorem C144_slhd_partial (p : OptProb d) (hb : ∀ i, p.lb i ≤ p.ub i) (hn : 2 ≤ n)
    (rnd : List ((ℕ → ℕ → Bool) × (ℕ → Equiv.Perm (Fin (n / 2))))) (X : Des n d)
    (hX : slhdPoints n d rnd (some (p.lb, p.ub)) p.intVar = some X) :
    ∃ D', DesignOf (p.mirror ε) n D' ∧ D'.Perm ((List.ofFn X).map fun x i => if ε i then -x i else x i) := by
  have hex : ∀ r : (ℕ → ℕ → Bool) × (ℕ → Equiv.Perm (Fin (n / 2))), ∃ r' : (ℕ → ℕ → Bool) × (ℕ → Equiv.Perm (Fin (n / 2))),
      ∃ ρ : Equiv.Perm (Fin n), ∀ i, slhd n d r'.1 r'.2 i = mirrorUnit ε (slhd n d r.1 r.2 (ρ i)) := by
    intro r
    have hs : SymLatin (fun i => mirrorUnit ε (slhd n d r.1 r.2 i)) := by
      constructor
      · intro j k
        cases hj : ε j with
        | false =>
          obtain ⟨i, hi⟩ := (C43_latin hn r.1 r.2 j k k.2).exists
          exact ⟨i, by simp only [mirrorUnit, hj]; exact hi⟩
        | true =>
          obtain ⟨i, hi⟩ := (C43_latin hn r.1 r.2 j k k.2).exists
          refine ⟨i.rev, ?_⟩
          simp only [mirrorUnit, hj, if_true]
          rw [C43_symmetric hn, sub_sub_cancel]
          exact hi
      · intro i
        refine ⟨i.rev, fun j => ?_⟩
        simp only [mirrorUnit]
        rw [C43_symmetric hn]
        split_ifs <;> ring
    obtain ⟨ρ, coin, σ, h⟩ := (C124_exactly hn _).mp hs
    exact ⟨(coin, σ), ρ, h⟩
  choose g hg using hex
  have hrel := expdes_mirror (ε := ε) p hb (G := rnd.map fun r => slhd n d r.1 r.2) (G' := (rnd.map g).map fun r => slhd n d r.1 r.2)
    (by
      rw [List.map_map, List.forall₂_map_left_iff, List.forall₂_map_right_iff]
      exact List.forall₂_same.mpr fun r _ => hg r)
  unfold slhdPoints at hX
  rw [hX] at hrel
  rcases hY : expdesDist ((rnd.map g).map fun r => slhd n d r.1 r.2) (some ((p.mirror ε).lb, (p.mirror ε).ub)) (p.mirror ε).intVar
    with _ | Y
  · rw [hY] at hrel; cases hrel
  rw [hY] at hrel
  cases hrel with
  | some hR =>
    obtain ⟨ρ, hρ⟩ := hR
    refine ⟨List.ofFn Y, .inl ⟨hn, rnd.map g, Y, hY, rfl⟩, ?_⟩
    rw [List.map_ofFn, show Y = (fun i => Loop.mirror ε (X i)) ∘ ρ from funext fun i => hρ i]
    exact Equiv.Perm.ofFn_comp_perm ρ _

/-- Latin hypercube: the mirrored design is a possible design of the mirrored problem, if no point was drawn on the border of its
cell (which has probability zero). -/
theorem C144_lhd_partial (p : OptProb d) (hb : ∀ i, p.lb i ≤ p.ub i)
    (rnd : List ((Fin n → Fin d → ℝ) × (Fin d → Equiv.Perm (Fin n)))) (hu : ∀ r ∈ rnd, ∀ i j, 0 < r.1 i j ∧ r.1 i j < 1) (X : Des n d)
    (hX : lhdPoints n d rnd (some (p.lb, p.ub)) p.intVar = some X) :
    DesignOf (p.mirror ε) n ((List.ofFn X).map fun x i => if ε i then -x i else x i) := by
  let g : (Fin n → Fin d → ℝ) × (Fin d → Equiv.Perm (Fin n)) → (Fin n → Fin d → ℝ) × (Fin d → Equiv.Perm (Fin n)) := fun r =>
    (fun k j => if ε j then 1 - r.1 k.rev j else r.1 k j, fun j => if ε j then (r.2 j).trans Fin.revPerm else r.2 j)
  have hg : ∀ (r : (Fin n → Fin d → ℝ) × (Fin d → Equiv.Perm (Fin n))) (i : Fin n),
      lhs n d (g r).1 (g r).2 i = mirrorUnit ε (lhs n d r.1 r.2 i) := by
    intro r i
    funext j
    have hn : (n : ℝ) ≠ 0 := by
      have := i.2
      exact_mod_cast (by omega : n ≠ 0)
    simp only [lhs, mirrorUnit, g]
    by_cases hj : ε j = true
    · simp only [hj, if_true]
      rw [show ((r.2 j).trans Fin.revPerm) i = (r.2 j i).rev from rfl, Fin.rev_rev, Fin.val_rev, Nat.cast_sub (by omega)]
      push_cast
      field_simp
      ring
    · simp only [hj, if_false, Bool.false_eq_true]
  have key : ∀ (G : List (Des n d)) (s : Option (Des n d) × WithTop ℝ),
      (G.map fun X i => Loop.mirror ε (X i)).foldl pickStep (s.1.map fun X i => Loop.mirror ε (X i), s.2) =
        ((G.foldl pickStep s).1.map fun X i => Loop.mirror ε (X i), (G.foldl pickStep s).2) := by
    intro G
    induction G with
    | nil => intro s; rfl
    | cons X G ih =>
      intro s
      have hR : Mirrored ε X (fun i => Loop.mirror ε (X i)) := ⟨1, fun _ => rfl⟩
      rw [List.map_cons, List.foldl_cons, List.foldl_cons, ← ih]
      congr 1
      unfold pickStep
      rw [hR.score, hR.rank]
      dsimp only
      split_ifs <;> rfl
  refine .inr (.inl ⟨rnd.map g, fun i => Loop.mirror ε (X i), ?_, ?_, ?_⟩)
  · intro r' hr'
    obtain ⟨r, hr, rfl⟩ := List.mem_map.mp hr'
    intro i j
    have h1 := hu r hr i j
    have h2 := hu r hr i.rev j
    show 0 ≤ (if ε j then 1 - r.1 i.rev j else r.1 i j) ∧ (if ε j then 1 - r.1 i.rev j else r.1 i j) < 1
    split_ifs
    · exact ⟨by linarith [h2.2], by linarith [h2.1]⟩
    · exact ⟨h1.1.le, h1.2⟩
  · unfold lhdPoints expdesDist at hX ⊢
    have h := key ((rnd.map fun r => lhs n d r.1 r.2).map (mapDesign (some (p.lb, p.ub)) p.intVar)) (none, 0)
    rw [Option.map_none] at h
    have he : ((rnd.map g).map fun r => lhs n d r.1 r.2).map (mapDesign (some ((p.mirror ε).lb, (p.mirror ε).ub)) (p.mirror ε).intVar) =
        ((rnd.map fun r => lhs n d r.1 r.2).map (mapDesign (some (p.lb, p.ub)) p.intVar)).map fun X i => Loop.mirror ε (X i) := by
      simp only [List.map_map]
      apply List.map_congr_left
      intro r _
      funext i
      exact mapDesign_mirror p hb (ρ := 1) (hg r) i
    rw [he, h, hX]
    rfl
  · rw [List.map_ofFn]
    rfl

/-- Two-factorial design: the mirrored points are, in some order, the design of the mirrored problem. -/
theorem C144_two_factorial_partial (p : OptProb d) (hb : ∀ i, p.lb i ≤ p.ub i) (hd : twoFactorialInit d = some n) :
    ∃ D', DesignOf (p.mirror ε) n D' ∧
      D'.Perm ((twoFactorialPoints d (some (p.lb, p.ub)) p.intVar).map fun x i => if ε i then -x i else x i) := by
  refine ⟨_, .inr (.inr ⟨hd, rfl⟩), ?_⟩
  have hinj : Function.Injective (mirrorUnit (d := d) ε) := fun x y h => by
    funext i
    have := congrFun h i
    simp only [mirrorUnit] at this
    split_ifs at this
    · linarith
    · exact this
  have hmm : ∀ x : Pt d, mirrorUnit ε (mirrorUnit ε x) = x := fun x => by
    funext i
    simp only [mirrorUnit]
    split_ifs <;> ring
  have h01 : ∀ x : Pt d, x ∈ product01 d → mirrorUnit ε x ∈ product01 d := fun x h => by
    rw [mem_product01] at h ⊢
    intro j
    simp only [mirrorUnit]
    split_ifs
    · rcases h j with h | h <;> simp [h]
    · exact h j
  have hp : (product01 d).Perm ((product01 d).map (mirrorUnit ε)) := by
    refine (List.perm_ext_iff_of_nodup (nodup_product01 d) ((List.nodup_map_iff hinj).mpr (nodup_product01 d))).mpr fun x => ?_
    rw [List.mem_map]
    exact ⟨fun h => ⟨_, h01 x h, hmm x⟩, fun ⟨y, hy, h⟩ => h ▸ h01 y hy⟩
  refine (hp.map fun x => roundVars (fromUnitBox x (p.mirror ε).lb (p.mirror ε).ub) (p.mirror ε).intVar (p.mirror ε).lb
    (p.mirror ε).ub).trans ?_
  simp only [twoFactorialPoints, List.map_map]
  refine List.Perm.of_eq (List.map_congr_left fun x _ => ?_)
  simp only [Function.comp_apply]
  rw [show fromUnitBox (mirrorUnit ε x) (p.mirror ε).lb (p.mirror ε).ub = Loop.mirror ε (fromUnitBox x p.lb p.ub) from
    fromUnitBox_mirror p.lb p.ub x]
  exact roundVars_mirror ε p hb (fromUnitBox x p.lb p.ub)

/-- The order of the points is not preserved: on the interval `[0, 1]` the design `0, 1` is possible (symmetric Latin hypercube or
two-factorial design), on `[-1, 0]` the design `0, -1` is not. -/
theorem C144_design_refuted : DesignOf (d := 1) ⟨fun _ => 0, fun _ => 1, []⟩ 2 [fun _ => 0, fun _ => 1] ∧
    ¬ DesignOf (d := 1) ⟨fun _ => -1, fun _ => 0, []⟩ 2 [fun _ => -0, fun _ => -1] := by
  have hsel : ∀ {G : List (Des 2 1)} {X : Des 2 1}, expdesDist G (some ((fun _ => -1), (fun _ => 0))) [] = some X →
      [fun _ => -0, fun _ => -1] = List.ofFn X → ∃ Y ∈ G, Y 0 0 = 1 := by
    intro G X hX hD
    obtain ⟨hm, _⟩ := (C45_select _ _ _).1 _ hX
    obtain ⟨Y, hY, rfl⟩ := List.mem_map.mp hm
    refine ⟨Y, hY, ?_⟩
    rw [List.ofFn_succ] at hD
    have h := congrFun (List.cons.inj hD).1 0
    simp only [mapDesign, roundVars, fromUnitBox, List.length_nil, lt_irrefl, if_false, gt_iff_lt] at h
    linarith
  constructor
  · refine .inr (.inr ⟨rfl, ?_⟩)
    simp only [twoFactorialPoints, product01, roundVars]
    simp
    constructor <;> funext i <;> fin_cases i <;> simp [fromUnitBox]
  · rintro (⟨hn, rnd, X, hX, hD⟩ | ⟨rnd, X, hu, hX, hD⟩ | ⟨_, hD⟩)
    · obtain ⟨Y, hY, h⟩ := hsel hX hD
      obtain ⟨r, _, rfl⟩ := List.mem_map.mp hY
      rw [C124_sorted hn _ _ _ _ rfl] at h
      norm_num at h
    · obtain ⟨Y, hY, h⟩ := hsel hX hD
      obtain ⟨r, hr, rfl⟩ := List.mem_map.mp hY
      simp only [lhs] at h
      have h1 := (hu r hr (r.2 0 0) 0).2
      have h2 : ((r.2 0 0 : ℕ) : ℝ) ≤ 1 := by
        have := (r.2 0 0).2
        exact_mod_cast (by omega : (r.2 0 0 : ℕ) ≤ 1)
      push_cast at h
      linarith
    · have h := congrFun (List.cons.inj hD).1 0
      simp [roundVars, fromUnitBox] at h

end Verif.Props
