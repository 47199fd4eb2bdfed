import Verif.Design.Slhd
import Verif.Num.Spec
import Verif.Props.Utils
import Mathlib.Tactic.FieldSimp
import Mathlib.Tactic.FinCases

/-! # Properties C43–C45, C66: experimental designs -/

namespace Verif.Props

open Verif.Num Verif.Spec Verif.Utils Verif.Design

variable {n d : ℕ}

theorem pred_pos (hn : 2 ≤ n) : (0 : ℝ) < (n : ℝ) - 1 := by
  have : (2 : ℝ) ≤ n := by exact_mod_cast hn
  linarith

/-! ## C43 -/

/-- Latin: in each column each of the `n` equidistant levels `k / (n - 1)` is taken by exactly one point. -/
theorem C43_latin (hn : 2 ≤ n) (coin : ℕ → ℕ → Bool) (σ : ℕ → Equiv.Perm (Fin (n / 2))) (j : Fin d) (k : ℕ) (hk : k < n) :
    ∃! i : Fin n, slhd n d coin σ i j = k / ((n : ℝ) - 1) := by
  have hp := pred_pos hn
  have hiff : ∀ i : Fin n, slhd n d coin σ i j = k / ((n : ℝ) - 1) ↔ slhdArr n d coin σ i j = (k : ℤ) + 1 := by
    intro i
    rw [slhd_apply, div_left_inj' hp.ne', sub_eq_iff_eq_add]
    constructor
    · intro h; exact_mod_cast h
    · intro h; rw [h]; push_cast; ring
  obtain ⟨i, hi⟩ := slhdArr_surj n d coin σ j j.2 ⟨k, hk⟩
  refine ⟨i, (hiff i).mpr hi, fun i' hi' => ?_⟩
  exact Fin.ext (slhdArr_inj n d coin σ j j.2 i' i i'.2 i.2 (((hiff i').mp hi').trans hi.symm))

/-- Symmetric: the reflection of a point of the design about the center of the cube is the point in the mirrored row. -/
theorem C43_symmetric (hn : 2 ≤ n) (coin : ℕ → ℕ → Bool) (σ : ℕ → Equiv.Perm (Fin (n / 2))) (i : Fin n) (j : Fin d) :
    slhd n d coin σ i.rev j = 1 - slhd n d coin σ i j := by
  have hp := pred_pos hn
  obtain ⟨c, τ, _, h2⟩ := slhdArr_spec n d coin σ j j.2
  have h := h2 i i.2
  have hr : (i.rev : ℕ) = n - 1 - i := by simp [Fin.val_rev]; omega
  rw [slhd_apply, slhd_apply, hr]
  have h' : (slhdArr n d coin σ i j : ℝ) + slhdArr n d coin σ (n - 1 - i) j = (n : ℝ) + 1 := by exact_mod_cast h
  field_simp
  linarith

/-- In the unit cube. -/
theorem C43_cube (hn : 2 ≤ n) (coin : ℕ → ℕ → Bool) (σ : ℕ → Equiv.Perm (Fin (n / 2))) (i : Fin n) :
    InBox (fun _ => 0) (fun _ => 1) (slhd n d coin σ i) := by
  intro j
  have hp := pred_pos hn
  obtain ⟨h1, h2⟩ := slhdArr_range n d coin σ j j.2 i i.2
  have h1' : (1 : ℝ) ≤ slhdArr n d coin σ i j := by exact_mod_cast h1
  have h2' : (slhdArr n d coin σ i j : ℝ) ≤ n := by exact_mod_cast h2
  rw [slhd_apply]
  exact ⟨div_nonneg (by linarith) hp.le, by rw [div_le_one hp]; linarith⟩

/-- A concrete design: 3 points, 2 columns, the coin shows heads. -/
example : slhd 3 2 (fun _ _ => true) (fun _ => 1) = ![![0, 1], ![1 / 2, 1 / 2], ![1, 0]] := by
  funext i j
  fin_cases i <;> fin_cases j <;>
    norm_num [slhd, slhdBottom, slhdTop, slhdMiddle, slhdInit, slhdShuffle, slhdFill, setAt, List.range', List.range_succ]

/-! ## C44 -/

theorem mem_product01 (d : ℕ) (x : Pt d) : x ∈ product01 d ↔ ∀ j, x j = 0 ∨ x j = 1 := by
  induction d with
  | zero =>
    simp only [product01, List.mem_singleton]
    exact ⟨fun _ j => j.elim0, fun _ => funext fun j => j.elim0⟩
  | succ d ih =>
    simp only [product01, List.mem_flatMap, List.mem_map]
    constructor
    · rintro ⟨a, ha, r, hr, rfl⟩
      intro j
      refine Fin.cases ?_ (fun j => ?_) j
      · simpa using ha
      · simpa using (ih r).mp hr j
    · intro h
      refine ⟨x 0, by simpa using h 0, Fin.tail x, (ih _).mpr fun j => h j.succ, Fin.cons_self_tail x⟩

theorem length_product01 (d : ℕ) : (product01 d).length = 2 ^ d := by
  induction d with
  | zero => rfl
  | succ d ih => simp [product01, ih, pow_succ]; ring

theorem nodup_product01 (d : ℕ) : (product01 d).Nodup := by
  induction d with
  | zero => simp [product01]
  | succ d ih =>
    have hinj : ∀ x : ℝ, Function.Injective fun r : Pt d => (Fin.cons x r : Pt (d + 1)) :=
      fun x a b h => (Fin.cons_injective2 h).2
    simp only [product01, List.flatMap_cons, List.flatMap_nil, List.append_nil]
    rw [List.nodup_append]
    refine ⟨ih.map (hinj 0), ih.map (hinj 1), ?_⟩
    rintro a ha b hb rfl
    obtain ⟨r, _, rfl⟩ := List.mem_map.mp ha
    obtain ⟨r', _, h⟩ := List.mem_map.mp hb
    exact one_ne_zero (Fin.cons_injective2 h).1

/-- Without bounds: the corners of the unit cube, each once, `2 ^ dim` in number; dimension 15 or more is refused. -/
theorem C44_cube (d : ℕ) (iv : List (Fin d)) :
    (twoFactorialInit d = none ↔ 15 ≤ d) ∧ (d < 15 → twoFactorialInit d = some (twoFactorialPoints d none iv).length) ∧
    (twoFactorialPoints d none iv).length = 2 ^ d ∧ (twoFactorialPoints d none iv).Nodup ∧
    ∀ x, x ∈ twoFactorialPoints d none iv ↔ ∀ j, x j = 0 ∨ x j = 1 := by
  refine ⟨?_, ?_, length_product01 d, nodup_product01 d, mem_product01 d⟩
  · unfold twoFactorialInit; split <;> simp <;> omega
  · intro h
    rw [show (twoFactorialPoints d none iv).length = 2 ^ d from length_product01 d]
    unfold twoFactorialInit; rw [if_neg (by omega)]

theorem corner_map (lb ub : Pt d) (iv : List (Fin d)) (h : ∀ i, lb i < ub i)
    (hint : ∀ i ∈ iv, ∃ l u : ℤ, lb i = l ∧ ub i = u) (x : Pt d) (hx : ∀ j, x j = 0 ∨ x j = 1) (j : Fin d) :
    roundVars (fromUnitBox x lb ub) iv lb ub j = if x j = 0 then lb j else ub j := by
  have hf : fromUnitBox x lb ub j = if x j = 0 then lb j else ub j := by
    unfold fromUnitBox
    rcases hx j with h0 | h0 <;> simp [h0]
  rw [roundVars_apply, hf]
  split
  · rename_i hj
    obtain ⟨l, u, hl, hu⟩ := hint j hj
    have hlu := (h j).le
    rw [hl, hu] at hlu ⊢
    split
    · rw [rint_intCast]; unfold clip; rw [max_self, min_eq_left hlu]
    · rw [rint_intCast]; unfold clip; rw [max_eq_left hlu, min_self]
  · rfl

/-- With bounds (integers for the integer variables): the corners of the box, each once. -/
theorem C44_box (lb ub : Pt d) (iv : List (Fin d)) (h : ∀ i, lb i < ub i)
    (hint : ∀ i ∈ iv, ∃ l u : ℤ, lb i = l ∧ ub i = u) :
    (twoFactorialPoints d (some (lb, ub)) iv).length = 2 ^ d ∧ (twoFactorialPoints d (some (lb, ub)) iv).Nodup ∧
    ∀ x, x ∈ twoFactorialPoints d (some (lb, ub)) iv ↔ ∀ j, x j = lb j ∨ x j = ub j := by
  classical
  simp only [twoFactorialPoints]
  refine ⟨by rw [List.length_map, length_product01], ?_, fun x => ?_⟩
  · refine List.Nodup.map_on (fun x hx y hy hxy => ?_) (nodup_product01 d)
    rw [mem_product01] at hx hy
    funext j
    have := congrFun hxy j
    simp only [corner_map lb ub iv h hint x hx, corner_map lb ub iv h hint y hy] at this
    have hne := (h j).ne
    rcases hx j with h1 | h1 <;> rcases hy j with h2 | h2 <;> simp only [h1, h2, one_ne_zero, if_true, if_false] at this ⊢
    · exact absurd this hne
    · exact absurd this.symm hne
  · rw [List.mem_map]
    constructor
    · rintro ⟨y, hy, rfl⟩ j
      rw [mem_product01] at hy
      rw [corner_map lb ub iv h hint y hy]
      split <;> simp
    · intro hx
      refine ⟨fun j => if x j = lb j then 0 else 1, (mem_product01 d _).mpr fun j => ?_, ?_⟩
      · split <;> simp
      · funext j
        rw [corner_map lb ub iv h hint _ (fun j => by split <;> simp)]
        rcases hx j with h1 | h1
        · simp [h1]
        · simp [h1, (h j).ne']

example : (twoFactorialPoints 2 (some (![0, -1], ![3, 2])) [0]).length = 4 ∧
    ![3, -1] ∈ twoFactorialPoints 2 (some (![0, -1], ![3, 2])) [0] := by
  have := C44_box ![0, -1] ![3, 2] [(0 : Fin 2)] (by intro i; fin_cases i <;> norm_num) (by
    intro i hi; rw [List.mem_singleton] at hi; subst hi; exact ⟨0, 3, by simp, by simp⟩)
  refine ⟨by simpa using this.1, (this.2.2 _).mpr fun j => ?_⟩
  fin_cases j <;> simp

/-! ## C45 -/

/-- A design qualifies if its points are pairwise distinct and its matrix has full column rank. -/
def Qualifies (D : Des n d) : Prop := (∀ i j, i ≠ j → D i ≠ D j) ∧ (Matrix.of D).rank = d

/-- The minimum distance of `D` is at most that of `E`. -/
def MinDistLe (D E : Des n d) : Prop :=
  ∀ δ : ℝ, (∀ i j, i ≠ j → δ ≤ eucl (D i) (D j)) → ∀ i j, i ≠ j → δ ≤ eucl (E i) (E j)

theorem le_score (D : Des n d) (δ : ℝ) : (δ : WithTop ℝ) ≤ score D ↔ ∀ i j, i ≠ j → δ ≤ eucl (D i) (D j) := by
  unfold score
  rw [Finset.le_inf_iff]
  constructor
  · intro h i j hij
    have := h (i, j) (Finset.mem_univ _)
    rw [if_neg hij] at this
    exact WithTop.coe_le_coe.mp this
  · rintro h ⟨i, j⟩ _
    split
    · exact le_top
    · rename_i hij; exact WithTop.coe_le_coe.mpr (h i j hij)

theorem score_pos (D : Des n d) : 0 < score D ↔ ∀ i j, i ≠ j → D i ≠ D j := by
  unfold score
  rw [Finset.lt_inf_iff (by simp)]
  constructor
  · intro h i j hij he
    have := h (i, j) (Finset.mem_univ _)
    rw [if_neg hij, he, eucl_self] at this
    simp at this
  · rintro h ⟨i, j⟩ _
    split
    · simp
    · rename_i hij; exact WithTop.coe_pos.mpr (eucl_pos (h i j hij))

theorem minDistLe_of_score {D E : Des n d} (h : score D ≤ score E) : MinDistLe D E := by
  intro δ hδ
  exact (le_score E δ).mp (((le_score D δ).mpr hδ).trans h)

/-- Invariant of the selection loop. -/
theorem pick_spec (L : List (Des n d)) (s : Option (Des n d) × WithTop ℝ) (seen : List (Des n d))
    (h0 : 0 ≤ s.2) (h1 : ∀ X, s.1 = some X → X ∈ seen ∧ Qualifies X ∧ s.2 = score X)
    (h2 : s.1 = none → s.2 = 0) (h3 : ∀ c ∈ seen, (Matrix.of c).rank = d → score c ≤ s.2) :
    let r := L.foldl pickStep s
    0 ≤ r.2 ∧ (∀ X, r.1 = some X → X ∈ seen ++ L ∧ Qualifies X ∧ r.2 = score X) ∧ (r.1 = none → r.2 = 0) ∧
      ∀ c ∈ seen ++ L, (Matrix.of c).rank = d → score c ≤ r.2 := by
  induction L generalizing s seen with
  | nil =>
    refine ⟨h0, fun X hX => ?_, h2, by simpa using h3⟩
    simpa using h1 X hX
  | cons c L ih =>
    rw [List.foldl_cons, show seen ++ c :: L = (seen ++ [c]) ++ L by simp]
    by_cases hc : score c > s.2 ∧ (Matrix.of c).rank = d
    · have hstep : pickStep s c = (some c, score c) := by unfold pickStep; rw [if_pos hc]
      rw [hstep]
      refine ih _ _ (h0.trans hc.1.le) ?_ (by simp) ?_
      · intro X hX
        cases hX
        exact ⟨by simp, ⟨(score_pos c).mp (lt_of_le_of_lt h0 hc.1), hc.2⟩, rfl⟩
      · intro e he hr
        rcases List.mem_append.mp he with h | h
        · exact (h3 e h hr).trans hc.1.le
        · rw [List.mem_singleton] at h; subst h; exact le_rfl
    · have hstep : pickStep s c = s := by unfold pickStep; rw [if_neg hc]
      rw [hstep]
      refine ih _ _ h0 (fun X hX => ?_) h2 ?_
      · obtain ⟨a, b⟩ := h1 X hX; exact ⟨by simp [a], b⟩
      · intro e he hr
        rcases List.mem_append.mp he with h | h
        · exact h3 e h hr
        · rw [List.mem_singleton] at h; subst h
          by_contra hn; exact hc ⟨not_le.mp hn, hr⟩

/-- The design returned is one of those generated (mapped to the domain), qualifies, and its minimum distance is the
largest among the generated designs of full rank; an error is raised exactly if no generated design qualifies. -/
theorem C45_select (gens : List (Des n d)) (bounds : Option (Pt d × Pt d)) (iv : List (Fin d)) :
    (∀ X, expdesDist gens bounds iv = some X →
      X ∈ gens.map (mapDesign bounds iv) ∧ Qualifies X ∧
      ∀ c ∈ gens.map (mapDesign bounds iv), (Matrix.of c).rank = d → MinDistLe c X) ∧
    (expdesDist gens bounds iv = none ↔ ∀ c ∈ gens.map (mapDesign bounds iv), ¬ Qualifies c) := by
  obtain ⟨_, h2, h3, h4⟩ := pick_spec (gens.map (mapDesign bounds iv)) (none, 0) [] le_rfl (by simp) (by simp) (by simp)
  simp only [List.nil_append] at h2 h4
  refine ⟨fun X hX => ?_, ?_⟩
  · obtain ⟨a, b, c⟩ := h2 X hX
    exact ⟨a, b, fun e he hr => minDistLe_of_score (c ▸ h4 e he hr)⟩
  · constructor
    · rintro hn c hc ⟨hq, hr⟩
      have := h4 c hc hr
      rw [h3 hn] at this
      exact absurd ((score_pos c).mpr hq) (not_lt.mpr this)
    · intro hn
      rw [Option.eq_none_iff_forall_ne_some]
      intro X hX
      obtain ⟨a, b, _⟩ := h2 X hX
      exact hn X a b

theorem mapDesign_box (lb ub : Pt d) (iv : List (Fin d)) (h : ∀ i, lb i < ub i)
    (hint : ∀ i ∈ iv, ∃ l u : ℤ, lb i = l ∧ ub i = u) (D : Des n d)
    (hD : ∀ i, InBox (fun _ => 0) (fun _ => 1) (D i)) (i : Fin n) :
    InBox lb ub (mapDesign (some (lb, ub)) iv D i) ∧ IntegerOn iv (mapDesign (some (lb, ub)) iv D i) := by
  have hb := (C36_box (D i) lb ub h).2.mp (hD i)
  constructor
  · intro j
    by_cases hj : j ∈ iv
    · obtain ⟨l, u, hl, hu⟩ := hint j hj
      have hlu : l ≤ u := by have := (h j).le; rw [hl, hu] at this; exact_mod_cast this
      obtain ⟨y, hy, h1, h2, _⟩ := C38_closest (fromUnitBox (D i) lb ub) lb ub iv j hj l u hl hu hlu
      show lb j ≤ roundVars (fromUnitBox (D i) lb ub) iv lb ub j ∧ roundVars (fromUnitBox (D i) lb ub) iv lb ub j ≤ ub j
      rw [hy, hl, hu]
      exact ⟨by exact_mod_cast h1, by exact_mod_cast h2⟩
    · show lb j ≤ roundVars (fromUnitBox (D i) lb ub) iv lb ub j ∧ roundVars (fromUnitBox (D i) lb ub) iv lb ub j ≤ ub j
      rw [C38_cont _ _ _ _ _ hj]
      exact hb j
  · intro j hj
    obtain ⟨l, u, hl, hu⟩ := hint j hj
    have hlu : l ≤ u := by have := (h j).le; rw [hl, hu] at this; exact_mod_cast this
    obtain ⟨y, hy, _⟩ := C38_closest (fromUnitBox (D i) lb ub) lb ub iv j hj l u hl hu hlu
    exact ⟨y, hy⟩

/-- Every design returned by the symmetric Latin hypercube satisfies the bounds and integrality. -/
theorem C45_slhd (hn : 2 ≤ n) (lb ub : Pt d) (iv : List (Fin d)) (h : ∀ i, lb i < ub i)
    (hint : ∀ i ∈ iv, ∃ l u : ℤ, lb i = l ∧ ub i = u)
    (rnd : List ((ℕ → ℕ → Bool) × (ℕ → Equiv.Perm (Fin (n / 2))))) (X : Des n d)
    (hX : slhdPoints n d rnd (some (lb, ub)) iv = some X) (i : Fin n) : InBox lb ub (X i) ∧ IntegerOn iv (X i) := by
  obtain ⟨hm, _⟩ := (C45_select _ _ _).1 X hX
  obtain ⟨D, hD, rfl⟩ := List.mem_map.mp hm
  obtain ⟨r, _, rfl⟩ := List.mem_map.mp hD
  exact mapDesign_box lb ub iv h hint _ (fun i => C43_cube hn _ _ i) i

/-- The same for the Latin hypercube (`u` are the outcomes of `np.random.rand`). -/
theorem C45_lhd (lb ub : Pt d) (iv : List (Fin d)) (h : ∀ i, lb i < ub i)
    (hint : ∀ i ∈ iv, ∃ l u : ℤ, lb i = l ∧ ub i = u)
    (rnd : List ((Fin n → Fin d → ℝ) × (Fin d → Equiv.Perm (Fin n)))) (hu : ∀ r ∈ rnd, ∀ i j, 0 ≤ r.1 i j ∧ r.1 i j < 1)
    (X : Des n d) (hX : lhdPoints n d rnd (some (lb, ub)) iv = some X) (i : Fin n) :
    InBox lb ub (X i) ∧ IntegerOn iv (X i) := by
  obtain ⟨hm, _⟩ := (C45_select _ _ _).1 X hX
  obtain ⟨D, hD, rfl⟩ := List.mem_map.mp hm
  obtain ⟨r, hr, rfl⟩ := List.mem_map.mp hD
  refine mapDesign_box lb ub iv h hint _ (fun i j => ?_) i
  have hn : (0 : ℝ) < n := by exact_mod_cast i.pos
  obtain ⟨h1, h2⟩ := hu r hr (r.2 j i) j
  have h3 : ((r.2 j i : ℕ) : ℝ) + 1 ≤ n := by exact_mod_cast (r.2 j i).2
  unfold lhs
  refine ⟨div_nonneg (by positivity) hn.le, ?_⟩
  rw [div_le_one hn]; linarith

/-! ## C66: affine independence -/

/-- The points of the design lie on a common hyperplane: no linear polynomial tail can be fitted on them. -/
def Degenerate (X : Des n d) : Prop := ∃ (w : Fin d → ℝ) (c : ℝ), w ≠ 0 ∧ ∀ i, ∑ j, w j * X i j = c

theorem slhd_degenerate (hn : 2 ≤ n) (hd : n / 2 < d) (coin : ℕ → ℕ → Bool) (σ : ℕ → Equiv.Perm (Fin (n / 2))) :
    Degenerate (slhd n d coin σ) := by
  let A : Matrix (Fin (n / 2)) (Fin d) ℝ := Matrix.of fun i j => slhd n d coin σ ⟨i, by omega⟩ j - 1 / 2
  have hker : LinearMap.ker A.mulVecLin ≠ ⊥ := by
    apply LinearMap.ker_ne_bot_of_finrank_lt
    simpa using hd
  obtain ⟨w, hw, hw0⟩ := (Submodule.ne_bot_iff _).mp hker
  refine ⟨w, ∑ j, w j * (1 / 2), hw0, fun i => ?_⟩
  have htop : ∀ i : Fin n, (i : ℕ) < n / 2 → ∑ j, w j * (slhd n d coin σ i j - 1 / 2) = 0 := by
    intro i hi
    have := congrFun (LinearMap.mem_ker.mp hw) ⟨i, hi⟩
    simp only [Matrix.mulVecLin_apply, Matrix.mulVec, dotProduct, A, Matrix.of_apply, Pi.zero_apply] at this
    rw [← this]
    exact Finset.sum_congr rfl fun j _ => mul_comm _ _
  have hall : ∑ j, w j * (slhd n d coin σ i j - 1 / 2) = 0 := by
    by_cases h1 : (i : ℕ) < n / 2
    · exact htop i h1
    · have hrev : ∀ j, slhd n d coin σ i j - 1 / 2 = -(slhd n d coin σ i.rev j - 1 / 2) := by
        intro j; rw [C43_symmetric hn]; ring
      simp only [hrev, mul_neg, Finset.sum_neg_distrib]
      by_cases h2 : ((i.rev : Fin n) : ℕ) < n / 2
      · rw [htop _ h2, neg_zero]
      · have : i.rev = i := by apply Fin.ext; simp only [Fin.val_rev] at h2 ⊢; omega
        have hz : ∀ j, slhd n d coin σ i.rev j - 1 / 2 = 0 := by
          intro j
          have := hrev j
          rw [‹i.rev = i›] at this ⊢
          linarith
        rw [Finset.sum_eq_zero (fun j _ => by rw [hz j, mul_zero]), neg_zero]
  have : ∑ j, w j * slhd n d coin σ i j - ∑ j, w j * (1 / 2) = 0 := by
    rw [← Finset.sum_sub_distrib, ← hall]
    exact Finset.sum_congr rfl fun j _ => by ring
  linarith

/-- Every symmetric Latin hypercube with fewer than `2 * dim` points (continuous variables) lies on a hyperplane, however
many iterations are made: the selection by rank does not prevent it.  So `dim + 1` points are not enough for a linear tail. -/
theorem C66_slhd_refuted (hn : 2 ≤ n) (hd : n / 2 < d) (lb ub : Pt d) (h : ∀ i, lb i < ub i)
    (rnd : List ((ℕ → ℕ → Bool) × (ℕ → Equiv.Perm (Fin (n / 2))))) (X : Des n d)
    (hX : slhdPoints n d rnd (some (lb, ub)) [] = some X) : Degenerate X := by
  obtain ⟨hm, _⟩ := (C45_select _ _ _).1 X hX
  obtain ⟨D, hD, rfl⟩ := List.mem_map.mp hm
  obtain ⟨r, _, rfl⟩ := List.mem_map.mp hD
  obtain ⟨w, c, hw, hc⟩ := slhd_degenerate hn hd r.1 r.2
  refine ⟨fun j => w j / (ub j - lb j), ∑ j, w j / (ub j - lb j) * lb j + c, ?_, fun i => ?_⟩
  · intro h0
    apply hw
    funext j
    have := congrFun h0 j
    have hp := sub_pos.mpr (h j)
    simp only [Pi.zero_apply, div_eq_zero_iff] at this
    rcases this with h1 | h1
    · exact h1
    · exact absurd h1 hp.ne'
  · rw [← hc i, ← Finset.sum_add_distrib]
    refine Finset.sum_congr rfl fun j _ => ?_
    have hp := (sub_pos.mpr (h j)).ne'
    have : mapDesign (some (lb, ub)) [] (slhd n d r.1 r.2) i j = lb j + (ub j - lb j) * slhd n d r.1 r.2 i j := by
      simp only [mapDesign]; rw [C38_cont _ _ _ _ _ (by simp)]; rfl
    rw [this]
    field_simp

/-- Three points in two dimensions: the design is returned, and is degenerate although it has `dim + 1` points. -/
theorem C66_instance_refuted : ∃ X : Des 3 2,
    slhdPoints 3 2 [((fun _ _ => true), fun _ => 1)] (some (![0, 0], ![1, 1])) [] = some X ∧ Degenerate X := by
  have hD : mapDesign (some (![0, 0], ![1, 1])) [] (slhd 3 2 (fun _ _ => true) (fun _ => 1)) =
      ![![0, 1], ![1 / 2, 1 / 2], ![1, 0]] := by
    funext i j
    simp only [mapDesign]
    rw [C38_cont _ _ _ _ _ (by simp)]
    fin_cases i <;> fin_cases j <;>
      norm_num [fromUnitBox, slhd, slhdBottom, slhdTop, slhdMiddle, slhdInit, slhdShuffle, slhdFill, setAt, List.range',
        List.range_succ]
  rcases hX : slhdPoints 3 2 [((fun _ _ => true), fun _ => 1)] (some (![0, 0], ![1, 1])) [] with _ | X
  · exfalso
    refine ((C45_select _ _ _).2.mp hX) _ (List.mem_map.mpr ⟨_, List.mem_singleton.mpr rfl, rfl⟩) ⟨?_, ?_⟩
    · rw [hD]
      intro i j hij he
      have := congrFun he 0
      fin_cases i <;> fin_cases j <;> first | exact hij rfl | (norm_num at this)
    · rw [hD]
      apply le_antisymm
      · exact (Matrix.rank_le_card_width _).trans (by simp)
      · -- the first and the last row are independent
        have hsub : (Matrix.of ![![0, 1], ![1, 0]] : Matrix (Fin 2) (Fin 2) ℝ).rank ≤
            (Matrix.of ![![0, 1], ![1 / 2, 1 / 2], ![1, 0]] : Matrix (Fin 3) (Fin 2) ℝ).rank := by
          have : (Matrix.of ![![0, 1], ![1, 0]] : Matrix (Fin 2) (Fin 2) ℝ) =
              (Matrix.of ![![0, 1], ![1 / 2, 1 / 2], ![1, 0]] : Matrix (Fin 3) (Fin 2) ℝ).submatrix ![0, 2] (Equiv.refl _) := by
            ext i j; fin_cases i <;> fin_cases j <;> simp
          rw [this]
          exact Matrix.rank_submatrix_le _ _ _
        refine le_trans ?_ hsub
        rw [Matrix.rank_of_isUnit]
        · simp
        · rw [Matrix.isUnit_iff_isUnit_det]
          simp [Matrix.det_fin_two]
  · exact ⟨X, rfl, C66_slhd_refuted (by norm_num) (by norm_num) ![0, 0] ![1, 1]
      (by intro i; fin_cases i <;> norm_num) _ X hX⟩

/-- A design on the antidiagonal of the unit square with pairwise distinct points qualifies. -/
theorem antidiag_qualifies {D : Des n 2} (hn : 2 ≤ n) (h1 : ∀ i, D i 1 = 1 - D i 0)
    (h0 : ∀ i k, i ≠ k → D i 0 ≠ D k 0) : Qualifies D := by
  refine ⟨fun i k hik he => h0 i k hik (congrFun he 0), le_antisymm ?_ ?_⟩
  · exact (Matrix.rank_le_card_width _).trans (by simp)
  · have hsub := Matrix.rank_submatrix_le (Matrix.of D) ![(⟨0, by omega⟩ : Fin n), ⟨1, by omega⟩] (Equiv.refl (Fin 2))
    refine le_trans ?_ hsub
    rw [Matrix.rank_of_isUnit]
    · simp
    · rw [Matrix.isUnit_iff_isUnit_det, Matrix.det_fin_two, isUnit_iff_ne_zero]
      have hne := h0 ⟨0, by omega⟩ ⟨1, by omega⟩ (by simp)
      simp only [Matrix.submatrix_apply, Matrix.of_apply, Matrix.cons_val_zero, Matrix.cons_val_one, Equiv.refl_apply, h1]
      intro hz
      apply hne
      linarith

theorem mapDesign_unit (D : Des n 2) : mapDesign (some (![0, 0], ![1, 1])) [] D = D := by
  funext i j
  simp only [mapDesign]
  rw [C38_cont _ _ _ _ _ (by simp)]
  fin_cases j <;> simp [fromUnitBox]

/-- If every iteration generates the same antidiagonal design, then that design is returned. -/
theorem expdes_antidiag {D : Des n 2} (hn : 2 ≤ n) (h1 : ∀ i, D i 1 = 1 - D i 0) (h0 : ∀ i k, i ≠ k → D i 0 ≠ D k 0)
    (gens : List (Des n 2)) (hg : gens ≠ []) (hall : ∀ g ∈ gens, g = D) :
    expdesDist gens (some (![0, 0], ![1, 1])) [] = some D ∧ Degenerate D := by
  refine ⟨?_, ![1, 1], 1, by intro h; have := congrFun h 0; simp at this, fun i => by simp [Fin.sum_univ_two, h1]⟩
  rcases hX : expdesDist gens (some (![0, 0], ![1, 1])) [] with _ | X
  · exfalso
    obtain ⟨g, hgm⟩ := List.exists_mem_of_ne_nil _ hg
    refine (C45_select _ _ _).2.mp hX _ (List.mem_map.mpr ⟨g, hgm, rfl⟩) ?_
    rw [mapDesign_unit, hall g hgm]
    exact antidiag_qualifies hn h1 h0
  · obtain ⟨hm, _⟩ := (C45_select _ _ _).1 X hX
    obtain ⟨g, hgm, rfl⟩ := List.mem_map.mp hm
    rw [mapDesign_unit, hall g hgm]

/-- No number of points is enough: for every `n ≥ 2` and every number of iterations there are random choices for which the
symmetric Latin hypercube in two dimensions is returned and lies on a line. -/
theorem C66_any_size_refuted (hn : 2 ≤ n) (iterations : ℕ) (hi : 1 ≤ iterations) :
    ∃ (rnd : List ((ℕ → ℕ → Bool) × (ℕ → Equiv.Perm (Fin (n / 2))))) (X : Des n 2),
      rnd.length = iterations ∧ slhdPoints n 2 rnd (some (![0, 0], ![1, 1])) [] = some X ∧ Degenerate X := by
  have hp := pred_pos hn
  have hA : ∀ i, i < n → slhdArr n 2 (fun _ _ => true) (fun _ => 1) i 0 + slhdArr n 2 (fun _ _ => true) (fun _ => 1) i 1
      = (n : ℤ) + 1 := by
    intro i hi
    obtain ⟨c0, t0, ⟨e0, _⟩, a0, b0⟩ := slhdArr_spec' n 2 (fun _ _ => true) (fun _ => 1) 0 (by norm_num)
    obtain ⟨c1, t1, ⟨_, e1⟩, a1, b1⟩ := slhdArr_spec' n 2 (fun _ _ => true) (fun _ => 1) 1 (by norm_num)
    obtain ⟨rfl, rfl⟩ := e0 rfl
    obtain ⟨rfl, rfl⟩ := e1 one_ne_zero
    have htop : ∀ k, k < n / 2 → slhdArr n 2 (fun _ _ => true) (fun _ => 1) k 0
        + slhdArr n 2 (fun _ _ => true) (fun _ => 1) k 1 = (n : ℤ) + 1 := by
      intro k hk
      rw [a0 k hk, a1 k hk]
      simp [topVal]; ring
    by_cases h1 : i < n / 2
    · exact htop i h1
    · have s0 := b0 i hi
      have s1 := b1 i hi
      by_cases h2 : n - 1 - i < n / 2
      · have := htop _ h2
        linarith
      · rw [show n - 1 - i = i by omega] at s0 s1
        linarith
  refine ⟨List.replicate iterations (fun _ _ => true, fun _ => 1), slhd n 2 (fun _ _ => true) (fun _ => 1),
    List.length_replicate, ?_⟩
  refine expdes_antidiag hn ?_ ?_ _ ?_ ?_
  · intro i
    have := hA i i.2
    have h' : (slhdArr n 2 (fun _ _ => true) (fun _ => 1) i 0 : ℝ) + slhdArr n 2 (fun _ _ => true) (fun _ => 1) i 1
        = (n : ℝ) + 1 := by exact_mod_cast this
    rw [slhd_apply, slhd_apply]
    simp only [Fin.val_zero, Fin.val_one]
    rw [eq_sub_iff_add_eq, ← add_div, div_eq_one_iff_eq hp.ne']
    linarith
  · intro i k hik he
    rw [slhd_apply, slhd_apply, div_left_inj' hp.ne'] at he
    apply hik
    apply Fin.ext
    apply slhdArr_inj n 2 (fun _ _ => true) (fun _ => 1) 0 (by norm_num) i k i.2 k.2
    have : (slhdArr n 2 (fun _ _ => true) (fun _ => 1) i 0 : ℝ) = slhdArr n 2 (fun _ _ => true) (fun _ => 1) k 0 := by
      simpa using he
    exact_mod_cast this
  · simp; omega
  · intro g hg
    obtain ⟨r, hr, rfl⟩ := List.mem_map.mp hg
    rw [List.eq_of_mem_replicate hr]

/-- The same for the Latin hypercube: draws in the middle of the intervals, the second column in reverse order. -/
theorem C66_lhd_refuted (hn : 2 ≤ n) (iterations : ℕ) (hi : 1 ≤ iterations) :
    ∃ (rnd : List ((Fin n → Fin 2 → ℝ) × (Fin 2 → Equiv.Perm (Fin n)))) (X : Des n 2),
      rnd.length = iterations ∧ (∀ r ∈ rnd, ∀ i j, 0 ≤ r.1 i j ∧ r.1 i j < 1) ∧
      lhdPoints n 2 rnd (some (![0, 0], ![1, 1])) [] = some X ∧ Degenerate X := by
  have hp : (0 : ℝ) < n := by exact_mod_cast (by omega : 0 < n)
  refine ⟨List.replicate iterations (fun _ _ => 1 / 2, ![1, Fin.revPerm]), lhs n 2 (fun _ _ => 1 / 2) ![1, Fin.revPerm],
    List.length_replicate, ?_, ?_⟩
  · intro r hr i j
    rw [List.eq_of_mem_replicate hr]
    norm_num
  refine expdes_antidiag hn ?_ ?_ _ ?_ ?_
  · intro i
    have h : ((i.rev : Fin n) : ℕ) + i + 1 = n := by rw [Fin.val_rev]; omega
    have h' : (((i.rev : Fin n) : ℕ) : ℝ) + (i : ℕ) + 1 = n := by exact_mod_cast h
    simp only [lhs, Matrix.cons_val_zero, Matrix.cons_val_one, Equiv.Perm.one_apply, Fin.revPerm_apply]
    rw [eq_sub_iff_add_eq, ← add_div, div_eq_one_iff_eq hp.ne']
    linarith
  · intro i k hik he
    simp only [lhs, Matrix.cons_val_zero, Equiv.Perm.one_apply] at he
    rw [div_left_inj' hp.ne', add_left_inj] at he
    exact hik (Fin.ext (by exact_mod_cast he))
  · simp; omega
  · intro g hg
    obtain ⟨r, hr, rfl⟩ := List.mem_map.mp hg
    rw [List.eq_of_mem_replicate hr]

/-- The two-factorial design is never degenerate. -/
theorem C66_twofactorial_partial (lb ub : Pt d) (h : ∀ i, lb i < ub i) (w : Fin d → ℝ) (c : ℝ)
    (hw : ∀ x ∈ twoFactorialPoints d (some (lb, ub)) [], ∑ j, w j * x j = c) : w = 0 := by
  classical
  have hm := (C44_box lb ub [] h (by simp)).2.2
  funext k
  have h1 := hw lb ((hm _).mpr fun j => .inl rfl)
  have h2 := hw (Function.update lb k (ub k)) ((hm _).mpr fun j => by
    by_cases hj : j = k
    · subst hj; simp
    · simp [hj])
  have h3 : ∑ j, w j * (Function.update lb k (ub k) j - lb j) = 0 := by
    simp only [mul_sub, Finset.sum_sub_distrib]; linarith
  rw [Finset.sum_eq_single k] at h3
  · rw [Function.update_self] at h3
    rcases mul_eq_zero.mp h3 with h4 | h4
    · exact h4
    · exact absurd h4 (sub_pos.mpr (h k)).ne'
  · intro j _ hj
    rw [Function.update_of_ne hj]; ring
  · simp

end Verif.Props
