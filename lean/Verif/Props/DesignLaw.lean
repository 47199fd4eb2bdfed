import Verif.Props.DesignAll
import Mathlib.Probability.Distributions.Uniform
import Mathlib.Data.Fintype.Perm

/-! # Property C129: the law of the symmetric Latin hypercube -/

namespace Verif.Props

open Verif.Num Verif.Spec Verif.Utils Verif.Design
open scoped ENNReal

variable {n d : ℕ}

/-- The random outcomes one run of the generator uses (slhd.py:71-77): for each variable but the first, a coin for each of the
`n / 2` mirror pairs of levels and the outcome of the shuffle. -/
abbrev SlhdDraws (n d : ℕ) := Fin (d - 1) → (Fin (n / 2) → Bool) × Equiv.Perm (Fin (n / 2))

/-- The coins as the loop reads them; coins that are never tossed are `false`. (slhd.py:72-76.) -/
def drawnCoin (r : SlhdDraws n d) (s j : ℕ) : Bool :=
  if h : s < n / 2 ∧ 1 ≤ j ∧ j - 1 < d - 1 then (r ⟨j - 1, h.2.2⟩).1 ⟨s, h.1⟩ else false

/-- The shuffles as the loop reads them. (slhd.py:77.) -/
def drawnPerm (r : SlhdDraws n d) (j : ℕ) : Equiv.Perm (Fin (n / 2)) :=
  if h : 1 ≤ j ∧ j - 1 < d - 1 then (r ⟨j - 1, h.2⟩).2 else 1

/-- The design generated with these outcomes. (slhd.py:52-83.) -/
noncomputable def slhdOf (r : SlhdDraws n d) : Des n d := slhd n d (drawnCoin r) (drawnPerm r)

/-- The design depends on the outcomes listed in `SlhdDraws` only. -/
theorem slhd_congr {coin coin' : ℕ → ℕ → Bool} {σ σ' : ℕ → Equiv.Perm (Fin (n / 2))}
    (hc : ∀ s j, s < n / 2 → 1 ≤ j → j < d → coin s j = coin' s j) (hσ : ∀ j, 1 ≤ j → j < d → σ j = σ' j) :
    slhd n d coin σ = slhd n d coin' σ' := by
  have top : ∀ i j, i < n / 2 → j < d → slhdArr n d coin σ i j = slhdArr n d coin' σ' i j := by
    intro i j hi hj
    obtain ⟨c, τ, ⟨hz, hnz⟩, ht, -⟩ := slhdArr_spec' n d coin σ j hj
    obtain ⟨c', τ', ⟨hz', hnz'⟩, ht', -⟩ := slhdArr_spec' n d coin' σ' j hj
    rw [ht i hi, ht' i hi]
    by_cases h0 : j = 0
    · obtain ⟨rfl, rfl⟩ := hz h0
      obtain ⟨rfl, rfl⟩ := hz' h0
      rfl
    · obtain ⟨rfl, rfl⟩ := hnz h0
      obtain ⟨rfl, rfl⟩ := hnz' h0
      rw [hσ j (by omega) hj]
      unfold topVal
      beta_reduce
      rw [hc _ j (σ' j ⟨i, hi⟩).2 (by omega) hj]
  funext i j
  rw [slhd_apply, slhd_apply]
  suffices h : slhdArr n d coin σ i j = slhdArr n d coin' σ' i j by
    show (((slhdArr n d coin σ i j : ℤ) : ℝ) - 1) / _ = (((slhdArr n d coin' σ' i j : ℤ) : ℝ) - 1) / _
    rw [h]
  by_cases hi : i.1 < n / 2
  · exact top i j hi j.2
  · obtain ⟨-, -, -, -, hs⟩ := slhdArr_spec' n d coin σ j j.2
    obtain ⟨-, -, -, -, hs'⟩ := slhdArr_spec' n d coin' σ' j j.2
    have h1 := hs i i.2
    have h2 := hs' i i.2
    by_cases hi' : n - 1 - i.1 < n / 2
    · have := top _ j hi' j.2
      omega
    · have : n - 1 - i.1 = i.1 := by have := i.2; omega
      rw [this] at h1 h2
      omega

/-- Whatever the outcomes, the design is one of those described by `SlhdDraws`. -/
theorem slhd_drawn (coin : ℕ → ℕ → Bool) (σ : ℕ → Equiv.Perm (Fin (n / 2))) :
    slhd n d coin σ = slhdOf fun j : Fin (d - 1) => (fun s => coin s (j + 1), σ (j + 1)) := by
  refine slhd_congr (fun s j hs h1 hj => ?_) fun j h1 hj => ?_
  · have h : s < n / 2 ∧ 1 ≤ j ∧ j - 1 < d - 1 := ⟨hs, h1, by omega⟩
    rw [drawnCoin, dif_pos h]
    show _ = coin s (j - 1 + 1)
    rw [Nat.sub_add_cancel h1]
  · have h : 1 ≤ j ∧ j - 1 < d - 1 := ⟨h1, by omega⟩
    rw [drawnPerm, dif_pos h]
    show _ = σ (j - 1 + 1)
    rw [Nat.sub_add_cancel h1]

/-- Different outcomes give different designs. -/
theorem slhdOf_injective (hn : 2 ≤ n) : Function.Injective (slhdOf (n := n) (d := d)) := by
  intro r r' h
  have hp := pred_pos hn
  funext j
  have hj : j.1 + 1 < d := by have := j.2; omega
  have hjj : 1 ≤ j.1 + 1 ∧ j.1 + 1 - 1 < d - 1 := ⟨by omega, by simp⟩
  have hv : ∀ i : Fin (n / 2), topVal n (fun s => drawnCoin r s (j + 1)) ((r j).2 i) =
      topVal n (fun s => drawnCoin r' s (j + 1)) ((r' j).2 i) := by
    intro i
    have hi : i.1 < n := by have := i.2; omega
    have h1 := congrFun (congrFun h ⟨i, hi⟩) ⟨j + 1, hj⟩
    unfold slhdOf at h1
    rw [slhd_apply, slhd_apply, div_left_inj' hp.ne', sub_left_inj] at h1
    have h2 : slhdArr n d (drawnCoin r) (drawnPerm r) i (j + 1) = slhdArr n d (drawnCoin r') (drawnPerm r') i (j + 1) := by
      exact_mod_cast h1
    obtain ⟨c, τ, ⟨-, hnz⟩, ht, -⟩ := slhdArr_spec' n d (drawnCoin r) (drawnPerm r) (j + 1) hj
    obtain ⟨c', τ', ⟨-, hnz'⟩, ht', -⟩ := slhdArr_spec' n d (drawnCoin r') (drawnPerm r') (j + 1) hj
    obtain ⟨rfl, rfl⟩ := hnz (by omega)
    obtain ⟨rfl, rfl⟩ := hnz' (by omega)
    rw [ht i i.2, ht' i i.2, drawnPerm, dif_pos hjj, drawnPerm, dif_pos hjj] at h2
    exact h2
  have hc : ∀ (r : SlhdDraws n d) (s : Fin (n / 2)), drawnCoin r s (j + 1) = (r j).1 s := by
    intro r s
    have h : s.1 < n / 2 ∧ 1 ≤ j.1 + 1 ∧ j.1 + 1 - 1 < d - 1 := ⟨s.2, hjj⟩
    rw [drawnCoin, dif_pos h]
    rfl
  have key : ∀ i, (r j).2 i = (r' j).2 i ∧ (r j).1 ((r j).2 i) = (r' j).1 ((r' j).2 i) := by
    intro i
    have h1 := hv i
    unfold topVal at h1
    beta_reduce at h1
    rw [hc, hc] at h1
    have a1 := ((r j).2 i).2
    have a2 := ((r' j).2 i).2
    cases e1 : (r j).1 ((r j).2 i) <;> cases e2 : (r' j).1 ((r' j).2 i) <;> rw [e1, e2] at h1 <;>
      simp only [if_true, if_false, Bool.false_eq_true] at h1
    · exact ⟨Fin.ext (by omega), rfl⟩
    · omega
    · omega
    · exact ⟨Fin.ext (by omega), rfl⟩
  refine Prod.ext (funext fun s => ?_) (Equiv.ext fun i => (key i).1)
  have h1 := (key ((r j).2.symm s)).2
  rw [← (key _).1, Equiv.apply_symm_apply] at h1
  exact h1

/-- The points are in the order of their first variable. -/
def Sorted (D : Des n d) : Prop := ∀ i j, j.1 = 0 → D i j = (i : ℝ) / ((n : ℝ) - 1)

/-- Every symmetric Latin hypercube, listed in the order of the first variable, comes from exactly one outcome of the coins and
shuffles. -/
theorem C129_one_outcome (hn : 2 ≤ n) (hd : 1 ≤ d) (D : Des n d) : SymLatin D ∧ Sorted D ↔ ∃! r : SlhdDraws n d, slhdOf r = D := by
  constructor
  · rintro ⟨h, hs⟩
    obtain ⟨ρ, coin, σ, hD⟩ := (C124_exactly hn D).mp h
    have hρ : ∀ i, ρ i = i := by
      intro i
      have h1 := congrFun (hD i) ⟨0, hd⟩
      rw [C124_sorted hn _ _ _ _ rfl, hs _ _ rfl, div_left_inj' (pred_pos hn).ne'] at h1
      exact Fin.ext (by exact_mod_cast h1.symm)
    have e : slhdOf (fun j : Fin (d - 1) => (fun s : Fin (n / 2) => coin s (j + 1), σ (j + 1))) = D := by
      rw [← slhd_drawn]
      exact funext fun i => by rw [hD, hρ]
    exact ⟨_, e, fun r hr => slhdOf_injective hn (hr.trans e.symm)⟩
  · rintro ⟨r, rfl, -⟩
    exact ⟨(C124_exactly hn _).mpr ⟨1, _, _, fun i => rfl⟩, fun i j hj => C124_sorted hn _ _ i j hj⟩

theorem card_draws : Fintype.card (SlhdDraws n d) = (2 ^ (n / 2) * (n / 2).factorial) ^ (d - 1) := by
  rw [Fintype.card_pi, Finset.prod_const, Finset.card_univ, Fintype.card_fin, Fintype.card_prod, Fintype.card_perm,
    Fintype.card_fun, Fintype.card_bool, Fintype.card_fin]

/-- The number of symmetric Latin hypercubes (of `n` points in dimension `d`, up to order). -/
theorem C129_count (hn : 2 ≤ n) (hd : 1 ≤ d) :
    {D : Des n d | SymLatin D ∧ Sorted D}.ncard = (2 ^ (n / 2) * (n / 2).factorial) ^ (d - 1) := by
  have : {D : Des n d | SymLatin D ∧ Sorted D} = Set.range (slhdOf (n := n) (d := d)) := by
    ext D
    rw [Set.mem_setOf_eq, C129_one_outcome hn hd]
    exact ⟨fun ⟨r, hr, _⟩ => ⟨r, hr⟩, fun ⟨r, hr⟩ => ⟨r, hr, fun r' hr' => slhdOf_injective hn (hr'.trans hr.symm)⟩⟩
  rw [this, ← Set.image_univ, Set.ncard_image_of_injective _ (slhdOf_injective hn), Set.ncard_univ, Nat.card_eq_fintype_card,
    card_draws]

/-- With fair, independent coins and shuffles, all of them are equally likely. -/
theorem C129_uniform (hn : 2 ≤ n) (hd : 1 ≤ d) (D : Des n d) (h : SymLatin D) (hs : Sorted D) :
    (PMF.uniformOfFintype (SlhdDraws n d)).map slhdOf D =
      ((2 ^ (n / 2) * (n / 2).factorial : ℕ) : ℝ≥0∞)⁻¹ ^ (d - 1) := by
  obtain ⟨r, rfl, -⟩ := (C129_one_outcome hn hd D).mp ⟨h, hs⟩
  rw [PMF.map_apply, tsum_eq_single r]
  · rw [if_pos rfl, PMF.uniformOfFintype_apply, card_draws, Nat.cast_pow, ENNReal.inv_pow]
  · intro r' hr'
    exact if_neg fun he => hr' (slhdOf_injective hn he.symm)

/-! ## The law of one coordinate -/

/-- A value all of whose preimages can be moved onto those of any other value is uniformly distributed. -/
theorem uniform_of_symm {α β : Type} [Fintype α] [Nonempty α] [Fintype β] (f : α → β)
    (h : ∀ v v', ∃ e : α → α, Function.Injective e ∧ ∀ a, f a = v → f (e a) = v') (v : β) :
    (PMF.uniformOfFintype α).map f v = (Fintype.card β : ℝ≥0∞)⁻¹ := by
  classical
  set P := (PMF.uniformOfFintype α).map f with hP
  have hle : ∀ v v', P v ≤ P v' := by
    intro v v'
    obtain ⟨e, he, hf⟩ := h v v'
    rw [hP, PMF.map_apply, PMF.map_apply, tsum_fintype, tsum_fintype]
    calc ∑ a, (if v = f a then PMF.uniformOfFintype α a else 0)
        ≤ ∑ a, (if v' = f (e a) then PMF.uniformOfFintype α (e a) else 0) := by
          refine Finset.sum_le_sum fun a _ => ?_
          by_cases ha : v = f a
          · rw [if_pos ha, if_pos (hf a ha.symm).symm, PMF.uniformOfFintype_apply, PMF.uniformOfFintype_apply]
          · rw [if_neg ha]; exact zero_le
      _ = ∑ b ∈ Finset.univ.map ⟨e, he⟩, (if v' = f b then PMF.uniformOfFintype α b else 0) := by
          rw [Finset.sum_map]; rfl
      _ ≤ _ := Finset.sum_le_sum_of_subset (Finset.subset_univ _)
  have hsum : ∑ v', P v' = 1 := by rw [← tsum_fintype (L := SummationFilter.unconditional _)]; exact P.tsum_coe
  rw [Finset.sum_congr rfl fun v' _ => le_antisymm (hle v' v) (hle v v'), Finset.sum_const, Finset.card_univ, nsmul_eq_mul] at hsum
  exact ENNReal.eq_inv_of_mul_eq_one_left ((mul_comm _ _).trans hsum)

/-- Which level, and which of the two mirror images, a point of the first half takes in a variable but the first. -/
def slot (j : Fin (d - 1)) (i : Fin (n / 2)) (r : SlhdDraws n d) : Fin (n / 2) × Bool := ((r j).2 i, (r j).1 ((r j).2 i))

theorem slot_uniform (j : Fin (d - 1)) (i : Fin (n / 2)) (v : Fin (n / 2) × Bool) :
    (PMF.uniformOfFintype (SlhdDraws n d)).map (slot j i) v = ((2 * (n / 2) : ℕ) : ℝ≥0∞)⁻¹ := by
  rw [uniform_of_symm, Fintype.card_prod, Fintype.card_fin, Fintype.card_bool, mul_comm]
  rintro ⟨s, b⟩ ⟨s', b'⟩
  let q : (Fin (n / 2) → Bool) × Equiv.Perm (Fin (n / 2)) → (Fin (n / 2) → Bool) × Equiv.Perm (Fin (n / 2)) :=
    fun p => (fun t => xor (p.1 (Equiv.swap s s' t)) (xor b b'), Equiv.swap s s' * p.2)
  have hq : ∀ p, q (q p) = p := by
    intro p
    refine Prod.ext (funext fun t => ?_) (Equiv.ext fun t => ?_)
    · simp only [q, Equiv.swap_apply_def]
      split_ifs <;> simp_all
    · simp [q]
  refine ⟨fun r => Function.update r j (q (r j)), ?_, ?_⟩
  · refine Function.LeftInverse.injective (g := fun r => Function.update r j (q (r j))) fun r => ?_
    simp [hq]
  · intro r hr
    obtain ⟨h1, h2⟩ := Prod.ext_iff.mp hr
    have h1 : (r j).2 i = s := h1
    have h2 : (r j).1 ((r j).2 i) = b := h2
    rw [h1] at h2
    unfold slot
    simp [q, h1, h2]

/-- Where a point of the first half lies in a variable but the first. -/
theorem slhdOf_slot (hn : 2 ≤ n) (r : SlhdDraws n d) (i : Fin n) (hi : i.1 < n / 2) (j : Fin d) (hj : j.1 - 1 < d - 1) (h0 : j.1 ≠ 0) (k : Fin n) :
    slhdOf r i j = (k : ℝ) / ((n : ℝ) - 1) ↔
      (k : ℕ) = if (slot ⟨j.1 - 1, hj⟩ ⟨i, hi⟩ r).2 then n - 1 - (slot ⟨j.1 - 1, hj⟩ ⟨i, hi⟩ r).1 else (slot ⟨j.1 - 1, hj⟩ ⟨i, hi⟩ r).1 := by
  obtain ⟨c, τ, ⟨-, hnz⟩, ht, -⟩ := slhdArr_spec' n d (drawnCoin r) (drawnPerm r) j j.2
  obtain ⟨rfl, rfl⟩ := hnz h0
  have hjj : 1 ≤ j.1 ∧ j.1 - 1 < d - 1 := ⟨by omega, hj⟩
  have e1 : drawnPerm r j = (r ⟨j.1 - 1, hj⟩).2 := by rw [drawnPerm, dif_pos hjj]
  have e2 : ∀ s : Fin (n / 2), drawnCoin r s j = (r ⟨j.1 - 1, hj⟩).1 s := by
    intro s
    have h : s.1 < n / 2 ∧ 1 ≤ j.1 ∧ j.1 - 1 < d - 1 := ⟨s.2, hjj⟩
    rw [drawnCoin, dif_pos h]
  have h1 : slhdOf r i j = (k : ℝ) / ((n : ℝ) - 1) ↔ slhdArr n d (drawnCoin r) (drawnPerm r) i j = (k : ℤ) + 1 := by
    unfold slhdOf
    rw [slhd_apply, div_left_inj' (pred_pos hn).ne', sub_eq_iff_eq_add]
    constructor
    · intro h; exact_mod_cast h
    · intro h
      have : ((slhdArr n d (drawnCoin r) (drawnPerm r) i j : ℤ) : ℝ) = ((k : ℤ) + 1 : ℤ) := by rw [h]
      exact_mod_cast this
  rw [h1, ht i hi, e1]
  unfold topVal slot
  beta_reduce
  rw [e2]
  have hs := ((r ⟨j.1 - 1, hj⟩).2 ⟨i, hi⟩).2
  dsimp only
  split_ifs <;> omega

/-- In every variable but the first, each point (but the one in the middle) takes each of the levels (but the middle one) with the
same probability. -/
theorem C129_levels (hn : 2 ≤ n) (i : Fin n) (hi : 2 * i.1 + 1 ≠ n) (j : Fin d) (h0 : j.1 ≠ 0) (k : Fin n) (hk : 2 * k.1 + 1 ≠ n) :
    (PMF.uniformOfFintype (SlhdDraws n d)).map (fun r => slhdOf r i j) ((k : ℝ) / ((n : ℝ) - 1)) =
      ((2 * (n / 2) : ℕ) : ℝ≥0∞)⁻¹ := by
  have hj : j.1 - 1 < d - 1 := by have := j.2; omega
  have hp := pred_pos hn
  have half : ∀ (i : Fin n) (_ : i.1 < n / 2) (k : Fin n) (_ : 2 * k.1 + 1 ≠ n),
      ∃ v : Fin (n / 2) × Bool, ∃ i' : Fin (n / 2), ∀ r : SlhdDraws n d,
        slhdOf r i j = (k : ℝ) / ((n : ℝ) - 1) ↔ v = slot ⟨j.1 - 1, hj⟩ i' r := by
    intro i hi k hk
    have hk2 := k.2
    by_cases hlt : k.1 < n / 2
    · refine ⟨(⟨k, hlt⟩, false), ⟨i, hi⟩, fun r => ?_⟩
      rw [slhdOf_slot hn r i hi j hj h0 k, Prod.ext_iff, Fin.ext_iff]
      have := (slot ⟨j.1 - 1, hj⟩ ⟨i, hi⟩ r).1.2
      cases (slot ⟨j.1 - 1, hj⟩ ⟨i, hi⟩ r).2
      · simp
      · simp; omega
    · refine ⟨(⟨n - 1 - k, by omega⟩, true), ⟨i, hi⟩, fun r => ?_⟩
      rw [slhdOf_slot hn r i hi j hj h0 k, Prod.ext_iff, Fin.ext_iff]
      have := (slot ⟨j.1 - 1, hj⟩ ⟨i, hi⟩ r).1.2
      cases (slot ⟨j.1 - 1, hj⟩ ⟨i, hi⟩ r).2
      · simp; omega
      · simp; omega
  have main : ∃ v : Fin (n / 2) × Bool, ∃ i' : Fin (n / 2), ∀ r : SlhdDraws n d,
        slhdOf r i j = (k : ℝ) / ((n : ℝ) - 1) ↔ v = slot ⟨j.1 - 1, hj⟩ i' r := by
    by_cases hlt : i.1 < n / 2
    · exact half i hlt k hk
    · have hi2 := i.2
      have hk2 := k.2
      obtain ⟨v, i', hv⟩ := half i.rev (by rw [Fin.val_rev]; omega) k.rev (by rw [Fin.val_rev]; omega)
      refine ⟨v, i', fun r => (Iff.trans ?_ (hv r))⟩
      have hsym : slhdOf r i.rev j = 1 - slhdOf r i j := C43_symmetric hn _ _ i j
      have hc : ((k.rev : ℕ) : ℝ) = (n : ℝ) - 1 - k := by
        rw [Fin.val_rev, Nat.cast_sub (by omega)]; push_cast; ring
      rw [hsym, hc, sub_div, div_self hp.ne', sub_right_inj]
  obtain ⟨v, i', hv⟩ := main
  rw [← slot_uniform ⟨j.1 - 1, hj⟩ i' v, PMF.map_apply, PMF.map_apply]
  refine tsum_congr fun r => ?_
  by_cases h : v = slot ⟨j.1 - 1, hj⟩ i' r
  · rw [if_pos h, if_pos ((hv r).mpr h).symm]
  · rw [if_neg h, if_neg fun he => h ((hv r).mp he.symm)]

/-! ## Cases that meet the hypotheses -/

/-- There are 8² symmetric Latin hypercubes of 4 points in dimension 3 ... -/
example : {D : Des 4 3 | SymLatin D ∧ Sorted D}.ncard = 64 := by
  rw [C129_count (by norm_num) (by norm_num)]
  norm_num [Nat.factorial]

/-- ... and there is one, for which the theorem gives its probability. -/
example : ∃ D : Des 4 3, (PMF.uniformOfFintype (SlhdDraws 4 3)).map slhdOf D = (8 : ℝ≥0∞)⁻¹ ^ 2 := by
  obtain ⟨h1, h2⟩ := (C129_one_outcome (n := 4) (d := 3) (by norm_num) (by norm_num) (slhdOf fun _ => (fun _ => true, 1))).mpr
    ⟨_, rfl, fun r hr => slhdOf_injective (by norm_num) hr⟩
  refine ⟨_, (C129_uniform (by norm_num) (by norm_num) _ h1 h2).trans ?_⟩
  norm_num [Nat.factorial]

/-- The second of five points, third variable: the levels 0, 1/4, 3/4 and 1 have probability 1/4 each. -/
example (k : Fin 5) (hk : k ≠ 2) :
    (PMF.uniformOfFintype (SlhdDraws 5 3)).map (fun r => slhdOf r 1 2) ((k : ℝ) / (((5 : ℕ) : ℝ) - 1)) = (4 : ℝ≥0∞)⁻¹ := by
  refine (C129_levels (by norm_num) 1 (by decide) 2 (by decide) k ?_).trans (by norm_num)
  revert hk; revert k; decide

end Verif.Props
