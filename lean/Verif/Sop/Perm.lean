import Verif.Sop.Facts
import Verif.Sop.Equivar

/-!
# SOP and the order of the archive

`IsPerm σ F F'`: the list `F'` is `F` in another order, the entry number `i` of `F` is number `σ i` of `F'`.  If the archive is
reordered and no two archive points have the same value, the update of the ranks, the selection of the centers and the update
of the memory do the same up to this renumbering.  Used for C142.
-/

namespace Verif.Sop

open Verif.Num Verif.Utils Verif.Strategy Verif.Spec
open List (Perm)

variable {d : ℕ}

/-- `F'` is `F` in another order. -/
def IsPerm {α : Type} (σ : Equiv.Perm ℕ) (F F' : List α) : Prop := ∀ i, F'[σ i]? = F[i]?

theorem IsPerm.refl {α : Type} (F : List α) : IsPerm 1 F F := fun _ => rfl

theorem IsPerm.lt_iff {α : Type} {σ : Equiv.Perm ℕ} {F F' : List α} (h : IsPerm σ F F') (i : ℕ) : σ i < F'.length ↔ i < F.length := by
  have := h i
  constructor
  · intro hi
    rw [List.getElem?_eq_getElem hi] at this
    exact (List.getElem?_eq_some_iff.mp this.symm).1
  · intro hi
    rw [List.getElem?_eq_getElem hi] at this
    exact (List.getElem?_eq_some_iff.mp this).1

theorem IsPerm.range {α : Type} {σ : Equiv.Perm ℕ} {F F' : List α} (h : IsPerm σ F F') :
    ((List.range F.length).map σ).Perm (List.range F'.length) := by
  refine (List.perm_ext_iff_of_nodup (List.nodup_range.map σ.injective) List.nodup_range).mpr fun j => ?_
  simp only [List.mem_map, List.mem_range]
  constructor
  · rintro ⟨i, hi, rfl⟩; exact (h.lt_iff i).mpr hi
  · intro hj
    refine ⟨σ.symm j, ?_, by simp⟩
    rw [← h.lt_iff]; simpa using hj

theorem IsPerm.length {α : Type} {σ : Equiv.Perm ℕ} {F F' : List α} (h : IsPerm σ F F') : F'.length = F.length := by
  have := h.range.length_eq
  simpa using this.symm

theorem IsPerm.map {α β : Type} {σ : Equiv.Perm ℕ} {F F' : List α} (h : IsPerm σ F F') (g : α → β) : IsPerm σ (F.map g) (F'.map g) :=
  fun i => by rw [List.getElem?_map, List.getElem?_map, h i]

theorem IsPerm.get {α : Type} {σ : Equiv.Perm ℕ} {F F' : List α} (h : IsPerm σ F F') {i : ℕ} (hi : i < F.length) :
    F'[σ i]'((h.lt_iff i).mpr hi) = F[i] := by
  have := h i
  rw [List.getElem?_eq_getElem hi, List.getElem?_eq_getElem ((h.lt_iff i).mpr hi)] at this
  simpa using this

theorem IsPerm.mem_iff {α : Type} {σ : Equiv.Perm ℕ} {F F' : List α} (h : IsPerm σ F F') (a : α) : a ∈ F' ↔ a ∈ F := by
  simp only [List.mem_iff_getElem?]
  constructor
  · rintro ⟨j, hj⟩; exact ⟨σ.symm j, by rw [← h, ← hj]; simp⟩
  · rintro ⟨i, hi⟩; exact ⟨σ i, by rw [h, hi]⟩

theorem IsPerm.perm {α : Type} {σ : Equiv.Perm ℕ} {F F' : List α} (h : IsPerm σ F F') : F.Perm F' := by
  have e : ∀ G : List α, G = (List.range G.length).filterMap fun i => G[i]? := by
    intro G
    induction G using List.reverseRecOn with
    | nil => rfl
    | append_singleton G a ih =>
      rw [List.length_append, List.length_singleton, List.range_succ, List.filterMap_append]
      have : (List.range G.length).filterMap (fun i => (G ++ [a])[i]?) = (List.range G.length).filterMap fun i => G[i]? := by
        refine List.filterMap_congr fun i hi => ?_
        rw [List.getElem?_append_left (List.mem_range.mp hi)]
      rw [this, ← ih]
      simp
  rw [e F, e F']
  have h2 := h.range.filterMap fun i => F'[i]?
  rw [List.filterMap_map] at h2
  have h3 : ((fun i => F'[i]?) ∘ σ) = fun i => F[i]? := funext fun i => h i
  rw [h3] at h2
  exact h2

theorem IsPerm.append {α : Type} {σ τ : Equiv.Perm ℕ} {F F' G G' : List α} (h : IsPerm σ F F') (h' : IsPerm τ G G') :
    ∃ ρ : Equiv.Perm ℕ, IsPerm ρ (F ++ G) (F' ++ G') ∧ (∀ i < F.length, ρ i = σ i) ∧ ∀ k, ρ (F.length + k) = F.length + τ k := by
  have hl := h.length
  obtain ⟨n, hn⟩ : ∃ n, n = F.length := ⟨_, rfl⟩
  have hsym : ∀ j, j < n → σ.symm j < n := by
    intro j hj
    have := h.lt_iff (σ.symm j)
    rw [Equiv.apply_symm_apply, hl, ← hn] at this
    exact this.mp hj
  have hfor : ∀ i, i < n → σ i < n := by
    intro i hi
    have := (h.lt_iff i).mpr (hn ▸ hi)
    rw [hl, ← hn] at this
    exact this
  let ρ : Equiv.Perm ℕ :=
    { toFun := fun i => if i < n then σ i else n + τ (i - n)
      invFun := fun i => if i < n then σ.symm i else n + τ.symm (i - n)
      left_inv := by
        intro i
        by_cases hi : i < n
        · simp only [if_pos hi, if_pos (hfor i hi), Equiv.symm_apply_apply]
        · simp only [if_neg hi, if_neg (Nat.not_lt.mpr (Nat.le_add_right n _)), Nat.add_sub_cancel_left, Equiv.symm_apply_apply]
          omega
      right_inv := by
        intro i
        by_cases hi : i < n
        · simp only [if_pos hi, if_pos (hsym i hi), Equiv.apply_symm_apply]
        · simp only [if_neg hi, if_neg (Nat.not_lt.mpr (Nat.le_add_right n _)), Nat.add_sub_cancel_left, Equiv.apply_symm_apply]
          omega }
  have h1 : ∀ i < n, ρ i = σ i := fun i hi => if_pos hi
  have h2 : ∀ k, ρ (n + k) = n + τ k := by
    intro k
    have : ρ (n + k) = n + τ (n + k - n) := if_neg (Nat.not_lt.mpr (Nat.le_add_right n _))
    rw [this, Nat.add_sub_cancel_left]
  refine ⟨ρ, ?_, by rw [← hn]; exact h1, by rw [← hn]; exact h2⟩
  intro i
  by_cases hi : i < n
  · rw [h1 i hi, List.getElem?_append_left (by rw [hl, ← hn]; exact hfor i hi), List.getElem?_append_left (by rw [← hn]; exact hi), h i]
  · obtain ⟨k, rfl⟩ := Nat.exists_eq_add_of_le (Nat.not_lt.mp hi)
    rw [h2 k, List.getElem?_append_right (by rw [hl, ← hn]; omega), List.getElem?_append_right (by rw [← hn]; omega), hl, ← hn,
      Nat.add_sub_cancel_left, Nat.add_sub_cancel_left, h' k]

/-- Every reordering has this form. -/
theorem exists_isPerm {α : Type} {F F' : List α} (h : F.Perm F') : ∃ σ, IsPerm σ F F' := by
  induction h with
  | nil => exact ⟨1, .refl _⟩
  | cons x _ ih =>
    obtain ⟨σ, hσ⟩ := ih
    obtain ⟨ρ, hρ, _⟩ := (IsPerm.refl [x]).append hσ
    exact ⟨ρ, hρ⟩
  | swap x y l =>
    have h2 : IsPerm (Equiv.swap 0 1) [y, x] [x, y] := by
      intro i
      match i with
      | 0 => simp
      | 1 => simp
      | i + 2 =>
        rw [Equiv.swap_apply_of_ne_of_ne (by omega) (by omega)]
        simp
    obtain ⟨ρ, hρ, _⟩ := h2.append (IsPerm.refl l)
    exact ⟨ρ, hρ⟩
  | trans _ _ ih ih' =>
    obtain ⟨σ, hσ⟩ := ih
    obtain ⟨τ, hτ⟩ := ih'
    exact ⟨σ.trans τ, fun i => by rw [Equiv.trans_apply, hτ, hσ]⟩

/-! ## Ranks -/

theorem IsPerm.isRank {M : ℕ} {σ : Equiv.Perm ℕ} {F F' : List (Utils.Vec M)} (h : IsPerm σ F F') {r : ℕ → ℕ} (hr : Props.IsRank F' r) :
    Props.IsRank F fun i => r (σ i) := by
  classical
  intro k hk
  have hk' := (h.lt_iff k).mpr hk
  beta_reduce
  rw [hr (σ k) hk']
  congr 1
  rw [h.get hk]
  refine le_antisymm (Finset.sup_le fun l hl => ?_) (Finset.sup_le fun l hl => ?_)
  · obtain ⟨_, hl1, hd⟩ := Finset.mem_filter.mp hl
    have hlt : σ.symm l < F.length := by rw [← h.lt_iff]; simpa using hl1
    have e : F'[l] = F[σ.symm l] := by rw [← h.get hlt]; simp
    have := Finset.le_sup (f := fun i => r (σ i)) (s := (Finset.range F.length).filter fun l => ∃ hl : l < F.length, ∀ i, F[l] i < F[k] i)
      (Finset.mem_filter.mpr ⟨Finset.mem_range.mpr hlt, hlt, by rw [← e]; exact hd⟩)
    simpa using this
  · obtain ⟨_, hl1, hd⟩ := Finset.mem_filter.mp hl
    have hlt := (h.lt_iff l).mpr hl1
    refine Finset.le_sup (f := r) (Finset.mem_filter.mpr ⟨Finset.mem_range.mpr hlt, hlt, ?_⟩)
    rw [h.get hl1]; exact hd

/-- The result of `nd_sorting` does not depend on the order of the columns. -/
theorem IsPerm.ndSorting {M : ℕ} (hM : 0 < M) {σ : Equiv.Perm ℕ} {F F' : List (Utils.Vec M)} (h : IsPerm σ F F') (nmax k : ℕ)
    (hk : k < F.length) :
    haveI : NeZero M := ⟨hM.ne'⟩
    Utils.ndSorting F' nmax (σ k) = Utils.ndSorting F nmax k := by
  classical
  obtain ⟨r, hr, R, h1, h2, h3⟩ := Props.C41_sorting hM F nmax
  obtain ⟨r', hr', R', h1', h2', h3'⟩ := Props.C41_sorting hM F' nmax
  have hk' := (h.lt_iff k).mpr hk
  have he : ∀ j < F.length, r j = r' (σ j) := fun j hj => Props.C41_unique hM F r _ hr (h.isRank hr') j hj
  have hcard : ∀ R, ((Finset.range F.length).filter fun k => r k ≤ R).card =
      ((Finset.range F'.length).filter fun k => r' k ≤ R).card := by
    intro R
    refine Finset.card_bij (fun i _ => σ i) ?_ (fun _ _ _ _ h => σ.injective h) ?_
    · intro i hi
      obtain ⟨hi1, hi2⟩ := Finset.mem_filter.mp hi
      have hi1 := Finset.mem_range.mp hi1
      exact Finset.mem_filter.mpr ⟨Finset.mem_range.mpr ((h.lt_iff i).mpr hi1), by rw [← he i hi1]; exact hi2⟩
    · intro j hj
      obtain ⟨hj1, hj2⟩ := Finset.mem_filter.mp hj
      have hj1 := Finset.mem_range.mp hj1
      have hlt : σ.symm j < F.length := by rw [← h.lt_iff]; simpa using hj1
      refine ⟨σ.symm j, Finset.mem_filter.mpr ⟨Finset.mem_range.mpr hlt, ?_⟩, by simp⟩
      rw [he _ hlt]; simpa using hj2
  rw [h1 k hk, h1' _ hk', ← he k hk]
  suffices hR : r k ≤ R' ↔ r k ≤ R by simp only [hR]
  rcases Nat.lt_or_ge F.length nmax with hlt | hge
  · have hall : ∀ (n : ℕ) (r : ℕ → ℕ) (R : ℕ), n ≤ ((Finset.range n).filter fun k => r k ≤ R).card → ∀ j < n, r j ≤ R := by
      intro n r R hc j hj
      have hsub := Finset.eq_of_subset_of_card_le (Finset.filter_subset (fun k => r k ≤ R) (Finset.range n))
        (by simpa using hc)
      have : j ∈ (Finset.range n).filter fun k => r k ≤ R := by rw [hsub]; exact Finset.mem_range.mpr hj
      exact (Finset.mem_filter.mp this).2
    have a1 := hall _ r R (by rw [Nat.min_eq_right hlt.le] at h2; exact h2) k hk
    have a2 := hall _ r' R' (by rw [Nat.min_eq_right (by rw [h.length]; exact hlt.le)] at h2'; exact h2') _ hk'
    rw [← he k hk] at a2
    exact ⟨fun _ => a1, fun _ => a2⟩
  · rw [Nat.min_eq_left hge] at h2
    rw [Nat.min_eq_left (by rw [h.length]; exact hge)] at h2'
    have : R = R' := by
      rcases lt_trichotomy R R' with hlt | he' | hlt
      · have := h3' R hlt; rw [← hcard] at this; omega
      · exact he'
      · have := h3 R' hlt; rw [hcard] at this; omega
    rw [this]

variable {c : Cfg d} {σ : Equiv.Perm ℕ}

theorem IsPerm.distCol {E E' : List (SopRec d)} (h : IsPerm σ E E') {ds ds' : List ℝ}
    (hd : distCol ((E.map (fRow c)).map FRow.u) = some ds) (hd' : distCol ((E'.map (fRow c)).map FRow.u) = some ds') : IsPerm σ ds ds' := by
  have hl : ds.length = E.length := by simpa using (distCol_spec hd).1
  have hl' : ds'.length = E'.length := by simpa using (distCol_spec hd').1
  intro i
  by_cases hi : i < E.length
  · obtain ⟨m, h1, h2⟩ := distCol_nearest hd hi
    obtain ⟨m', h1', h2'⟩ := distCol_nearest hd' ((h.lt_iff i).mpr hi)
    rw [h1, h1']
    obtain ⟨r, hr, ⟨a, ha, hae⟩, hpos, hmin⟩ := h2'
    have : IsNearest c E i m' := by
      refine ⟨r, by rw [← h i]; exact hr, ⟨a, (h.mem_iff a).mp ha, hae⟩, hpos, fun b hb => hmin b ((h.mem_iff b).mpr hb)⟩
    rw [h2.unique this]
  · rw [List.getElem?_eq_none (by rw [hl']; exact Nat.not_lt.mp (fun hh => hi ((h.lt_iff i).mp hh))), List.getElem?_eq_none (by omega)]

theorem IsPerm.zip {α β : Type} {F F' : List α} {G G' : List β} (h : IsPerm σ F F') (h' : IsPerm σ G G') :
    IsPerm σ (F.zip G) (F'.zip G') := by
  intro i
  unfold List.zip
  rw [List.getElem?_zipWith, List.getElem?_zipWith, h i, h' i]

/-- The ranked rows. -/
theorem IsPerm.rankRows {rows rows' : List (FRow d)} {ds ds' : List ℝ} (h : IsPerm σ rows rows') (h' : IsPerm σ ds ds')
    (hl : ds.length = rows.length) : IsPerm σ (rankRows rows ds) (rankRows rows' ds') := by
  have hv : IsPerm σ (objVecs rows ds) (objVecs rows' ds') := (h.zip h').map _
  intro i
  unfold Sop.rankRows
  rw [List.getElem?_map, List.getElem?_map, List.getElem?_zipIdx, List.getElem?_zipIdx, h.zip h' i]
  cases hz : (rows.zip ds)[i]? with
  | none => rfl
  | some p =>
    have hi : i < (objVecs rows ds).length := by
      have := (List.getElem?_eq_some_iff.mp hz).1
      rw [objVecs_length hl]
      rw [List.length_zip] at this
      omega
    simp only [Option.map_some, Nat.zero_add]
    rw [hv.ndSorting (by norm_num) 100 i hi]

/-- `update_ranks`. -/
theorem IsPerm.updateRanks {n : ℕ} {z z' y y' : Sop d} (h : IsPerm σ z.evals z'.evals) (hz : z.updateRanks c n = some y)
    (hz' : z'.updateRanks c n = some y') : y.evals = z.evals ∧ y.centers = z.centers ∧ y'.evals = z'.evals ∧ y'.centers = z'.centers ∧
      ∃ F F', y.F = some F ∧ y'.F = some F' ∧ IsPerm σ F F' ∧ F.map FRow.f = z.evals.map SopRec.fx := by
  unfold Sop.updateRanks Sop.updateF at hz hz'
  by_cases hn : z.evals.length = n
  · by_cases hn' : z'.evals.length = n
    · rw [if_pos hn] at hz
      rw [if_pos hn'] at hz'
      simp only at hz hz'
      cases hd : Sop.distCol ((z.evals.map (fRow c)).map FRow.u) with
      | none => rw [hd] at hz; cases hz
      | some ds =>
        cases hd' : Sop.distCol ((z'.evals.map (fRow c)).map FRow.u) with
        | none => rw [hd'] at hz'; cases hz'
        | some ds' =>
          rw [hd] at hz
          rw [hd'] at hz'
          simp only [Option.some.injEq] at hz hz'
          subst hz; subst hz'
          have hl : ds.length = (z.evals.map (fRow c)).length := by simpa using (distCol_spec hd).1
          refine ⟨rfl, rfl, rfl, rfl, _, _, rfl, rfl, (h.map (fRow c)).rankRows (h.distCol hd hd') hl, ?_⟩
          refine List.ext_getElem? fun i => ?_
          unfold Sop.rankRows
          simp only [List.getElem?_map, List.getElem?_zipIdx, List.getElem?_zip_eq_some, Option.map_map]
          cases hi : z.evals[i]? with
          | none =>
            have : ((z.evals.map (fRow c)).zip ds)[i]? = none := by
              rw [List.getElem?_eq_none_iff] at hi ⊢
              rw [List.length_zip, List.length_map]; omega
            rw [this]; rfl
          | some r =>
            have hlt := (List.getElem?_eq_some_iff.mp hi).1
            have hlt' : i < ds.length := by rw [hl, List.length_map]; exact hlt
            have : ((z.evals.map (fRow c)).zip ds)[i]? = some (fRow c r, ds[i]) := by
              rw [List.getElem?_zip_eq_some]
              exact ⟨by rw [List.getElem?_map, hi]; rfl, List.getElem?_eq_getElem hlt'⟩
            rw [this]; rfl
    · rw [if_neg hn'] at hz'; cases hz'
  · rw [if_neg hn] at hz; cases hz

/-! ## Selection of the centers -/

/-- A center after renumbering of the archive. -/
def Center.renum (σ : Equiv.Perm ℕ) (ce : Center d) : Center d := { ce with index := σ ce.index, newIndex := ce.newIndex.map σ }

theorem IsPerm.key_lt {F F' : List (FRow d)} (h : IsPerm σ F F') (hf : (F.map FRow.f).Nodup) {i j : ℕ} (hi : i < F.length)
    (hj : j < F.length) (hk : key F i ≤ key F j) : key F' (σ i) ≤ key F' (σ j) := by
  by_cases hij : i = j
  · rw [hij]
  have hne : F[i].f ≠ F[j].f := by
    intro he
    apply hij
    have := (List.Nodup.getElem_inj_iff hf (hi := by simpa using hi) (hj := by simpa using hj)).mp (by simpa using he)
    exact this
  unfold key at hk ⊢
  rw [h i, h j]
  simp only [List.getElem?_eq_getElem hi, List.getElem?_eq_getElem hj] at hk ⊢
  simp only [Prod.Lex.toLex_le_toLex] at hk ⊢
  rcases hk with hk | ⟨e1, hk | ⟨e2, hk | ⟨e3, _⟩⟩⟩
  · exact .inl hk
  · exact .inr ⟨e1, .inl hk⟩
  · exact .inr ⟨e1, .inr ⟨e2, .inl hk⟩⟩
  · exact absurd e3 hne

theorem key_inj (F : List (FRow d)) {i j : ℕ} (h : key F i = key F j) : i = j := by
  unfold key at h
  split at h <;> split at h <;> simpa using congrArg (fun t : ℕ ×ₗ WithTop ℕ ×ₗ Val ×ₗ ℕ => (ofLex (ofLex (ofLex t).2).2).2) h

theorem IsPerm.lexOrder {F F' : List (FRow d)} (h : IsPerm σ F F') (hf : (F.map FRow.f).Nodup) :
    lexOrder F' = (lexOrder F).map σ := by
  have hp : ((Sop.lexOrder F).map σ).Perm (Sop.lexOrder F') := by
    unfold Sop.lexOrder
    exact ((List.perm_insertionSort _ _).map σ).trans (h.range.trans (List.perm_insertionSort _ _).symm)
  have htot : ∀ (G : List (FRow d)), (Sop.lexOrder G).Pairwise fun i j => key G i ≤ key G j := by
    intro G
    unfold Sop.lexOrder
    haveI : IsTotal ℕ fun i j => key G i ≤ key G j := ⟨fun i j => le_total _ _⟩
    haveI : IsTrans ℕ fun i j => key G i ≤ key G j := ⟨fun i j k => le_trans⟩
    exact List.pairwise_insertionSort _ _
  symm
  refine List.Perm.eq_of_pairwise (le := fun i j => key F' i ≤ key F' j) ?_ ?_ (htot F') hp
  · intro i j _ _ h1 h2
    exact key_inj F' (le_antisymm h1 h2)
  · rw [List.pairwise_map]
    have hm : ∀ i ∈ Sop.lexOrder F, i < F.length := by
      intro i hi
      unfold Sop.lexOrder at hi
      exact List.mem_range.mp ((List.perm_insertionSort _ _).mem_iff.mp hi)
    exact (htot F).imp_of_mem fun hi hj hk => h.key_lt hf (hm _ hi) (hm _ hj) hk

theorem IsPerm.minIndex {F F' : List (FRow d)} (h : IsPerm σ F F') (hf : (F.map FRow.f).Nodup) :
    minIndex F' = (minIndex F).map σ := by
  have hperm := (h.map FRow.f).perm
  have hmin : (F'.map FRow.f).min? = (F.map FRow.f).min? := by
    cases hm : (F.map FRow.f).min? with
    | none =>
      rw [List.min?_eq_none_iff] at hm ⊢
      rw [hm] at hperm; exact hperm.symm.eq_nil
    | some m =>
      rw [List.min?_eq_some_iff] at hm ⊢
      exact ⟨hperm.mem_iff.mp hm.1, fun b hb => hm.2 b (hperm.mem_iff.mpr hb)⟩
  unfold Sop.minIndex
  rw [hmin]
  cases hm : (F.map FRow.f).min? with
  | none => rfl
  | some m =>
    have hmem := (List.min?_eq_some_iff.mp hm).1
    simp only [Option.map_some, Option.some.injEq]
    have h1 : (F.map FRow.f)[(F.map FRow.f).findIdx (· == m)]? = some m := by
      have hlt : (F.map FRow.f).findIdx (· == m) < (F.map FRow.f).length := List.findIdx_lt_length_of_exists ⟨m, hmem, by simp⟩
      have := List.findIdx_getElem (w := hlt)
      rw [List.getElem?_eq_getElem hlt]
      simpa using this
    have h2 : (F'.map FRow.f)[(F'.map FRow.f).findIdx (· == m)]? = some m := by
      have hlt : (F'.map FRow.f).findIdx (· == m) < (F'.map FRow.f).length :=
        List.findIdx_lt_length_of_exists ⟨m, hperm.mem_iff.mp hmem, by simp⟩
      have := List.findIdx_getElem (w := hlt)
      rw [List.getElem?_eq_getElem hlt]
      simpa using this
    rw [← (h.map FRow.f)] at h1
    have hnd' : (F'.map FRow.f).Nodup := hperm.nodup_iff.mp hf
    obtain ⟨l1, e1⟩ := List.getElem?_eq_some_iff.mp h1
    obtain ⟨l2, e2⟩ := List.getElem?_eq_some_iff.mp h2
    exact (List.Nodup.getElem_inj_iff hnd').mp (e2.trans e1.symm)

theorem IsPerm.bestFirst {F F' : List (FRow d)} (h : IsPerm σ F F') (ind : List ℕ) (mi : ℕ) :
    bestFirst F' (ind.map σ) (σ mi) = (bestFirst F ind mi).map σ := by
  unfold Sop.bestFirst
  rw [h mi]
  have hh : (ind.map σ).head? = some (σ mi) ↔ ind.head? = some mi := by
    cases ind with
    | nil => simp
    | cons a l => simp
  simp only [hh]
  split
  · rfl
  · rw [List.map_cons, List.map_erase σ.injective]

theorem IsPerm.chooseLoop {F F' : List (FRow d)} (h : IsPerm σ F F') (dt : ℝ) (k : ℕ) (l chosen : List ℕ) :
    chooseLoop F' dt k (l.map σ) (chosen.map σ) = (chooseLoop F dt k l chosen).map σ := by
  have hp : ∀ i, rowPt F' (σ i) = rowPt F i := fun i => by unfold rowPt; rw [h i]
  have hc : ∀ ch : List ℕ, centerRows F' (ch.map σ) = centerRows F ch := fun ch => by
    unfold centerRows
    rw [List.map_map]
    exact List.map_congr_left fun i _ => by simp only [Function.comp_apply, h i]
  induction l generalizing chosen with
  | nil => rfl
  | cons i rest ih =>
    have e : ∀ ch : List ℕ, ch.map σ ++ [σ i] = (ch ++ [i]).map σ := fun ch => by simp
    simp only [List.map_cons, Sop.chooseLoop, hp, hc, List.length_map, e, ih]
    split_ifs <;> rfl

theorem chooseLoop_length (F : List (FRow d)) (dt : ℝ) (k : ℕ) (l chosen : List ℕ) :
    chosen.length ≤ (chooseLoop F dt k l chosen).length := by
  induction l generalizing chosen with
  | nil => simp [chooseLoop]
  | cons i rest ih =>
    simp only [chooseLoop]
    split_ifs
    · refine le_trans ?_ (ih _); simp
    · exact ih _
    · rfl

theorem fillUp_map (k : ℕ) (chosen : List ℕ) (h : chosen ≠ []) : fillUp k (chosen.map σ) = (fillUp k chosen).map σ := by
  have hpos := List.length_pos_of_ne_nil h
  unfold fillUp
  rw [List.map_append, List.map_map, List.length_map]
  congr 1
  refine List.map_congr_left fun j _ => ?_
  have hlt : (chosen.length + j) % chosen.length < chosen.length := Nat.mod_lt _ hpos
  simp only [Function.comp_apply, List.getD_eq_getElem?_getD, List.getElem?_map]
  rw [List.getElem?_eq_getElem hlt]
  rfl

theorem IsPerm.chooseCenters {F F' : List (FRow d)} (h : IsPerm σ F F') (n : ℕ) (dt : ℝ) (k : ℕ) (ind : List ℕ) :
    chooseCenters F' n dt k (ind.map σ) = (chooseCenters F n dt k ind).map (List.map σ) := by
  unfold Sop.chooseCenters
  cases ind with
  | nil => rfl
  | cons i0 rest =>
    have e : Sop.chooseLoop F' dt k (rest.map σ) [σ i0] = (Sop.chooseLoop F dt k rest [i0]).map σ := h.chooseLoop dt k rest [i0]
    have hne : Sop.chooseLoop F dt k rest [i0] ≠ [] := by
      have := chooseLoop_length F dt k rest [i0]
      intro h0; rw [h0] at this; simp at this
    simp only [List.map_cons, e, List.length_map, h.length, fillUp_map k _ hne]
    split_ifs <;> rfl

theorem IsPerm.newCenters {E E' : List (SopRec d)} (h : IsPerm σ E E') (idx : List ℕ) :
    newCenters E' (idx.map σ) = (newCenters E idx).map fun cs => cs.map (Center.renum σ) := by
  unfold Sop.newCenters
  induction idx with
  | nil => rfl
  | cons i idx ih =>
    rw [List.map_cons, List.mapM_cons, List.mapM_cons, ih, h i]
    cases E[i]? with
    | none => rfl
    | some r =>
      cases (idx.mapM fun i => (E[i]?).map fun r => ({ xc := r.x, index := i, newPoint := none, newIndex := none } : Center d)) <;> rfl

/-- All new points of the centers are evaluated. -/
def AllDone (cs : List (Center d)) : Prop := ∀ ce ∈ cs, ce.newIndex.isSome = true

theorem AllDone.filter {cs : List (Center d)} (h : AllDone cs) : (cs.filter fun ce => ce.newIndex.isNone) = [] := by
  rw [List.filter_eq_nil_iff]
  intro ce hce
  have := h ce hce
  cases hn : ce.newIndex <;> simp_all

theorem AllDone.tagRows {cs : List (Center d)} (h : AllDone cs) (F : List (FRow d)) : tagRows cs F = F := by
  unfold Sop.tagRows
  refine List.ext_getElem (by simp) fun k h1 h2 => ?_
  simp only [List.getElem_map, List.getElem_zipIdx]
  rw [if_neg]
  simp only [List.any_eq_true, not_exists, not_and, Bool.not_eq_true]
  intro ce hce
  have := h ce hce
  cases hn : ce.newIndex <;> simp_all

/-- `update_center_list` after a batch. -/
theorem IsPerm.updateCenterList {n : ℕ} {z z' : Sop d} {F F' : List (FRow d)} (h : IsPerm σ z.evals z'.evals) (hF : z.F = some F)
    (hF' : z'.F = some F') (hFF : IsPerm σ F F') (hf : (F.map FRow.f).Nodup) (hd : AllDone z.centers) (hd' : AllDone z'.centers) :
    z'.updateCenterList c n = (z.updateCenterList c n).map fun y =>
      { evals := z'.evals, centers := y.centers.map (Center.renum σ), F := z'.F } := by
  unfold Sop.updateCenterList
  rw [hF, hF']
  cases dThreshOf c n with
  | none => rfl
  | some dt =>
    simp only [hd.tagRows, hd'.tagRows, hd.filter, hd'.filter, hFF.minIndex hf, hFF.lexOrder hf]
    cases Sop.minIndex F with
    | none => rfl
    | some mi =>
      simp only [Option.map_some, hFF.bestFirst, hFF.chooseCenters, List.length_nil, List.nil_append]
      split
      · cases Sop.chooseCenters F n dt (c.ncenters - 0) (Sop.bestFirst F (Sop.lexOrder F) mi) with
        | none => rfl
        | some idx =>
          simp only [Option.map_some, Option.bind_some, h.newCenters]
          cases Sop.newCenters z.evals idx <;> rfl
      · rfl

theorem assignPoint_renum (cs : List (Center d)) (x : Pt d) :
    assignPoint (cs.map (Center.renum σ)) x = (assignPoint cs x).map fun cs => cs.map (Center.renum σ) := by
  induction cs with
  | nil => rfl
  | cons ce rest ih =>
    simp only [List.map_cons, assignPoint]
    rw [show (ce.renum σ).newPoint = ce.newPoint from rfl]
    cases ce.newPoint with
    | none => simp [Center.renum]
    | some y =>
      simp only [ih]
      cases assignPoint rest x <;> rfl

theorem foldlM_assign_renum (pts : List (Pt d)) (cs : List (Center d)) :
    pts.foldlM assignPoint (cs.map (Center.renum σ)) = (pts.foldlM assignPoint cs).map fun cs => cs.map (Center.renum σ) := by
  induction pts generalizing cs with
  | nil => rfl
  | cons x pts ih =>
    simp only [List.foldlM_cons, assignPoint_renum]
    cases assignPoint cs x with
    | none => rfl
    | some cs' => exact ih cs'

/-! ## Update of the memory -/

theorem IsPerm.modify {α : Type} {E E' : List α} (h : IsPerm σ E E') (i : ℕ) (f : α → α) :
    IsPerm σ (E.modify i f) (E'.modify (σ i) f) := by
  intro j
  rw [List.getElem?_modify, List.getElem?_modify, h j]
  simp only [σ.injective.eq_iff]

theorem IsPerm.failStep {F F' : List (FRow d)} (hF : IsPerm σ F F') {E E' D : List (SopRec d)} (h : IsPerm σ E E') (cs : List (Center d)) (i : ℕ)
    (hD : failStep F cs E i = some D) : ∃ D', failStep F' (cs.map (Center.renum σ)) E' i = some D' ∧ IsPerm σ D D' := by
  unfold Sop.failStep at hD ⊢
  rw [List.getElem?_map]
  cases hc : cs[i]? with
  | none => rw [hc] at hD; cases hD
  | some ce =>
    rw [hc] at hD
    simp only [Option.map_some]
    simp only at hD
    have e : ((ce.renum σ).newIndex.bind fun ni => F'[ni]?) = ce.newIndex.bind fun ni => F[ni]? := by
      rw [show (ce.renum σ).newIndex = ce.newIndex.map σ from rfl]
      cases ce.newIndex with
      | none => rfl
      | some ni => exact hF ni
    rw [e]
    cases hr : (ce.newIndex.bind fun ni => F[ni]?) with
    | none => rw [hr] at hD; cases hD
    | some row =>
      rw [hr] at hD
      simp only [Option.some.injEq] at hD
      refine ⟨_, rfl, ?_⟩
      rw [← hD]
      split
      · exact h
      · exact h.modify _ _

theorem IsPerm.failLoop {F F' : List (FRow d)} (hF : IsPerm σ F F') (cs : List (Center d)) (l : List ℕ) {E E' D : List (SopRec d)}
    (h : IsPerm σ E E') (hD : l.foldlM (Sop.failStep F cs) E = some D) :
    ∃ D', l.foldlM (Sop.failStep F' (cs.map (Center.renum σ))) E' = some D' ∧ IsPerm σ D D' := by
  induction l generalizing E E' with
  | nil =>
    simp only [List.foldlM_nil] at hD ⊢
    cases hD
    exact ⟨E', rfl, h⟩
  | cons i l ih =>
    rw [List.foldlM_cons] at hD ⊢
    cases h1 : Sop.failStep F cs E i with
    | none => rw [h1] at hD; cases hD
    | some E1 =>
      rw [h1] at hD
      obtain ⟨E1', h1', h2⟩ := hF.failStep h cs i h1
      rw [h1']
      exact ih h2 hD

theorem IsPerm.tabuLoop (cs : List (Center d)) (l : List ℕ) {E E' : List (SopRec d)} (h : IsPerm σ E E') :
    IsPerm σ (l.foldl (tabuStep cs) E) (l.foldl (tabuStep (cs.map (Center.renum σ))) E') := by
  induction l generalizing E E' with
  | nil => exact h
  | cons i l ih =>
    rw [List.foldl_cons, List.foldl_cons]
    refine ih ?_
    unfold tabuStep
    rw [List.getElem?_map]
    cases cs[i]? with
    | none => exact h
    | some ce => exact h.modify _ _

/-- `adjust_memory` after a batch. -/
theorem IsPerm.adjustMemory {n : ℕ} {z z' y y' : Sop d} (h : IsPerm σ z.evals z'.evals) (hc : z'.centers = z.centers.map (Center.renum σ))
    (hy : z.adjustMemory c n none = some y) (hy' : z'.adjustMemory c n none = some y') :
    IsPerm σ y.evals y'.evals ∧ y.F = some (y.evals.map (fRow c)) ∧ y'.F = some (y'.evals.map (fRow c)) ∧
      y.centers = z.centers ∧ y'.centers = z'.centers := by
  unfold Sop.adjustMemory at hy hy'
  cases hr : z.updateRanks c n with
  | none => rw [hr] at hy; cases hy
  | some z1 =>
    cases hr' : z'.updateRanks c n with
    | none => rw [hr'] at hy'; cases hy'
    | some z1' =>
      obtain ⟨e1, e2, e1', e2', F, F', hF, hF', hFF, _⟩ := h.updateRanks hr hr'
      rw [hr] at hy
      rw [hr'] at hy'
      simp only [hF, hF', e1, e2, e1', e2', hc] at hy hy'
      cases hd : (processed c none).foldlM (Sop.failStep F z.centers) z.evals with
      | none => rw [hd] at hy; cases hy
      | some E =>
        obtain ⟨E', hd', hE⟩ := hFF.failLoop z.centers (processed c none) h hd
        rw [hd] at hy
        rw [hd'] at hy'
        simp only [Sop.updateF] at hy hy'
        split at hy
        · split at hy'
          · simp only [Option.some.injEq] at hy hy'
            subst hy; subst hy'
            exact ⟨IsPerm.tabuLoop z.centers _ (hE.map SopRec.tick), rfl, rfl, rfl, hc.symm⟩
          · cases hy'
        · cases hy

end Verif.Sop
