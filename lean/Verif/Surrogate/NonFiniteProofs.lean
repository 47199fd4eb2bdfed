import Verif.Surrogate.NonFinite

/-! # Facts about the median of values that are not finite -/

namespace Verif.Surrogate

open Verif.Num Verif.Utils Verif.Validate List

/-- Whether a value is `inf`. -/
def isInf : PyFloat → Bool
  | .posInf => true
  | _ => false

/-- `inf` replaced by `M`. -/
def penal (M : ℝ) : PyFloat → ℝ
  | .fin r => r
  | .posInf => M
  | .negInf => 0
  | .nan => 0

theorem finiteVals_eq_some (x : List PyFloat) (f : List ℝ) : finiteVals x = some f ↔ x = f.map .fin := by
  unfold finiteVals
  induction x generalizing f with
  | nil => cases f <;> simp
  | cons a x ih =>
    rw [mapM_cons]
    cases a with
    | fin r =>
      cases f with
      | nil => simp [finiteVal, Option.bind_eq_some_iff]
      | cons b f => simp [finiteVal, Option.bind_eq_some_iff, ih, and_comm]
    | posInf => cases f <;> simp [finiteVal]
    | negInf => cases f <;> simp [finiteVal]
    | nan => cases f <;> simp [finiteVal]

theorem finiteVals_none (x : List PyFloat) (v : PyFloat) (hv : v ∈ x) (hn : ∀ r, v ≠ .fin r) : finiteVals x = none := by
  rcases h : finiteVals x with _ | f
  · rfl
  · rw [finiteVals_eq_some] at h
    rw [h, mem_map] at hv
    obtain ⟨r, _, hr⟩ := hv
    exact absurd hr.symm (hn r)

/-- The sorted positions. -/
noncomputable def sortE (x : List PyFloat) : List EReal := (x.map toE).insertionSort (· ≤ ·)

theorem sortE_perm (x : List PyFloat) : sortE x ~ x.map toE := perm_insertionSort _ _

theorem sortE_length (x : List PyFloat) : (sortE x).length = x.length := by rw [(sortE_perm x).length_eq, length_map]

theorem sortE_pairwise (x : List PyFloat) : (sortE x).Pairwise (· ≤ ·) := pairwise_insertionSort _ _

theorem sortE_count (x : List PyFloat) : (sortE x).countP (fun e => decide (e = ⊤)) = x.countP isInf := by
  rw [(sortE_perm x).countP_eq, countP_map]
  congr 1
  funext v
  cases v <;> simp [toE, isInf]

/-- The infinite values are at the end. -/
theorem sortE_top (x : List PyFloat) (i : ℕ) (hi : i < x.length) :
    (sortE x).getD i 0 = ⊤ ↔ x.length - i ≤ x.countP isInf := by
  have hl := sortE_length x
  rw [← sortE_count, getD_eq_getElem _ _ (by omega)]
  constructor
  · intro h
    rw [← take_append_drop i (sortE x), countP_append]
    have : ((sortE x).drop i).countP (fun e => decide (e = ⊤)) = x.length - i := by
      rw [countP_eq_length.mpr, length_drop, hl]
      intro a ha
      obtain ⟨j, hj, rfl⟩ := mem_drop_iff_getElem.mp ha
      apply decide_eq_true
      rcases Nat.eq_zero_or_pos j with h0 | h0
      · subst h0; simpa using h
      · have := pairwise_iff_getElem.mp (sortE_pairwise x) i (i + j) (by omega) (by omega) (by omega)
        rw [h, top_le_iff] at this
        exact this
    omega
  · intro h
    by_contra hne
    rw [← take_append_drop (i + 1) (sortE x), countP_append] at h
    have h0 : ((sortE x).take (i + 1)).countP (fun e => decide (e = ⊤)) = 0 := by
      rw [countP_eq_zero]
      intro a ha
      obtain ⟨j, hj, rfl⟩ := mem_take_iff_getElem.mp ha
      simp only [decide_eq_true_eq]
      intro htop
      rcases Nat.lt_or_ge j i with hji | hji
      · have := pairwise_iff_getElem.mp (sortE_pairwise x) j i (by omega) (by omega) hji
        rw [htop, top_le_iff] at this
        exact hne this
      · have : j = i := by omega
        subst this
        exact hne htop
    have h1 := countP_le_length (p := fun e : EReal => decide (e = ⊤)) (l := (sortE x).drop (i + 1))
    rw [length_drop] at h1
    omega

/-- The position of a value that is `inf` or at most `M`, with `M` for `inf`. -/
noncomputable def realOf (M : ℝ) (e : EReal) : ℝ := if e = ⊤ then M else e.toReal

theorem sortE_real (x : List PyFloat) (M : ℝ) (hx : ∀ v ∈ x, v = .posInf ∨ ∃ r, v = .fin r ∧ r ≤ M) :
    (sortE x).map (realOf M) = sorted (x.map (penal M)) := by
  have hmem : ∀ e ∈ sortE x, e = ⊤ ∨ ∃ r : ℝ, e = r ∧ r ≤ M := by
    intro e he
    obtain ⟨v, hv, rfl⟩ := mem_map.mp ((sortE_perm x).mem_iff.mp he)
    rcases hx v hv with rfl | ⟨r, rfl, hr⟩
    · exact .inl rfl
    · exact .inr ⟨r, rfl, hr⟩
  have hperm : (sortE x).map (realOf M) ~ sorted (x.map (penal M)) := by
    refine ((sortE_perm x).map _).trans ?_
    refine Perm.trans ?_ (sorted_perm _).symm
    rw [map_map]
    apply Perm.of_eq
    apply map_congr_left
    intro v hv
    rcases hx v hv with rfl | ⟨r, rfl, hr⟩ <;> simp [toE, penal, realOf]
  have hpw : ((sortE x).map (realOf M)).Pairwise (· ≤ ·) := by
    rw [pairwise_map]
    refine (sortE_pairwise x).imp_of_mem ?_
    intro a b ha hb hab
    rcases hmem a ha with rfl | ⟨r, rfl, hr⟩
    · rw [top_le_iff] at hab
      subst hab; rfl
    · rcases hmem b hb with rfl | ⟨r', rfl, hr'⟩
      · simpa [realOf] using hr
      · simpa [realOf] using hab
  exact hperm.eq_of_pairwise (fun a b _ _ h1 h2 => le_antisymm h1 h2) hpw (sorted_pairwise _)

/-- Fewer than half of the values are `inf`, the others at most `M`: the median is that of the values with `M` for `inf`. -/
theorem medianPF_eq (x : List PyFloat) (M : ℝ) (hx : ∀ v ∈ x, v = .posInf ∨ ∃ r, v = .fin r ∧ r ≤ M)
    (hc : 2 * x.countP isInf < x.length) : medianPF x = .fin (median (x.map (penal M))) := by
  have hnil : ¬ (x = [] ∨ PyFloat.nan ∈ x) := by
    rintro (h | h)
    · subst h; simp at hc
    · rcases hx _ h with h | ⟨r, h, _⟩ <;> cases h
  have hfin : ∀ i ≤ x.length / 2, i < x.length →
      ((sortE x).getD i 0 = ((sorted (x.map (penal M))).getD i 0 : ℝ) ∧ (sortE x).getD i 0 ≠ ⊤ ∧ (sortE x).getD i 0 ≠ ⊥) := by
    intro i hi hil
    have hnt : (sortE x).getD i 0 ≠ ⊤ := by
      rw [Ne, sortE_top x i hil]
      omega
    have hl := sortE_length x
    have hmem : (sortE x).getD i 0 ∈ x.map toE := by
      rw [← (sortE_perm x).mem_iff, getD_eq_getElem _ _ (by omega)]
      exact getElem_mem _
    obtain ⟨v, hv, hve⟩ := mem_map.mp hmem
    rw [← sortE_real x M hx]
    rw [getD_eq_getElem ((sortE x).map (realOf M)) _ (by rw [length_map]; omega), getElem_map,
      ← getD_eq_getElem _ 0 (by omega)]
    rcases hx v hv with rfl | ⟨r, rfl, hr⟩
    · exact absurd hve.symm hnt
    · rw [← hve]
      simp [realOf, toE]
  unfold medianPF
  rw [if_neg hnil]
  change (if x.length % 2 = 1 then ofE ((sortE x).getD (x.length / 2) 0)
    else mean2 ((sortE x).getD (x.length / 2 - 1) 0) ((sortE x).getD (x.length / 2) 0)) = _
  obtain ⟨h1, h2, h3⟩ := hfin (x.length / 2) le_rfl (by omega)
  split_ifs with ho
  · rw [median_odd _ (by rwa [length_map]), length_map]
    unfold ofE
    rw [if_neg h2, if_neg h3, h1, EReal.toReal_coe]
  · obtain ⟨g1, g2, g3⟩ := hfin (x.length / 2 - 1) (by omega) (by omega)
    rw [median_even _ (by rw [length_map]; omega), length_map]
    unfold mean2
    rw [if_neg (by tauto), if_neg (by tauto), if_neg (by tauto), h1, g1, EReal.toReal_coe, EReal.toReal_coe]

/-- Then capping gives what it gives for the values with `M` for `inf`. -/
theorem cappingPF_eq (x : List PyFloat) (M : ℝ) (hx : ∀ v ∈ x, v = .posInf ∨ ∃ r, v = .fin r ∧ r ≤ M)
    (hc : 2 * x.countP isInf < x.length) : finiteVals (cappingPF x) = some (medianCapping (x.map (penal M))) := by
  rw [finiteVals_eq_some]
  have hm := medianPF_eq x M hx hc
  set m := median (x.map (penal M)) with hmdef
  have hne : x.map (penal M) ≠ [] := by
    intro h
    rw [map_eq_nil_iff] at h
    subst h; simp at hc
  have hmM : m ≤ M := by
    refine (median_between _ hne).2.trans ?_
    have hlt : (x.map (penal M)).length / 2 < (sorted (x.map (penal M))).length := by
      rw [sorted_length, length_map]; omega
    have : (sorted (x.map (penal M))).getD ((x.map (penal M)).length / 2) 0 ∈ x.map (penal M) := by
      rw [← (sorted_perm _).mem_iff, getD_eq_getElem _ _ hlt]
      exact getElem_mem _
    obtain ⟨v, hv, hve⟩ := mem_map.mp this
    rw [← hve]
    rcases hx v hv with rfl | ⟨r, rfl, hr⟩
    · exact le_rfl
    · exact hr
  unfold cappingPF medianCapping
  rw [map_map, map_map]
  apply map_congr_left
  intro v hv
  simp only [Function.comp_apply]
  rcases hx v hv with rfl | ⟨r, rfl, hr⟩
  · rw [hm, if_pos (by simp [gtPF, toE])]
    congr 1
    show m = if M > m then m else M
    split_ifs with h
    · rfl
    · exact le_antisymm hmM (not_lt.mp h)
  · have : gtPF (.fin r) (.fin m) ↔ r > m := by simp [gtPF, toE]
    rw [hm]
    by_cases h : r > m
    · rw [if_pos (this.mpr h)]
      congr 1
      exact (if_pos h).symm
    · rw [if_neg (this.not.mpr h)]
      congr 1
      exact (if_neg h).symm

/-- If a value is NaN or `-inf`, or at least half of them are `inf`, capping leaves a value that is not finite. -/
theorem cappingPF_none (x : List PyFloat) (h : PyFloat.nan ∈ x ∨ PyFloat.negInf ∈ x ∨ (x ≠ [] ∧ x.length ≤ 2 * x.countP isInf)) :
    finiteVals (cappingPF x) = none := by
  by_cases hn : PyFloat.nan ∈ x
  · refine finiteVals_none _ .nan ?_ (by simp)
    have : medianPF x = .nan := by unfold medianPF; rw [if_pos (.inr hn)]
    unfold cappingPF
    rw [this, mem_map]
    exact ⟨.nan, hn, by simp [gtPF]⟩
  by_cases hb : PyFloat.negInf ∈ x
  · refine finiteVals_none _ .negInf ?_ (by simp)
    unfold cappingPF
    rw [mem_map]
    exact ⟨.negInf, hb, by simp [gtPF, toE]⟩
  have h' : x ≠ [] ∧ x.length ≤ 2 * x.countP isInf := by tauto
  obtain ⟨hx, hc⟩ := h'
  have hlen : 0 < x.length := length_pos_iff.mpr hx
  have htop : (sortE x).getD (x.length / 2) 0 = ⊤ := by
    rw [sortE_top x _ (by omega)]; omega
  have hpos : 0 < x.countP isInf := by omega
  obtain ⟨v, hv, hvi⟩ := countP_pos_iff.mp hpos
  have hvp : v = .posInf := by cases v <;> simp [isInf] at hvi ⊢
  subst hvp
  have hm : medianPF x = .nan ∨ medianPF x = .posInf := by
    unfold medianPF
    rw [if_neg (by tauto)]
    change (if x.length % 2 = 1 then ofE ((sortE x).getD (x.length / 2) 0)
      else mean2 ((sortE x).getD (x.length / 2 - 1) 0) ((sortE x).getD (x.length / 2) 0)) = _ ∨
      (if x.length % 2 = 1 then ofE ((sortE x).getD (x.length / 2) 0)
      else mean2 ((sortE x).getD (x.length / 2 - 1) 0) ((sortE x).getD (x.length / 2) 0)) = _
    rw [htop]
    split_ifs
    · right; simp [ofE]
    · unfold mean2
      simp only [or_true, if_true]
      split_ifs
      · exact .inl rfl
      · exact .inr rfl
  refine finiteVals_none _ .posInf ?_ (by simp)
  unfold cappingPF
  rw [mem_map]
  refine ⟨.posInf, hv, ?_⟩
  rcases hm with h | h <;> rw [h] <;> simp [gtPF, toE]

end Verif.Surrogate
