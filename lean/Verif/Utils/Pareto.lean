import Verif.Num.Basic
import Mathlib.Data.List.Nodup
import Mathlib.Data.Finset.Lattice.Fold
import Mathlib.Data.List.Range

/-!
# Model of the Pareto utilities

Source: /repo/pySOT/utils.py:379-522 (`domination`, `nd_add`, `nd_front`, `nd_sorting`, `check_radius_rule`).
A matrix `F` of size `M × N` is the list of its `N` columns.
-/

namespace Verif.Utils

open Verif.Num List

variable {M : ℕ}

/-- A column of the objective matrix. (utils.py:379-390.) -/
abbrev Vec (M : ℕ) := Fin M → ℝ

/-- `domination` (utils.py:379-390): `np.all(np.less(fA, fB))`. -/
def Dominates (a b : Vec M) : Prop := ∀ i, a i < b i

/-- Domination between columns of the matrix. (utils.py:379-390.) -/
def domAt (F : List (Vec M)) (k l : ℕ) : Prop := ∃ a b, F[k]? = some a ∧ F[l]? = some b ∧ Dominates a b

open Classical in
/-- The loop of `nd_add` (utils.py:419-430).  `ndf_count` is the length of `ndf`. -/
noncomputable def ndAddLoop (F : List (Vec M)) (N : ℕ) (ndf df : List ℕ) (j : ℕ) : List ℕ × List ℕ :=
  if h : j < ndf.length then
    let k := ndf[j - 1]'(by omega)
    if domAt F N k then ndAddLoop F N (ndf.erase k) (df ++ [k]) j
    else if domAt F k N then (ndf.erase N, df ++ [N])
    else ndAddLoop F N ndf df (j + 1)
  else (ndf, df)
termination_by ndf.length - j
decreasing_by
  · have : (ndf.erase (ndf[j - 1]'(by omega))).length = ndf.length - 1 := List.length_erase_of_mem (List.getElem_mem _)
    omega
  · omega

/-- `nd_add` (utils.py:393-431): the last column of `F` is new. -/
noncomputable def ndAdd (F : List (Vec M)) (df ndf : List ℕ) : List ℕ × List ℕ :=
  let N := F.length - 1
  ndAddLoop F N (ndf ++ [N]) df 1

/-- `nd_front` (utils.py:434-449): `(ndf_index, df_index)`. -/
noncomputable def ndFront (F : List (Vec M)) : List ℕ × List ℕ :=
  (List.range' 1 (F.length - 1)).foldl (fun s i => ndAdd (F.take (i + 1)) s.2 s.1) ([0], [])

/-! ## `nd_add` in structural form -/

open Classical in
/-- The loop over the old indices `rest`, with `pre` those already kept. (utils.py:393-431.) -/
noncomputable def ndScan (F : List (Vec M)) (N : ℕ) : List ℕ → List ℕ → List ℕ → List ℕ × List ℕ
  | pre, [], df => (pre ++ [N], df)
  | pre, k :: rest, df =>
    if domAt F N k then ndScan F N pre rest (df ++ [k])
    else if domAt F k N then (pre ++ k :: rest, df ++ [N])
    else ndScan F N (pre ++ [k]) rest df

open Classical in
theorem ndAddLoop_step (F : List (Vec M)) (N : ℕ) (ndf df : List ℕ) (j : ℕ) (h : j < ndf.length) (k : ℕ)
    (hk : ndf[j - 1]'(by omega) = k) : ndAddLoop F N ndf df j =
      if domAt F N k then ndAddLoop F N (ndf.erase k) (df ++ [k]) j
      else if domAt F k N then (ndf.erase N, df ++ [N])
      else ndAddLoop F N ndf df (j + 1) := by
  subst hk
  rw [ndAddLoop, dif_pos h]

theorem ndAddLoop_eq (F : List (Vec M)) (N : ℕ) (pre rest df : List ℕ) (hn : (pre ++ rest ++ [N]).Nodup) :
    ndAddLoop F N (pre ++ rest ++ [N]) df (pre.length + 1) = ndScan F N pre rest df := by
  induction rest generalizing pre df with
  | nil =>
    rw [ndAddLoop, dif_neg (by simp)]
    simp [ndScan]
  | cons k rest ih =>
    have hlt : pre.length + 1 < (pre ++ k :: rest ++ [N]).length := by simp
    have hk : (pre ++ k :: rest ++ [N])[pre.length + 1 - 1]'(by omega) = k := by simp
    have hkpre : k ∉ pre := by
      intro h
      have : (pre ++ (k :: rest ++ [N])).Nodup := by simpa using hn
      rw [List.nodup_append] at this
      exact this.2.2 k h k (by simp) rfl
    have hNk : N ∉ pre ++ k :: rest := by
      rw [List.nodup_append] at hn
      intro h; exact hn.2.2 N h N (by simp) rfl
    rw [ndAddLoop_step F N _ df _ hlt k hk]
    simp only [ndScan]
    by_cases h1 : domAt F N k
    · simp only [h1, if_true]
      have he : (pre ++ k :: rest ++ [N]).erase k = pre ++ rest ++ [N] := by
        rw [List.append_assoc, List.erase_append_right _ hkpre]
        simp
      rw [he]
      apply ih
      have hsub : (pre ++ rest ++ [N]).Sublist (pre ++ k :: rest ++ [N]) :=
        List.Sublist.append (List.Sublist.append (List.Sublist.refl _) (List.sublist_cons_self k rest)) (List.Sublist.refl _)
      exact hsub.nodup hn
    · by_cases h2 : domAt F k N
      · simp only [h1, h2, if_true, if_false]
        rw [List.erase_append_right _ hNk]; simp
      · simp only [h1, h2, if_false]
        have := ih (pre ++ [k]) df (by simpa using hn)
        simpa using this

/-! ## Domination is a strict order (for `M ≥ 1`) -/

theorem domAt_trans {F : List (Vec M)} {i j k : ℕ} (h1 : domAt F i j) (h2 : domAt F j k) : domAt F i k := by
  obtain ⟨a, b, ha, hb, hab⟩ := h1
  obtain ⟨b', c, hb', hc, hbc⟩ := h2
  rw [hb] at hb'; cases hb'
  exact ⟨a, c, ha, hc, fun i => (hab i).trans (hbc i)⟩

theorem domAt_irrefl (hM : 0 < M) (F : List (Vec M)) (i : ℕ) : ¬ domAt F i i := by
  rintro ⟨a, b, ha, hb, hab⟩
  rw [ha] at hb; cases hb
  exact lt_irrefl _ (hab ⟨0, hM⟩)

theorem domAt_lt {F : List (Vec M)} {i j : ℕ} (h : domAt F i j) : i < F.length ∧ j < F.length := by
  obtain ⟨a, b, ha, hb, _⟩ := h
  exact ⟨(List.getElem?_eq_some_iff.mp ha).1, (List.getElem?_eq_some_iff.mp hb).1⟩

theorem domAt_take {F : List (Vec M)} {n i j : ℕ} (hi : i < n) (hj : j < n) : domAt (F.take n) i j ↔ domAt F i j := by
  unfold domAt
  simp [List.getElem?_take, hi, hj]

open Classical in
/-- Number of columns dominating `k`. -/
noncomputable def domCount (F : List (Vec M)) (k : ℕ) : ℕ := ((Finset.range F.length).filter fun l => domAt F l k).card

theorem domCount_lt (hM : 0 < M) {F : List (Vec M)} {l k : ℕ} (h : domAt F l k) : domCount F l < domCount F k := by
  classical
  apply Finset.card_lt_card
  rw [Finset.ssubset_iff_of_subset]
  · refine ⟨l, ?_, ?_⟩
    · simp only [Finset.mem_filter, Finset.mem_range]; exact ⟨(domAt_lt h).1, h⟩
    · simp only [Finset.mem_filter, not_and]; exact fun _ => domAt_irrefl hM F l
  · intro x hx
    simp only [Finset.mem_filter, Finset.mem_range] at hx ⊢
    exact ⟨hx.1, domAt_trans hx.2 h⟩

/-- Among the columns with property `Q`, each dominated one is dominated by one that no column with `Q` dominates. -/
theorem exists_minimal (hM : 0 < M) (F : List (Vec M)) (Q : ℕ → Prop) {l k : ℕ} (hl : Q l) (hlk : domAt F l k) :
    ∃ m, Q m ∧ domAt F m k ∧ ∀ x, Q x → ¬ domAt F x m := by
  induction hc : domCount F l using Nat.strong_induction_on generalizing l with
  | _ c ih =>
    by_cases h : ∃ x, Q x ∧ domAt F x l
    · obtain ⟨x, hx, hxl⟩ := h
      exact ih (domCount F x) (hc ▸ domCount_lt hM hxl) hx (domAt_trans hxl hlk) rfl
    · exact ⟨l, hl, hlk, fun x hx hd => h ⟨x, hx, hd⟩⟩

/-! ## Correctness of `nd_front` -/

/-- The index lists are right for the first `n` columns. -/
structure FrontOk (F : List (Vec M)) (n : ℕ) (ndf df : List ℕ) : Prop where
  nodup : (ndf ++ df).Nodup
  mem : ∀ k, k ∈ ndf ++ df ↔ k < n
  nd : ∀ k ∈ ndf, ∀ l < n, ¬ domAt F l k
  dom : ∀ k ∈ df, ∃ l < n, domAt F l k

/-- Result of scanning the old front. -/
theorem ndScan_spec (F : List (Vec M)) (N : ℕ) (pre rest df : List ℕ)
    (hpre : ∀ k ∈ pre, ¬ domAt F N k ∧ ¬ domAt F k N)
    (hcompat : ∀ k ∈ pre ++ rest, ∀ l ∈ pre ++ rest, ¬ domAt F l k) :
    (ndScan F N pre rest df).1 ++ (ndScan F N pre rest df).2 ~ (pre ++ rest ++ df ++ [N]) ∧
    (∀ k ∈ (ndScan F N pre rest df).1, (k ∈ pre ++ rest ∧ ¬ domAt F N k) ∨ (k = N ∧ ∀ l ∈ pre ++ rest, domAt F l N → domAt F N l)) ∧
    (∀ k ∈ (ndScan F N pre rest df).2, k ∈ df ∨ (k ∈ rest ∧ domAt F N k) ∨ (k = N ∧ ∃ l ∈ rest, domAt F l N)) := by
  induction rest generalizing pre df with
  | nil =>
    simp only [ndScan]
    refine ⟨?_, ?_, fun k hk => .inl hk⟩
    · simp only [List.append_nil]
      rw [List.append_assoc, List.append_assoc]
      exact List.Perm.append_left pre List.perm_append_comm
    · intro k hk
      rcases List.mem_append.mp hk with h | h
      · exact .inl ⟨by simp [h], (hpre k h).1⟩
      · refine .inr ⟨List.mem_singleton.mp h, fun l hl hd => ?_⟩
        exact absurd hd (hpre l (by simpa using hl)).2
  | cons k rest ih =>
    simp only [ndScan]
    by_cases h1 : domAt F N k
    · simp only [h1, if_true]
      obtain ⟨a, b, c⟩ := ih pre (df ++ [k]) hpre (fun x hx l hl => hcompat x (by
        rcases List.mem_append.mp hx with h | h <;> simp [h]) l (by
        rcases List.mem_append.mp hl with h | h <;> simp [h]))
      refine ⟨a.trans ?_, ?_, ?_⟩
      · rw [List.perm_iff_count]; intro x; simp only [List.count_append, List.count_cons, List.count_nil]; omega
      · intro x hx
        rcases b x hx with ⟨h, h'⟩ | ⟨h, h'⟩
        · refine .inl ⟨?_, h'⟩
          rcases List.mem_append.mp h with h | h <;> simp [h]
        · refine .inr ⟨h, fun l hl hd => ?_⟩
          by_cases hlk : l = k
          · subst hlk; exact h1
          · refine h' l ?_ hd
            simp only [List.mem_append, List.mem_cons] at hl ⊢
            tauto
      · intro x hx
        rcases c x hx with h | ⟨h, h'⟩ | ⟨h, l, hl, hd⟩
        · rcases List.mem_append.mp h with h | h
          · exact .inl h
          · rw [List.mem_singleton] at h; subst h; exact .inr (.inl ⟨by simp, h1⟩)
        · exact .inr (.inl ⟨by simp [h], h'⟩)
        · exact .inr (.inr ⟨h, l, by simp [hl], hd⟩)
    · by_cases h2 : domAt F k N
      · simp only [h1, h2, if_true, if_false]
        refine ⟨?_, ?_, ?_⟩
        · rw [List.perm_iff_count]; intro x; simp only [List.count_append, List.count_cons, List.count_nil]; omega
        · intro x hx
          refine .inl ⟨hx, fun hd => ?_⟩
          exact hcompat x hx k (by simp) (domAt_trans h2 hd)
        · intro x hx
          rcases List.mem_append.mp hx with h | h
          · exact .inl h
          · exact .inr (.inr ⟨List.mem_singleton.mp h, k, by simp, h2⟩)
      · simp only [h1, h2, if_false]
        obtain ⟨a, b, c⟩ := ih (pre ++ [k]) df (by
          intro x hx
          rcases List.mem_append.mp hx with h | h
          · exact hpre x h
          · rw [List.mem_singleton] at h; subst h; exact ⟨h1, h2⟩) (by simpa using hcompat)
        refine ⟨a.trans ?_, ?_, ?_⟩
        · rw [List.perm_iff_count]; intro x; simp only [List.count_append, List.count_cons, List.count_nil]; omega
        · intro x hx
          simpa using b x hx
        · intro x hx
          rcases c x hx with h | ⟨h, h'⟩ | ⟨h, l, hl, hd⟩
          · exact .inl h
          · exact .inr (.inl ⟨by simp [h], h'⟩)
          · exact .inr (.inr ⟨h, l, by simp [hl], hd⟩)

theorem ndAdd_ok (hM : 0 < M) (F : List (Vec M)) (n : ℕ) (hn : n < F.length) (ndf df : List ℕ) (h : FrontOk F n ndf df) :
    FrontOk F (n + 1) (ndAdd (F.take (n + 1)) df ndf).1 (ndAdd (F.take (n + 1)) df ndf).2 := by
  set G := F.take (n + 1) with hG
  have hlen : G.length - 1 = n := by simp [hG]; omega
  have hdom : ∀ i j, i < n + 1 → j < n + 1 → (domAt G i j ↔ domAt F i j) := fun i j hi hj => domAt_take hi hj
  have hlt : ∀ k ∈ ndf, k < n := fun k hk => (h.mem k).mp (by simp [hk])
  have hscan : ndAdd G df ndf = ndScan G n [] ndf df := by
    unfold ndAdd
    rw [hlen]
    have := ndAddLoop_eq G n [] ndf df (by
      simp only [List.nil_append]
      rw [List.nodup_append]
      refine ⟨(List.nodup_append.mp h.nodup).1, by simp, ?_⟩
      rintro a ha b hb rfl
      rw [List.mem_singleton] at hb; subst hb
      exact lt_irrefl _ (hlt _ ha))
    simpa using this
  rw [hscan]
  obtain ⟨a, b, c⟩ := ndScan_spec G n [] ndf df (by simp) (by
    intro k hk l hl
    rw [hdom l k (by have := hlt l hl; omega) (by have := hlt k hk; omega)]
    exact h.nd k hk l (hlt l hl))
  have hperm : (ndScan G n [] ndf df).1 ++ (ndScan G n [] ndf df).2 ~ (ndf ++ df ++ [n]) := by simpa using a
  constructor
  · rw [hperm.nodup_iff, List.nodup_append]
    refine ⟨h.nodup, by simp, ?_⟩
    rintro x hx y hy rfl
    rw [List.mem_singleton] at hy; subst hy
    exact lt_irrefl _ ((h.mem _).mp hx)
  · intro k
    rw [hperm.mem_iff, List.mem_append, h.mem, List.mem_singleton]
    omega
  · intro k hk l hl
    rcases b k hk with ⟨h1, h2⟩ | ⟨h1, h2⟩
    · have h1 : k ∈ ndf := by simpa using h1
      have hkn := hlt k h1
      rcases Nat.lt_succ_iff_lt_or_eq.mp hl with hln | hln
      · exact h.nd k h1 l hln
      · subst hln; rw [← hdom _ _ hl (by omega)]; exact h2
    · subst h1
      intro hd
      rcases Nat.lt_succ_iff_lt_or_eq.mp hl with hln | hln
      · -- dominated by a member of the old front
        obtain ⟨m, hm, hmk, hmin⟩ := exists_minimal hM F (fun x => x < k) hln hd
        have hmem : m ∈ ndf := by
          rcases List.mem_append.mp ((h.mem m).mpr hm) with h3 | h3
          · exact h3
          · obtain ⟨x, hx, hxm⟩ := h.dom m h3
            exact absurd hxm (hmin x hx)
        have h4 := h2 m (by simpa using hmem) ((hdom m k (by omega) (by omega)).mpr hmk)
        have h5 := (hdom k m (by omega) (by omega)).mp h4
        exact domAt_irrefl hM F m (domAt_trans hmk h5)
      · subst hln; exact domAt_irrefl hM F _ hd
  · intro k hk
    rcases c k hk with h1 | ⟨h1, h2⟩ | ⟨h1, l, hl, h2⟩
    · obtain ⟨l, hl, hd⟩ := h.dom k h1; exact ⟨l, by omega, hd⟩
    · exact ⟨n, by omega, (hdom n k (by omega) (by have := hlt k h1; omega)).mp h2⟩
    · subst h1
      exact ⟨l, by have := hlt l hl; omega, (hdom l k (by have := hlt l hl; omega) (by omega)).mp h2⟩

theorem ndFront_ok (hM : 0 < M) (F : List (Vec M)) (hF : F ≠ []) : FrontOk F F.length (ndFront F).1 (ndFront F).2 := by
  have hpos := List.length_pos_iff.mpr hF
  unfold ndFront
  suffices H : ∀ n, n + 1 ≤ F.length → FrontOk F (n + 1)
      ((List.range' 1 n).foldl (fun s i => ndAdd (F.take (i + 1)) s.2 s.1) ([0], [])).1
      ((List.range' 1 n).foldl (fun s i => ndAdd (F.take (i + 1)) s.2 s.1) ([0], [])).2 by
    have := H (F.length - 1) (by omega)
    rwa [show F.length - 1 + 1 = F.length by omega] at this
  intro n
  induction n with
  | zero =>
    intro _
    simp only [List.range'_zero, List.foldl_nil]
    refine ⟨by simp, fun k => by simp, ?_, by simp⟩
    intro k hk l hl
    have : l = k := by have := List.mem_singleton.mp hk; omega
    subst this; exact domAt_irrefl hM F _
  | succ n ih =>
    intro hn
    rw [List.range'_1_concat, List.foldl_append, List.foldl_cons, List.foldl_nil, Nat.add_comm 1 n]
    exact ndAdd_ok hM F (n + 1) (by omega) _ _ (ih (by omega))

/-- Every column is in one of the two lists, and the front is not empty. -/
theorem ndFront_length (hM : 0 < M) (F : List (Vec M)) (hF : F ≠ []) : (ndFront F).2.length < F.length := by
  have h := ndFront_ok hM F hF
  have hlen : ((ndFront F).1 ++ (ndFront F).2).length = F.length := by
    have : ((ndFront F).1 ++ (ndFront F).2) ~ List.range F.length :=
      (List.perm_ext_iff_of_nodup h.nodup List.nodup_range).mpr fun k => by rw [h.mem, List.mem_range]
    rw [this.length_eq, List.length_range]
  have hne : (ndFront F).1 ≠ [] := by
    intro he
    have h0 : 0 ∈ (ndFront F).1 ++ (ndFront F).2 := (h.mem 0).mpr (List.length_pos_iff.mpr hF)
    rw [he, List.nil_append] at h0
    obtain ⟨l, hl, hd⟩ := h.dom 0 h0
    obtain ⟨m, hm, _, hmin⟩ := exists_minimal hM F (fun x => x < F.length) hl hd
    have h1 := (h.mem m).mpr hm
    rw [he, List.nil_append] at h1
    obtain ⟨x, hx, hxm⟩ := h.dom m h1
    exact hmin x hx hxm
  have := List.length_pos_iff.mpr hne
  rw [List.length_append] at hlen
  omega

end Verif.Utils
