import Verif.Sop.Facts

/-! # Selection of the centers, in terms of the archive (C53, C55) -/

set_option linter.unusedSectionVars false

namespace Verif.Sop

open Verif.Num Verif.Utils Verif.Strategy Verif.Spec
open List (Perm Sublist)

variable {d : ℕ} {c : Cfg d}

/-! ## Specification -/

/-- Is the archive entry `i` the center of a point that is not evaluated yet, or a center without point? -/
def Processing (z : Sop d) (i : ℕ) : Prop := ∃ ce ∈ z.centers, ce.newIndex = none ∧ ce.index = i

open Classical in
/-- The tabu status used for sorting: 2 for the centers being processed. -/
noncomputable def tabuStatus (z : Sop d) (i : ℕ) : ℕ := if Processing z i then 2 else (z.evals[i]?).elim 0 SopRec.ntabu

/-- The value of an archive entry. -/
def valueAt (z : Sop d) (i : ℕ) : Val := (z.evals[i]?).elim 0 SopRec.fx

/-- The position of an archive entry in the unit box. -/
noncomputable def unitAt (c : Cfg d) (z : Sop d) (i : ℕ) : Pt d := toUnitBox ((z.evals[i]?).elim 0 SopRec.x) c.lb c.ub

/-- Lexicographic comparison by tabu status, rank and value. -/
def LexLe (tabu : ℕ → ℕ) (rank : ℕ → WithTop ℕ) (f : ℕ → Val) (i j : ℕ) : Prop :=
  tabu i < tabu j ∨ tabu i = tabu j ∧ (rank i < rank j ∨ rank i = rank j ∧ f i ≤ f j)

/-- `b` is the first entry with the smallest value. -/
def IsBest (z : Sop d) (b : ℕ) : Prop :=
  b < z.evals.length ∧ (∀ i < z.evals.length, valueAt z b ≤ valueAt z i) ∧ ∀ i < b, valueAt z b < valueAt z i

/-- The order in which the archive is searched for centers: sorted lexicographically, except that the best point comes first
unless its tabu status is 2. -/
structure SelectionOrder (z : Sop d) (rank : ℕ → WithTop ℕ) (ord : List ℕ) : Prop where
  perm : Perm ord (List.range z.evals.length)
  order : ∃ b, IsBest z b ∧
    (tabuStatus z b ≠ 2 → ord.head? = some b ∧ (ord.erase b).Pairwise (LexLe (tabuStatus z) rank (valueAt z))) ∧
    (tabuStatus z b = 2 → ord.Pairwise (LexLe (tabuStatus z) rank (valueAt z)))

/-- The radius rule between archive entries: `i` is at least the shrunken radius of `j` away. -/
def Far (c : Cfg d) (z : Sop d) (i j : ℕ) : Prop :=
  (1 / 2) ^ ((z.evals[j]?).elim 0 SopRec.nfail) * (2 / 10) *
      (1 - (((z.evals.length : ℤ) - c.base.numPts : ℤ) : ℝ) / ((c.base.maxEvals - c.base.numPts : ℤ) : ℝ)) / Real.sqrt d ≤
    eucl (unitAt c z i) (unitAt c z j)

/-- The centers `idx` are those selected from the archive `z` according to `rank`. -/
def SelectedBy (c : Cfg d) (z : Sop d) (rank : ℕ → WithTop ℕ) (idx : List ℕ) : Prop :=
  ∃ ord ch, SelectionOrder z rank ord ∧ Greedy (Far c z) idx.length ord ch ∧ ch <+: idx ∧ (∀ i ∈ idx, i ∈ ch)

/-! ## Proof -/

theorem assignLoop_index : ∀ {pts : List (Pt d)} {cs cs' : List (Center d)}, pts.foldlM assignPoint cs = some cs' →
    cs'.map Center.index = cs.map Center.index := by
  intro pts
  induction pts with
  | nil => intro cs cs' h; simp only [List.foldlM_nil, Option.pure_def, Option.some.injEq] at h; rw [h]
  | cons x l ih =>
    intro cs cs' h
    rw [List.foldlM_cons] at h
    obtain ⟨e1, h1, h2⟩ := Option.bind_eq_some_iff.mp h
    rw [ih h2]
    obtain ⟨a, ce, b, e1, e2, _⟩ := assignPoint_spec h1
    rw [e1, e2]; simp

theorem tagged_processing (z : Sop d) (i : ℕ) :
    (z.centers.any fun ce => ce.newIndex.isNone && ce.index == i) = true ↔ Processing z i := by
  unfold Processing
  simp

/-- The tagged rows in terms of the archive. -/
theorem tagRows_ok {z : Sop d} {F : List (FRow d)} (hF : RowsOk c F z.evals) (hl : F.length = z.evals.length) {i : ℕ}
    (hi : i < z.evals.length) : ∃ row, F[i]? = some row ∧ ∃ row', (tagRows z.centers F)[i]? = some row' ∧
      row'.u = unitAt c z i ∧ row'.f = valueAt z i ∧ row'.tabu = tabuStatus z i ∧ row'.rank = row.rank ∧
      row'.nfail = (z.evals[i]?).elim 0 SopRec.nfail := by
  obtain ⟨row, r, h1, h2, h3⟩ := hF.2 i (by omega)
  refine ⟨row, h1, ?_⟩
  rw [tagRows_get, h1]
  simp only [Option.map_some]
  unfold unitAt valueAt tabuStatus
  rw [h2]
  simp only [Option.elim]
  by_cases hp : Processing z i
  · rw [if_pos ((tagged_processing z i).mpr hp)]
    exact ⟨_, rfl, h3.u, h3.f, by rw [if_pos hp], rfl, h3.nfail⟩
  · rw [if_neg (fun h => hp ((tagged_processing z i).mp h))]
    exact ⟨_, rfl, h3.u, h3.f, by rw [if_neg hp]; exact h3.tabu, rfl, h3.nfail⟩

/-- The rank column of `F`. -/
def rankAt (F : List (FRow d)) (i : ℕ) : WithTop ℕ := (F[i]?).elim ⊤ FRow.rank

theorem key_le {z : Sop d} {F : List (FRow d)} (hF : RowsOk c F z.evals) (hl : F.length = z.evals.length) {i j : ℕ}
    (hi : i < z.evals.length) (hj : j < z.evals.length) (h : key (tagRows z.centers F) i ≤ key (tagRows z.centers F) j) :
    LexLe (tabuStatus z) (rankAt F) (valueAt z) i j := by
  obtain ⟨row, hr, row', h1, h2, h3, h4, h5, h6⟩ := tagRows_ok hF hl hi
  obtain ⟨row2, hr2, row2', g1, g2, g3, g4, g5, g6⟩ := tagRows_ok hF hl hj
  unfold key at h
  rw [h1, g1] at h
  simp only [Prod.Lex.toLex_le_toLex] at h
  unfold LexLe rankAt
  rw [hr, hr2]
  simp only [Option.elim]
  rw [← h4, ← g4, ← h5, ← g5, ← h3, ← g3]
  rcases h with h | ⟨h, h'⟩
  · exact Or.inl h
  · right
    refine ⟨h, ?_⟩
    rcases h' with h' | ⟨h', h''⟩
    · exact Or.inl h'
    · right
      refine ⟨h', ?_⟩
      rcases h'' with h'' | ⟨h'', _⟩
      · exact h''.le
      · exact h''.le

theorem selectionOrder_of {z : Sop d} {F : List (FRow d)} (hF : RowsOk c F z.evals) (hl : F.length = z.evals.length)
    {mi : ℕ} (hmi : minIndex (tagRows z.centers F) = some mi) :
    SelectionOrder z (rankAt F) (bestFirst (tagRows z.centers F) (lexOrder (tagRows z.centers F)) mi) ∧ IsBest z mi ∧
      (tabuStatus z mi ≠ 2 →
        (bestFirst (tagRows z.centers F) (lexOrder (tagRows z.centers F)) mi).head? = some mi) := by
  obtain ⟨row, hrow, hmin, hfirst⟩ := minIndex_spec hmi
  have hlt : mi < z.evals.length := by
    have := (List.getElem?_eq_some_iff.mp hrow).1
    rw [tagRows_length, hl] at this
    exact this
  have hp := lexOrder_perm (tagRows z.centers F)
  rw [tagRows_length, hl] at hp
  have hmem : mi ∈ lexOrder (tagRows z.centers F) := hp.mem_iff.mpr (List.mem_range.mpr hlt)
  obtain ⟨_, _, row', h1, _, h3, h4, _, _⟩ := tagRows_ok hF hl hlt
  rw [hrow] at h1
  simp only [Option.some.injEq] at h1
  subst h1
  have hbest : IsBest z mi := by
    refine ⟨hlt, ?_, ?_⟩
    · intro i hi
      obtain ⟨_, _, row', h1, _, h3', _⟩ := tagRows_ok hF hl hi
      rw [← h3, ← h3']
      exact hmin row' (List.mem_iff_getElem?.mpr ⟨i, h1⟩)
    · intro i hi
      obtain ⟨_, _, row', h1, _, h3', _⟩ := tagRows_ok hF hl (lt_trans hi hlt)
      rw [← h3, ← h3']
      exact hfirst i row' hi h1
  have hsorted : (lexOrder (tagRows z.centers F)).Pairwise (LexLe (tabuStatus z) (rankAt F) (valueAt z)) := by
    refine List.Pairwise.imp_of_mem ?_ (lexOrder_sorted (tagRows z.centers F))
    intro i j hi hj h
    exact key_le hF hl (List.mem_range.mp (hp.mem_iff.mp hi)) (List.mem_range.mp (hp.mem_iff.mp hj)) h
  have hhead : tabuStatus z mi ≠ 2 →
      (bestFirst (tagRows z.centers F) (lexOrder (tagRows z.centers F)) mi).head? = some mi := by
    intro ht
    unfold bestFirst
    by_cases hh : (lexOrder (tagRows z.centers F)).head? = some mi
    · rw [if_pos (Or.inl hh)]; exact hh
    · rw [if_neg]
      · rfl
      · rintro (h | h)
        · exact hh h
        · rw [hrow] at h
          simp only [Option.map_some, Option.some.injEq] at h
          exact ht (h4 ▸ h)
  refine ⟨⟨(bestFirst_perm hmem).trans hp, mi, hbest, ?_, ?_⟩, hbest, hhead⟩
  · intro ht
    refine ⟨hhead ht, ?_⟩
    have : ((bestFirst (tagRows z.centers F) (lexOrder (tagRows z.centers F)) mi).erase mi).Sublist
        (lexOrder (tagRows z.centers F)) := by
      unfold bestFirst
      split
      · exact List.erase_sublist
      · simp only [List.erase_cons_head]; exact List.erase_sublist
    exact hsorted.sublist this
  · intro ht
    unfold bestFirst
    rw [if_pos]
    · exact hsorted
    · right
      rw [hrow]
      simp only [Option.map_some, Option.some.injEq]
      exact h4.trans ht

theorem far_of {z : Sop d} {F : List (FRow d)} (hF : RowsOk c F z.evals) (hl : F.length = z.evals.length) {dt : ℝ}
    (hdt : dThreshOf c z.evals.length = some dt) {i j : ℕ} (hi : i < z.evals.length) (hj : j < z.evals.length) :
    farRow (tagRows z.centers F) dt i j ↔ Far c z i j := by
  obtain ⟨_, _, row', h1, h2, _, _, _, h6⟩ := tagRows_ok hF hl hi
  obtain ⟨_, _, row2', g1, g2, _, _, _, g6⟩ := tagRows_ok hF hl hj
  unfold farRow Far
  rw [h1, g1]
  simp only [Option.elim]
  rw [h2, g2, g6]
  have : dt = 1 - (((z.evals.length : ℤ) - c.base.numPts : ℤ) : ℝ) / ((c.base.maxEvals - c.base.numPts : ℤ) : ℝ) := by
    unfold dThreshOf at hdt
    split at hdt
    · simp at hdt
    · simp only [Option.some.injEq] at hdt; exact hdt.symm
  rw [this]
  have hr : (radius0 : ℝ) = 2 / 10 := by unfold radius0; norm_num
  rw [hr]
  rfl

theorem greedy_congr {far far' : ℕ → ℕ → Prop} {k : ℕ} {ord ch : List ℕ} (h : Greedy far k ord ch)
    (he : ∀ i ∈ ord, ∀ j ∈ ord, (far i j ↔ far' i j)) : Greedy far' k ord ch := by
  refine ⟨h.sub, fun p i s ho => ?_⟩
  rw [h.iff p i s ho]
  have hi : i ∈ ord := by rw [ho]; simp
  constructor
  · rintro ⟨h1, h2⟩
    exact ⟨h1, fun j hj hp => (he i hi j (h.sub.subset hj)).mp (h2 j hj hp)⟩
  · rintro ⟨h1, h2⟩
    exact ⟨h1, fun j hj hp => (he i hi j (h.sub.subset hj)).mpr (h2 j hj hp)⟩

/-- The centers after `update_center_list` with an up-to-date ranked archive. -/
theorem updateCenterList_selected {z z' : Sop d} {F : List (FRow d)} (hFz : z.F = some F) (hF : RowsOk c F z.evals)
    (hl : F.length = z.evals.length) (h : z.updateCenterList c z.evals.length = some z') :
    ∃ idx, z'.centers.map Center.index = (z.centers.filter fun ce => ce.newIndex.isNone).map Center.index ++ idx ∧
      idx.length = c.ncenters - (z.centers.filter fun ce => ce.newIndex.isNone).length ∧
      (idx ≠ [] → SelectedBy c z (rankAt F) idx) ∧
      (∀ b, IsBest z b → tabuStatus z b ≠ 2 → idx ≠ [] → idx.head? = some b) := by
  obtain ⟨F', dt, mi, hF', hdt, hmi, _, _, new, hc, _, hnl, hsel⟩ := updateCenterList_spec h
  rw [hFz] at hF'
  simp only [Option.some.injEq] at hF'
  subst hF'
  obtain ⟨hord, hbest, hhead⟩ := selectionOrder_of hF hl hmi
  refine ⟨new.map Center.index, by rw [hc, List.map_append], by rw [List.length_map, hnl], ?_, ?_⟩
  · intro hne
    obtain ⟨ch, hchne, hg, hfill, hchl, _, _⟩ := hsel (by intro h0; rw [h0] at hne; simp at hne)
    refine ⟨_, ch, hord, ?_, ?_, ?_⟩
    · rw [List.length_map]
      refine greedy_congr hg fun i hi j hj => far_of hF hl hdt ?_ ?_
      · exact List.mem_range.mp (hord.perm.mem_iff.mp hi)
      · exact List.mem_range.mp (hord.perm.mem_iff.mp hj)
    · rw [hfill]; exact fillUp_prefix _ _
    · rw [hfill]; exact fillUp_mem hchne
  · intro b hb ht hne
    have hbm : b = mi := by
      rcases lt_trichotomy b mi with h | h | h
      · have h1 := hbest.2.2 b h
        have h2 := hb.2.1 mi hbest.1
        exact absurd h2 (not_le.mpr h1)
      · exact h
      · have h1 := hb.2.2 mi h
        have h2 := hbest.2.1 b hb.1
        exact absurd h2 (not_le.mpr h1)
    subst hbm
    obtain ⟨ch, _, _, _, _, _, hh⟩ := hsel (by intro h0; rw [h0] at hne; simp at hne)
    rw [hh]
    exact hhead ht

theorem processing_congr {z z' : Sop d} (hc : z'.centers = z.centers) (he : z'.evals = z.evals) (b : ℕ) :
    tabuStatus z' b = tabuStatus z b ∧ valueAt z' b = valueAt z b ∧ (IsBest z' b ↔ IsBest z b) := by
  obtain ⟨e, cs, F⟩ := z
  obtain ⟨e', cs', F'⟩ := z'
  simp only at hc he
  subst hc he
  exact ⟨rfl, rfl, Iff.rfl⟩

theorem selectedBy_congr {z z' : Sop d} (hc : z'.centers = z.centers) (he : z'.evals = z.evals)
    (rank : ℕ → WithTop ℕ) (idx : List ℕ) : SelectedBy c z' rank idx ↔ SelectedBy c z rank idx := by
  obtain ⟨e, cs, F⟩ := z
  obtain ⟨e', cs', F'⟩ := z'
  simp only at hc he
  subst hc he
  constructor
  · rintro ⟨ord, ch, h1, h2, h3⟩
    exact ⟨ord, ch, ⟨h1.perm, h1.order⟩, h2, h3⟩
  · rintro ⟨ord, ch, h1, h2, h3⟩
    exact ⟨ord, ch, ⟨h1.perm, h1.order⟩, h2, h3⟩

/-- The ranked archive is up to date. -/
def Fresh (z : Sop d) : Prop := ∀ F, z.F = some F → F.length = z.evals.length

/-- The centers after `generate_evals`. -/
theorem generate_selected {z z' : Sop d} {pts : List (Pt d)} (hz : CInv c z) (hfresh : Fresh z)
    (h : z.generate c z.evals.length pts = some z') :
    ∃ F idx, z'.F = some F ∧ F.length = z.evals.length ∧
      (z.F = none → ∃ ds, distCol ((z.evals.map (fRow c)).map FRow.u) = some ds ∧ F = rankRows (z.evals.map (fRow c)) ds) ∧
      (z.F ≠ none → z.F = some F) ∧
      z'.centers.map Center.index = (z.centers.filter fun ce => ce.newIndex.isNone).map Center.index ++ idx ∧
      idx.length = c.ncenters - (z.centers.filter fun ce => ce.newIndex.isNone).length ∧
      (idx ≠ [] → SelectedBy c z (rankAt F) idx) ∧
      (∀ b, IsBest z b → tabuStatus z b ≠ 2 → idx ≠ [] → idx.head? = some b) := by
  obtain ⟨z1, z2, h1, h2, h3, h4⟩ := generate_spec h
  have hidx := assignLoop_index h3
  have key : ∃ F, z1.F = some F ∧ RowsOk c F z1.evals ∧ F.length = z1.evals.length ∧ z1.evals = z.evals ∧ z1.centers = z.centers ∧
      (z.F = none → ∃ ds, distCol ((z.evals.map (fRow c)).map FRow.u) = some ds ∧ F = rankRows (z.evals.map (fRow c)) ds) ∧
      (z.F ≠ none → z.F = some F) := by
    rcases h1 with ⟨hn, h1⟩ | ⟨hne, rfl⟩
    · have hci := updateRanks_cinv h1 hz
      obtain ⟨hl, ds, hds, rfl⟩ := updateRanks_spec h1
      refine ⟨_, rfl, hci.rows _ rfl, ?_, rfl, rfl, fun _ => ⟨ds, hds, rfl⟩, fun hne => absurd hn hne⟩
      have := (distCol_spec hds).1
      rw [rankRows_length (by simpa using this)]
      simp
    · obtain ⟨F, hF⟩ := Option.ne_none_iff_exists'.mp hne
      exact ⟨F, hF, hz.rows F hF, hfresh F hF, rfl, rfl, fun h0 => absurd h0 hne, fun _ => hF⟩
  obtain ⟨F, hF, hrows, hl, he, hc, k1, k2⟩ := key
  rw [← he] at h2
  obtain ⟨idx, g1, g2, g3, g4⟩ := updateCenterList_selected hF hrows hl h2
  have hkeep := updateCenterList_keeps h2
  refine ⟨F, idx, ?_, by rw [hl, he], k1, k2, ?_, ?_, ?_, ?_⟩
  · rw [h4]; simp only; rw [hkeep.2, hF]
  · rw [hidx, g1, hc]
  · rw [g2, hc]
  · intro hne
    exact (selectedBy_congr hc he _ _).mp (g3 hne)
  · intro b hb ht hne
    obtain ⟨p1, _, p3⟩ := processing_congr hc he b
    exact g4 b (p3.mpr hb) (by rw [p1]; exact ht) hne

end Verif.Sop
