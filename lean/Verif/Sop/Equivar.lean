import Verif.Sop.Steps
import Verif.Sop.Centers
import Verif.Props.Pareto
import Verif.Units.Strategy
import Verif.Units.Points

/-!
# SOP in other units

`Sop.map g γ φ` replaces every point `x` in the memory of SOP by `g x` and every value `v` by `φ v`.  If `g` does not change the
position in the unit box (of the converted bounds) and `φ` is strictly increasing, every step of SOP commutes with this.  More generally `g` may change the position in the unit box by an isometry `γ`.
-/

namespace Verif.Sop

open Verif.Num Verif.Utils Verif.Strategy Verif.Spec

variable {d : ℕ}

/-! ## Ranks depend on comparisons only -/

/-- The comparisons between the columns are the same. -/
def SameDom {M : ℕ} (F F' : List (Utils.Vec M)) : Prop :=
  F.length = F'.length ∧ ∀ k l, ∀ (hk : k < F.length) (hl : l < F.length) (hk' : k < F'.length) (hl' : l < F'.length),
    (∀ i, F[l] i < F[k] i) ↔ ∀ i, F'[l] i < F'[k] i

theorem SameDom.isRank {M : ℕ} {F F' : List (Utils.Vec M)} (h : SameDom F F') {r : ℕ → ℕ} (hr : Props.IsRank F r) :
    Props.IsRank F' r := by
  intro k hk
  have hk0 : k < F.length := by rw [h.1]; exact hk
  rw [hr k hk0]
  congr 1
  refine congrArg (fun s : Finset ℕ => s.sup r) ?_
  ext l
  simp only [Finset.mem_filter, Finset.mem_range]
  constructor
  · rintro ⟨hl0, _, h1⟩
    have hl : l < F'.length := by rw [← h.1]; exact hl0
    exact ⟨hl, hl, (h.2 k l hk0 hl0 hk hl).1 h1⟩
  · rintro ⟨hl, _, h1⟩
    have hl0 : l < F.length := by rw [h.1]; exact hl
    exact ⟨hl0, hl0, (h.2 k l hk0 hl0 hk hl).2 h1⟩

theorem ndSorting_congr {M : ℕ} (hM : 0 < M) {F F' : List (Utils.Vec M)} (h : SameDom F F') (nmax k : ℕ) (hk : k < F.length) :
    haveI : NeZero M := ⟨hM.ne'⟩
    ndSorting F nmax k = ndSorting F' nmax k := by
  obtain ⟨r, hr, R, h1, h2, h3⟩ := Props.C41_sorting hM F nmax
  obtain ⟨r', hr', R', h1', h2', h3'⟩ := Props.C41_sorting hM F' nmax
  have hk' : k < F'.length := by rw [← h.1]; exact hk
  have he : ∀ j < F.length, r j = r' j := fun j hj =>
    Props.C41_unique hM F' r r' (h.isRank hr) hr' j (by rw [← h.1]; exact hj)
  have hcard : ∀ R, ((Finset.range F.length).filter fun k => r k ≤ R).card =
      ((Finset.range F'.length).filter fun k => r' k ≤ R).card := by
    intro R
    rw [← h.1]
    congr 1
    refine Finset.filter_congr fun j hj => ?_
    rw [he j (Finset.mem_range.mp hj)]
  rw [h1 k hk, h1' k hk', ← he k hk]
  suffices hR : r k ≤ R ↔ r k ≤ R' by simp only [hR]
  rcases Nat.lt_or_ge F.length nmax with hlt | hge
  · -- all points are ranked
    have hall : ∀ (n : ℕ) (r : ℕ → ℕ) (R : ℕ), n ≤ ((Finset.range n).filter fun k => r k ≤ R).card → ∀ j < n, r j ≤ R := by
      intro n r R hc j hj
      have hsub := Finset.eq_of_subset_of_card_le (Finset.filter_subset (fun k => r k ≤ R) (Finset.range n))
        (by simpa using hc)
      have : j ∈ (Finset.range n).filter fun k => r k ≤ R := by rw [hsub]; exact Finset.mem_range.mpr hj
      exact (Finset.mem_filter.mp this).2
    have a1 := hall _ r R (by rw [Nat.min_eq_right hlt.le] at h2; exact h2) k hk
    have a2 := hall _ r' R' (by rw [Nat.min_eq_right (by rw [← h.1]; exact hlt.le)] at h2'; exact h2') k hk'
    rw [← he k hk] at a2
    exact ⟨fun _ => a2, fun _ => a1⟩
  · rw [Nat.min_eq_left hge] at h2
    rw [Nat.min_eq_left (by rw [← h.1]; exact hge)] at h2'
    have : R = R' := by
      rcases lt_trichotomy R R' with hlt | he' | hlt
      · have := h3' R hlt; rw [← hcard] at this; omega
      · exact he'
      · have := h3 R' hlt; rw [hcard] at this; omega
    rw [this]

/-! ## The map -/

variable (g γ : Pt d → Pt d) (φ : Val → Val)

/-- Converts a record. -/
def SopRec.map (r : SopRec d) : SopRec d := { r with x := g r.x, fx := φ r.fx }

/-- Converts a center. -/
def Center.map (ce : Center d) : Center d := { ce with xc := g ce.xc, newPoint := ce.newPoint.map g }

/-- Converts a row (the point is relative to the unit box). -/
def FRow.map (r : FRow d) : FRow d := { r with u := γ r.u, f := φ r.f }

/-- Converts the memory. -/
def Sop.map (z : Sop d) : Sop d where
  evals := z.evals.map (SopRec.map g φ)
  centers := z.centers.map (Center.map g)
  F := z.F.map fun F => F.map (FRow.map γ φ)

/-- Converts everything. -/
def SopSys.map (w : SopSys d) : SopSys d := ⟨(w.sys.mapPt g).mapVal φ, w.sop.map g γ φ⟩

/-- Converts an event. -/
def opMap (op : Strategy.Op (Pt d)) : Strategy.Op (Pt d) := (op.mapPt g).mapVal φ

/-- `c'` is `c` in the new units. -/
structure Converts (g γ : Pt d → Pt d) (φ : Val → Val) (c c' : Cfg d) : Prop where
  inj : Function.Injective g
  iso : ∀ x y, eucl (γ x) (γ y) = eucl x y
  mono : StrictMono φ
  base : c'.base = (c.base.mapPt g).mapVal φ
  unit : ∀ x, toUnitBox (g x) c'.lb c'.ub = γ (toUnitBox x c.lb c.ub)
  ncenters : c'.ncenters = c.ncenters

variable {g γ φ} {c c' : Cfg d}

theorem fRow_map (h : Converts g γ φ c c') (r : SopRec d) : fRow c' (r.map g φ) = (fRow c r).map γ φ := by
  simp [fRow, SopRec.map, FRow.map, h.unit]

theorem updateF_map (h : Converts g γ φ c c') (n : ℕ) (z : Sop d) :
    (z.map g γ φ).updateF c' n = (z.updateF c n).map (Sop.map g γ φ) := by
  unfold Sop.updateF
  have hl : (z.map g γ φ).evals.length = z.evals.length := by simp [Sop.map]
  rw [hl]
  split
  · simp only [Option.map_some, Option.some.injEq]
    simp only [Sop.map, Option.map_some, List.map_map, Sop.mk.injEq, true_and, Option.some.injEq]
    exact List.map_congr_left fun r _ => fRow_map h r
  · rfl

theorem objVecs_map (hφ : StrictMono φ) (rows : List (FRow d)) (ds : List ℝ) :
    SameDom (objVecs rows ds) (objVecs (rows.map (FRow.map γ φ)) ds) := by
  unfold objVecs
  refine ⟨by simp, fun k l hk hl hk' hl' => ?_⟩
  simp only [List.length_map, List.length_zip] at hk hl
  simp only [List.getElem_map, List.getElem_zip, Fin.forall_fin_two, Matrix.cons_val_zero, Matrix.cons_val_one]
  have : ∀ a b : ℚ, ((φ a : ℚ) : ℝ) < ((φ b : ℚ) : ℝ) ↔ (a : ℝ) < (b : ℝ) := fun a b => by
    rw [Rat.cast_lt, Rat.cast_lt]; exact hφ.lt_iff_lt
  simp only [FRow.map, this]

theorem rankRows_map (hφ : StrictMono φ) (rows : List (FRow d)) (ds : List ℝ) :
    rankRows (rows.map (FRow.map γ φ)) ds = (rankRows rows ds).map (FRow.map γ φ) := by
  unfold rankRows
  refine List.ext_getElem (by simp) fun k h1 h2 => ?_
  simp only [List.getElem_map, List.getElem_zipIdx, List.getElem_zip, FRow.map, FRow.mk.injEq, true_and, Nat.zero_add]
  simp only [List.length_map, List.length_zipIdx, List.length_zip] at h1
  refine ⟨?_, trivial⟩
  congr 1
  exact (ndSorting_congr (by norm_num) (objVecs_map hφ rows ds) 100 k (by simp [objVecs]; omega)).symm

theorem distCol_map (hγ : ∀ x y, eucl (γ x) (γ y) = eucl x y) (us : List (Pt d)) : distCol (us.map γ) = distCol us := by
  have hrow : ∀ u, (us.map γ).map (fun u' => eucl (γ u) u') = us.map fun u' => eucl u u' := fun u => by
    rw [List.map_map]; exact List.map_congr_left fun u' _ => hγ u u'
  have hall : ∀ l : List (Pt d), (l.map γ).mapM (fun u => (minNonzero ((us.map γ).map fun u' => eucl u u')).map fun m => -m) =
      l.mapM fun u => (minNonzero (us.map fun u' => eucl u u')).map fun m => -m := by
    intro l
    induction l with
    | nil => rfl
    | cons u l ih => rw [List.map_cons, List.mapM_cons, List.mapM_cons, ih, hrow]
  exact hall us

theorem updateRanks_map (h : Converts g γ φ c c') (n : ℕ) (z : Sop d) :
    (z.map g γ φ).updateRanks c' n = (z.updateRanks c n).map (Sop.map g γ φ) := by
  unfold Sop.updateRanks
  rw [updateF_map h]
  cases z.updateF c n with
  | none => rfl
  | some z =>
    simp only [Option.map_some]
    have hr : (z.map g γ φ).evals.map (fRow c') = (z.evals.map (fRow c)).map (FRow.map γ φ) := by
      simp only [Sop.map, List.map_map]
      exact List.map_congr_left fun r _ => fRow_map h r
    rw [hr]
    have hu : ((z.evals.map (fRow c)).map (FRow.map γ φ)).map FRow.u = ((z.evals.map (fRow c)).map FRow.u).map γ := by
      simp [List.map_map, FRow.map, Function.comp_def]
    rw [hu, distCol_map h.iso]
    cases distCol ((z.evals.map (fRow c)).map FRow.u) with
    | none => rfl
    | some ds =>
      simp only [Option.map_some, Option.some.injEq]
      rw [rankRows_map h.mono]
      rfl

/-! ## Centers -/

theorem any_map (cs : List (Center d)) (i : ℕ) :
    ((cs.map (Center.map g)).any fun ce => ce.newIndex.isNone && ce.index == i) =
      cs.any fun ce => ce.newIndex.isNone && ce.index == i := by
  rw [List.any_map]; rfl

theorem tagRows_map (cs : List (Center d)) (F : List (FRow d)) :
    tagRows (cs.map (Center.map g)) (F.map (FRow.map γ φ)) = (tagRows cs F).map (FRow.map γ φ) := by
  unfold tagRows
  refine List.ext_getElem (by simp) fun k h1 h2 => ?_
  simp only [List.getElem_map, List.getElem_zipIdx, any_map]
  split <;> rfl

theorem insertionSort_congr {α : Type} (r s : α → α → Prop) [DecidableRel r] [DecidableRel s] (l : List α)
    (h : ∀ a ∈ l, ∀ b ∈ l, r a b ↔ s a b) : l.insertionSort r = l.insertionSort s := by
  induction l with
  | nil => rfl
  | cons a l ih =>
    rw [List.insertionSort_cons, List.insertionSort_cons, ih fun x hx y hy => h x (by simp [hx]) y (by simp [hy])]
    have hm : ∀ b ∈ l.insertionSort s, r a b ↔ s a b := fun b hb =>
      h a (by simp) b (by simp [(List.perm_insertionSort s l).mem_iff.mp hb])
    generalize l.insertionSort s = m at hm ⊢
    induction m with
    | nil => rfl
    | cons b m ihm =>
      simp only [List.orderedInsert_cons]
      have hb := hm b (by simp)
      by_cases hab : r a b
      · rw [if_pos hab, if_pos (hb.1 hab)]
      · rw [if_neg hab, if_neg (fun h' => hab (hb.2 h')), ihm fun x hx => hm x (by simp [hx])]

theorem key_map (hφ : StrictMono φ) (F : List (FRow d)) {i j : ℕ} (hi : i < F.length) (hj : j < F.length) :
    key (F.map (FRow.map γ φ)) i ≤ key (F.map (FRow.map γ φ)) j ↔ key F i ≤ key F j := by
  unfold key
  simp only [List.getElem?_map, List.getElem?_eq_getElem hi, List.getElem?_eq_getElem hj, Option.map_some]
  simp only [Prod.Lex.toLex_le_toLex, FRow.map, hφ.lt_iff_lt, hφ.injective.eq_iff]

theorem lexOrder_map (hφ : StrictMono φ) (F : List (FRow d)) : lexOrder (F.map (FRow.map γ φ)) = lexOrder F := by
  unfold lexOrder
  rw [List.length_map]
  refine insertionSort_congr _ _ _ fun i hi j hj => key_map hφ F (List.mem_range.mp hi) (List.mem_range.mp hj)

theorem min?_map (hφ : StrictMono φ) (l : List Val) : (l.map φ).min? = l.min?.map φ := by
  rcases hl : l.min? with _ | m
  · rw [List.min?_eq_none_iff] at hl; subst hl; rfl
  · replace hl := List.min?_eq_some_iff.mp hl
    rw [Option.map_some]
    refine List.min?_eq_some_iff.mpr ?_
    refine ⟨List.mem_map_of_mem hl.1, fun b hb => ?_⟩
    obtain ⟨a, ha, rfl⟩ := List.mem_map.mp hb
    exact hφ.le_iff_le.mpr (hl.2 a ha)

theorem minIndex_map (hφ : StrictMono φ) (F : List (FRow d)) : minIndex (F.map (FRow.map γ φ)) = minIndex F := by
  unfold minIndex
  have hf : (F.map (FRow.map γ φ)).map FRow.f = (F.map FRow.f).map φ := by simp [List.map_map, FRow.map, Function.comp_def]
  rw [hf, min?_map hφ]
  cases (F.map FRow.f).min? with
  | none => rfl
  | some m =>
    simp only [Option.map_some, Option.some.injEq]
    rw [List.findIdx_map]
    congr 1
    funext a
    simp [hφ.injective.eq_iff]

theorem bestFirst_map (F : List (FRow d)) (ind : List ℕ) (mi : ℕ) :
    bestFirst (F.map (FRow.map γ φ)) ind mi = bestFirst F ind mi := by
  unfold bestFirst
  have : ((F.map (FRow.map γ φ))[mi]?).map FRow.tabu = (F[mi]?).map FRow.tabu := by
    rw [List.getElem?_map]; cases F[mi]? <;> rfl
  rw [this]

theorem rule_map (hγ : ∀ x y, eucl (γ x) (γ y) = eucl x y) (x : Pt d) (sigma dt : ℝ) (l : List (Pt d × ℕ)) :
    checkRadiusRule (γ x) sigma dt (l.map fun p => (γ p.1, p.2)) = checkRadiusRule x sigma dt l := by
  induction l with
  | nil => rfl
  | cons p l ih =>
    obtain ⟨y, n⟩ := p
    simp only [List.map_cons, checkRadiusRule, hγ, ih]

theorem centerRows_map (F : List (FRow d)) (chosen : List ℕ) (hc : ∀ i ∈ chosen, i < F.length) :
    centerRows (F.map (FRow.map γ φ)) chosen = (centerRows F chosen).map fun p => (γ p.1, p.2) := by
  unfold centerRows
  rw [List.map_map]
  refine List.map_congr_left fun i hi => ?_
  rw [List.getElem?_map, Function.comp, List.getElem?_eq_getElem (hc i hi)]
  rfl

theorem rowPt_map (F : List (FRow d)) {i : ℕ} (hi : i < F.length) : rowPt (F.map (FRow.map γ φ)) i = γ (rowPt F i) := by
  unfold rowPt
  rw [List.getElem?_map, List.getElem?_eq_getElem hi]
  rfl

theorem chooseLoop_map (hγ : ∀ x y, eucl (γ x) (γ y) = eucl x y) (F : List (FRow d)) (dt : ℝ) (k : ℕ) (l chosen : List ℕ)
    (hl : ∀ i ∈ l, i < F.length) (hc : ∀ i ∈ chosen, i < F.length) :
    chooseLoop (F.map (FRow.map γ φ)) dt k l chosen = chooseLoop F dt k l chosen := by
  induction l generalizing chosen with
  | nil => rfl
  | cons i rest ih =>
    have hi := hl i (by simp)
    have hr : ∀ j ∈ rest, j < F.length := fun j hj => hl j (by simp [hj])
    have hci : ∀ j ∈ chosen ++ [i], j < F.length := fun j hj => by
      rcases List.mem_append.mp hj with hj | hj
      · exact hc j hj
      · rw [List.mem_singleton.mp hj]; exact hi
    simp only [chooseLoop, rowPt_map F hi, centerRows_map F chosen hc, rule_map hγ, ih chosen hr hc, ih _ hr hci]

theorem chooseCenters_map (hγ : ∀ x y, eucl (γ x) (γ y) = eucl x y) (F : List (FRow d)) (n : ℕ) (dt : ℝ) (k : ℕ)
    (ind : List ℕ) (hi : ∀ i ∈ ind, i < F.length) :
    chooseCenters (F.map (FRow.map γ φ)) n dt k ind = chooseCenters F n dt k ind := by
  unfold chooseCenters
  cases ind with
  | nil => rfl
  | cons i rest =>
    have := chooseLoop_map (φ := φ) hγ F dt k rest [i] (fun j hj => hi j (by simp [hj])) (fun j hj => hi j (by simp_all))
    simp only [this, List.length_map]

theorem mem_bestFirst {F : List (FRow d)} {mi : ℕ} (h : minIndex F = some mi) :
    ∀ i ∈ bestFirst F (lexOrder F) mi, i < F.length := by
  have hm : mi ∈ lexOrder F := (lexOrder_perm F).mem_iff.mpr (List.mem_range.mpr (by
    obtain ⟨row, hr, _⟩ := minIndex_spec h
    exact (List.getElem?_eq_some_iff.mp hr).1))
  intro i hi
  exact List.mem_range.mp ((lexOrder_perm F).mem_iff.mp ((bestFirst_perm hm).mem_iff.mp hi))

theorem newCenters_map (evals : List (SopRec d)) (idx : List ℕ) :
    newCenters (evals.map (SopRec.map g φ)) idx = (newCenters evals idx).map fun cs => cs.map (Center.map g) := by
  unfold newCenters
  induction idx with
  | nil => rfl
  | cons i idx ih =>
    rw [List.mapM_cons, List.mapM_cons, ih, List.getElem?_map]
    cases evals[i]? with
    | none => rfl
    | some r =>
      cases (idx.mapM fun i => (evals[i]?).map fun r => ({ xc := r.x, index := i, newPoint := none, newIndex := none } : Center d)) <;> rfl

theorem updateCenterList_map (h : Converts g γ φ c c') (n : ℕ) (z : Sop d) :
    (z.map g γ φ).updateCenterList c' n = (z.updateCenterList c n).map (Sop.map g γ φ) := by
  have hd : dThreshOf c' n = dThreshOf c n := by unfold dThreshOf; rw [h.base]; rfl
  unfold Sop.updateCenterList
  rw [hd, show (z.map g γ φ).F = z.F.map fun F => F.map (FRow.map γ φ) from rfl]
  cases z.F with
  | none => rfl
  | some F =>
    cases dThreshOf c n with
    | none => rfl
    | some dt =>
      simp only [Option.map_some]
      rw [show (z.map g γ φ).centers = z.centers.map (Center.map g) from rfl, tagRows_map, minIndex_map h.mono,
        lexOrder_map h.mono]
      have hf : ((z.centers.map (Center.map g)).filter fun ce => ce.newIndex.isNone) =
          (z.centers.filter fun ce => ce.newIndex.isNone).map (Center.map g) := by
        rw [List.filter_map]; rfl
      cases hmi : minIndex (tagRows z.centers F) with
      | none => rfl
      | some mi =>
        have hch := fun k => chooseCenters_map (φ := φ) h.iso (tagRows z.centers F) n dt k _ (mem_bestFirst hmi)
        simp only [bestFirst_map, hch, hf, List.length_map, h.ncenters]
        split
        · rw [show (z.map g γ φ).evals = z.evals.map (SopRec.map g φ) from rfl]
          cases chooseCenters (tagRows z.centers F) n dt (c.ncenters - (z.centers.filter fun ce => ce.newIndex.isNone).length)
              (bestFirst (tagRows z.centers F) (lexOrder (tagRows z.centers F)) mi) with
          | none => rfl
          | some idx =>
            simp only [Option.bind_some, newCenters_map]
            cases newCenters z.evals idx with
            | none => rfl
            | some new => simp [Sop.map]
        · simp [Sop.map]

theorem assignPoint_map (cs : List (Center d)) (x : Pt d) :
    assignPoint (cs.map (Center.map g)) (g x) = (assignPoint cs x).map fun cs => cs.map (Center.map g) := by
  induction cs with
  | nil => rfl
  | cons ce rest ih =>
    simp only [List.map_cons, assignPoint]
    rw [show (ce.map g).newPoint = ce.newPoint.map g from rfl]
    cases ce.newPoint with
    | none => simp [Center.map]
    | some y =>
      simp only [Option.map_some, ih]
      cases assignPoint rest x <;> rfl

theorem foldlM_assign_map (pts : List (Pt d)) (cs : List (Center d)) :
    (pts.map g).foldlM assignPoint (cs.map (Center.map g)) = (pts.foldlM assignPoint cs).map fun cs => cs.map (Center.map g) := by
  induction pts generalizing cs with
  | nil => rfl
  | cons x pts ih =>
    simp only [List.map_cons, List.foldlM_cons, assignPoint_map]
    cases assignPoint cs x with
    | none => rfl
    | some cs => exact ih cs

theorem generate_map (h : Converts g γ φ c c') (n : ℕ) (pts : List (Pt d)) (z : Sop d) :
    (z.map g γ φ).generate c' n (pts.map g) = (z.generate c n pts).map (Sop.map g γ φ) := by
  have hf : (z.map g γ φ).firstRanks c' n = (z.firstRanks c n).map (Sop.map g γ φ) := by
    unfold Sop.firstRanks
    rw [show (z.map g γ φ).F = z.F.map fun F => F.map (FRow.map γ φ) from rfl]
    cases hz : z.F with
    | none => simp only [Option.map_none]; exact updateRanks_map h n z
    | some F => rfl
  unfold Sop.generate
  rw [hf]
  cases z.firstRanks c n with
  | none => rfl
  | some z1 =>
    simp only [Option.map_some, updateCenterList_map h]
    cases z1.updateCenterList c n with
    | none => rfl
    | some z2 =>
      simp only [Option.map_some]
      rw [show (z2.map g γ φ).centers = z2.centers.map (Center.map g) from rfl, foldlM_assign_map]
      cases pts.foldlM assignPoint z2.centers <;> rfl

/-! ## Memory -/

theorem modify_map (evals : List (SopRec d)) (i : ℕ) (f : SopRec d → SopRec d)
    (hf : ∀ r, f (r.map g φ) = (f r).map g φ) :
    (evals.map (SopRec.map g φ)).modify i f = (evals.modify i f).map (SopRec.map g φ) := by
  refine List.ext_getElem (by simp) fun k h1 h2 => ?_
  simp only [List.getElem_map, List.getElem_modify]
  split
  · exact hf _
  · rfl

theorem failStep_map (F : List (FRow d)) (cs : List (Center d)) (evals : List (SopRec d)) (i : ℕ) :
    failStep (F.map (FRow.map γ φ)) (cs.map (Center.map g)) (evals.map (SopRec.map g φ)) i =
      (failStep F cs evals i).map fun e => e.map (SopRec.map g φ) := by
  unfold failStep
  rw [List.getElem?_map]
  cases cs[i]? with
  | none => rfl
  | some ce =>
    simp only [Option.map_some]
    rw [show (ce.map g).newIndex = ce.newIndex from rfl, show (ce.map g).index = ce.index from rfl]
    have hb : (ce.newIndex.bind fun ni => (F.map (FRow.map γ φ))[ni]?) =
        (ce.newIndex.bind fun ni => F[ni]?).map (FRow.map γ φ) := by
      cases ce.newIndex with
      | none => rfl
      | some ni => simp
    rw [hb]
    cases ce.newIndex.bind fun ni => F[ni]? with
    | none => rfl
    | some row =>
      simp only [Option.map_some, Option.some.injEq]
      rw [show (row.map γ φ).rank = row.rank from rfl]
      split
      · rfl
      · exact modify_map _ _ _ fun r => rfl

theorem foldlM_fail_map (F : List (FRow d)) (cs : List (Center d)) (l : List ℕ) (evals : List (SopRec d)) :
    l.foldlM (failStep (F.map (FRow.map γ φ)) (cs.map (Center.map g))) (evals.map (SopRec.map g φ)) =
      (l.foldlM (failStep F cs) evals).map fun e => e.map (SopRec.map g φ) := by
  induction l generalizing evals with
  | nil => rfl
  | cons i l ih =>
    simp only [List.foldlM_cons, failStep_map]
    cases failStep F cs evals i with
    | none => rfl
    | some e => exact ih e

theorem tabuStep_map (cs : List (Center d)) (evals : List (SopRec d)) (i : ℕ) :
    tabuStep (cs.map (Center.map g)) (evals.map (SopRec.map g φ)) i = (tabuStep cs evals i).map (SopRec.map g φ) := by
  unfold tabuStep
  rw [List.getElem?_map]
  cases cs[i]? with
  | none => rfl
  | some ce =>
    simp only [Option.map_some]
    rw [show (ce.map g).index = ce.index from rfl]
    refine modify_map _ _ _ fun r => ?_
    rw [show (r.map g φ).nfail = r.nfail from rfl]
    split <;> rfl

theorem foldl_tabu_map (cs : List (Center d)) (l : List ℕ) (evals : List (SopRec d)) :
    l.foldl (tabuStep (cs.map (Center.map g))) (evals.map (SopRec.map g φ)) =
      (l.foldl (tabuStep cs) evals).map (SopRec.map g φ) := by
  induction l generalizing evals with
  | nil => rfl
  | cons i l ih => simp only [List.foldl_cons, tabuStep_map, ih]

theorem tick_map (r : SopRec d) : (r.map g φ).tick = r.tick.map g φ := by
  unfold SopRec.tick
  rw [show (r.map g φ).ntabu = r.ntabu from rfl]
  split
  · split <;> rfl
  · rfl

theorem adjustMemory_map (h : Converts g γ φ c c') (n : ℕ) (index : Option ℕ) (z : Sop d) :
    (z.map g γ φ).adjustMemory c' n index = (z.adjustMemory c n index).map (Sop.map g γ φ) := by
  unfold Sop.adjustMemory
  rw [updateRanks_map h]
  cases z.updateRanks c n with
  | none => rfl
  | some z =>
    simp only [Option.map_some]
    rw [show (z.map g γ φ).F = z.F.map fun F => F.map (FRow.map γ φ) from rfl]
    cases hF : z.F with
    | none => rfl
    | some F =>
      simp only [Option.map_some]
      have hp : processed c' index = processed c index := by unfold processed; rw [h.ncenters]
      rw [hp, show (z.map g γ φ).centers = z.centers.map (Center.map g) from rfl,
        show (z.map g γ φ).evals = z.evals.map (SopRec.map g φ) from rfl, foldlM_fail_map]
      cases (processed c index).foldlM (failStep F z.centers) z.evals with
      | none => rfl
      | some evals =>
        simp only [Option.map_some]
        have ht : (evals.map (SopRec.map g φ)).map SopRec.tick = (evals.map SopRec.tick).map (SopRec.map g φ) := by
          rw [List.map_map, List.map_map]; exact List.map_congr_left fun r _ => tick_map r
        rw [ht, foldl_tabu_map, ← updateF_map h]
        simp [Sop.map]

theorem markCenter_map (hg : Function.Injective g) (cs : List (Center d)) (x : Pt d) (ni : ℕ) :
    markCenter (cs.map (Center.map g)) (g x) ni =
      ((markCenter cs x ni).1.map (Center.map g), (markCenter cs x ni).2) := by
  induction cs with
  | nil => rfl
  | cons ce rest ih =>
    simp only [List.map_cons, markCenter]
    have : (ce.map g).newPoint = some (g x) ↔ ce.newPoint = some x := by
      rw [show (ce.map g).newPoint = ce.newPoint.map g from rfl]
      cases ce.newPoint with
      | none => simp
      | some y => simp [hg.eq_iff]
    by_cases hx : ce.newPoint = some x
    · rw [if_pos hx, if_pos (this.2 hx)]; rfl
    · rw [if_neg hx, if_neg (fun h => hx (this.1 h)), ih]; rfl

theorem onAdaptCompleted_map (h : Converts g γ φ c c') (st : State (Pt d)) (z : Sop d) (x : Pt d) (v : Val) (e : ℕ) :
    (z.map g γ φ).onAdaptCompleted c' ((st.mapPt g).mapVal φ) (g x) (φ v) e =
      (z.onAdaptCompleted c st x v e).map (Sop.map g γ φ) := by
  unfold Sop.onAdaptCompleted
  rw [show ((st.mapPt g).mapVal φ).evLast = st.evLast from rfl, show ((st.mapPt g).mapVal φ).numEvals = st.numEvals from rfl,
    show ((st.mapPt g).mapVal φ).pendingEvals = st.pendingEvals from rfl,
    show ((st.mapPt g).mapVal φ).batchQueue = st.batchQueue.map g from rfl,
    show c'.base.asynchronous = c.base.asynchronous by rw [h.base]; rfl]
  split
  · dsimp only
    rw [show (z.map g γ φ).centers = z.centers.map (Center.map g) from rfl, markCenter_map h.inj]
    have key : ∀ idx, Sop.adjustMemory c' st.numEvals.toNat idx
        { z.map g γ φ with evals := (z.map g γ φ).evals ++ [SopRec.new (g x) (φ v)]
                           centers := (markCenter z.centers x (st.numEvals.toNat - 1)).1.map (Center.map g) } =
        (Sop.adjustMemory c st.numEvals.toNat idx
          { z with evals := z.evals ++ [SopRec.new x v]
                   centers := (markCenter z.centers x (st.numEvals.toNat - 1)).1 }).map (Sop.map g γ φ) := by
      intro idx
      rw [← adjustMemory_map h]
      simp [Sop.map, SopRec.map, SopRec.new]
    rw [List.isEmpty_map]
    split
    · exact key _
    · split
      · exact key _
      · simp [Sop.map, SopRec.map, SopRec.new]
  · rfl

theorem onInitialCompleted_map (st : State (Pt d)) (z : Sop d) (x : Pt d) (v : Val) (e : ℕ) :
    (z.map g γ φ).onInitialCompleted ((st.mapPt g).mapVal φ) (g x) (φ v) e = (z.onInitialCompleted st x v e).map g γ φ := by
  unfold Sop.onInitialCompleted
  rw [show ((st.mapPt g).mapVal φ).evLast = st.evLast from rfl]
  split
  · simp [Sop.map, SopRec.map, SopRec.new]
  · rfl

theorem generatedNow_map (old new : List (Event (Pt d))) :
    generatedNow ((old.map (Event.mapPt g)).map (Event.mapVal φ)) ((new.map (Event.mapPt g)).map (Event.mapVal φ)) =
      (generatedNow old new).map fun pts => pts.map g := by
  unfold generatedNow
  simp only [List.length_map, List.getElem?_map]
  cases new[old.length]? with
  | none => rfl
  | some e => cases e <;> rfl

theorem sysStep_map (h : Converts g γ φ c c') (hs : c.base.srbf = none) (w : Sys (Pt d)) (op : Strategy.Op (Pt d)) :
    ((w.mapPt g).mapVal φ).step c'.base (opMap g φ op) = (w.step c.base op).map fun w => (w.mapPt g).mapVal φ := by
  rw [h.base]
  unfold opMap
  rw [step_map (c.base.mapPt g) (Or.inl hs), step_mapPt h.inj, Option.map_map]
  rfl

/-- Every step commutes with the conversion. -/
theorem sopStep_map (h : Converts g γ φ c c') (hs : c.base.srbf = none) (w : SopSys d) (op : Strategy.Op (Pt d)) :
    (w.map g γ φ).step c' (opMap g φ op) = (w.step c op).map (SopSys.map g γ φ) := by
  have hstep := sysStep_map h hs w.sys
  cases op with
  | propose o =>
    have h1 := hstep (.propose { o with giveUp := false })
    simp only [opMap, Op.mapPt, Op.mapVal] at h1 ⊢
    simp only [SopSys.step, SopSys.map]
    rw [show ({ o.mapPt g with giveUp := false } : Oracle (Pt d)) = ({ o with giveUp := false } : Oracle (Pt d)).mapPt g from rfl, h1]
    cases w.sys.step c.base (.propose { o with giveUp := false }) with
    | none => rfl
    | some sys =>
      simp only [Option.map_some]
      have h2 := generatedNow_map (g := g) (φ := φ) w.sys.st.log sys.st.log
      rw [show ((w.sys.mapPt g).mapVal φ).st.log = (w.sys.st.log.map (Event.mapPt g)).map (Event.mapVal φ) from rfl,
        show ((sys.mapPt g).mapVal φ).st.log = (sys.st.log.map (Event.mapPt g)).map (Event.mapVal φ) from rfl, h2]
      cases generatedNow w.sys.st.log sys.st.log with
      | none => rfl
      | some pts =>
        simp only [Option.map_some]
        rw [show ((w.sys.mapPt g).mapVal φ).st.numEvals = w.sys.st.numEvals from rfl, generate_map h]
        cases w.sop.generate c w.sys.st.numEvals.toNat pts <;> rfl
  | complete i v =>
    have h1 := hstep (.complete i v)
    simp only [opMap, Op.mapPt, Op.mapVal] at h1 ⊢
    simp only [SopSys.step, SopSys.map]
    rw [h1, show ((w.sys.mapPt g).mapVal φ).recs[i]? = (w.sys.recs[i]?).map (Rec.mapPt g) by
      rw [← List.getElem?_map]; rfl]
    cases w.sys.recs[i]? with
    | none => rfl
    | some r =>
      cases w.sys.step c.base (.complete i v) with
      | none => rfl
      | some sys =>
        simp only [Option.map_some]
        rw [show (r.mapPt g).kind = r.kind from rfl, show (r.mapPt g).x = g r.x from rfl,
          show (r.mapPt g).evId = r.evId from rfl]
        cases r.kind with
        | init =>
          simp only [Option.map_some]
          rw [show ((sys.mapPt g).mapVal φ).st = (sys.st.mapPt g).mapVal φ from rfl, onInitialCompleted_map]
          rfl
        | adapt =>
          simp only
          rw [show ((sys.mapPt g).mapVal φ).st = (sys.st.mapPt g).mapVal φ from rfl, onAdaptCompleted_map h]
          cases w.sop.onAdaptCompleted c sys.st r.x v r.evId <;> rfl
  | accept i => have h1 := hstep (.accept i); simp only [opMap, Op.mapPt, Op.mapVal] at h1 ⊢
                simp only [SopSys.step, SopSys.map]; rw [h1]; cases w.sys.step c.base (.accept i) <;> rfl
  | reject i => have h1 := hstep (.reject i); simp only [opMap, Op.mapPt, Op.mapVal] at h1 ⊢
                simp only [SopSys.step, SopSys.map]; rw [h1]; cases w.sys.step c.base (.reject i) <;> rfl
  | abort i => have h1 := hstep (.abort i); simp only [opMap, Op.mapPt, Op.mapVal] at h1 ⊢
               simp only [SopSys.step, SopSys.map]; rw [h1]; cases w.sys.step c.base (.abort i) <;> rfl
  | update i => have h1 := hstep (.update i); simp only [opMap, Op.mapPt, Op.mapVal] at h1 ⊢
                simp only [SopSys.step, SopSys.map]; rw [h1]; cases w.sys.step c.base (.update i) <;> rfl

theorem sopCreate_map (h : Converts g γ φ c c') (o : Oracle (Pt d)) :
    SopSys.create c' (o.mapPt g) = (SopSys.create c o).map g γ φ := by
  unfold SopSys.create SopSys.map
  rw [h.base, create_map, create_mapPt]
  rfl

theorem sopResumed_map (w : SopSys d) :
    (⟨(w.map g γ φ).sys.resumed, (w.map g γ φ).sop⟩ : SopSys d) = SopSys.map g γ φ ⟨w.sys.resumed, w.sop⟩ := by
  unfold SopSys.map
  simp only
  rw [resumed_map, resumed_mapPt]

end Verif.Sop
