import Verif.Loop.Sync
import Verif.Loop.SopRun
import Verif.Sop.Perm
import Verif.Sop.Calm

/-!
# SOP in synchronous mode without losses

As `Loop/Sync.lean`, for SOP: the points of a batch are a function of the data of the earlier batches, and if no two evaluations
have the same value, of the set of these data.  Used for C142.
-/

namespace Verif.Loop

open Verif.Num Verif.Utils Verif.Cand Verif.Design Verif.Strategy Verif.Spec Verif.Sop
open List (Perm)

variable {d : ℕ} {L : SopSetup d} {S : Surr d} {f : Pt d → Val}

/-- The memories of two runs after the same batches, before new points are sought. -/
structure SopEnd (c : Cfg d) (σ : Equiv.Perm ℕ) (z z' : Sop d) : Prop where
  evals : IsPerm σ z.evals z'.evals
  done : AllDone z.centers
  done' : AllDone z'.centers
  rows : (z.F = none ∧ z'.F = none) ∨ (z.F = some (z.evals.map (fRow c)) ∧ z'.F = some (z'.evals.map (fRow c)))

/-- The memories of two runs after new points were found. -/
structure SopStart (σ : Equiv.Perm ℕ) (z z' : Sop d) : Prop where
  evals : IsPerm σ z.evals z'.evals
  centers : z'.centers = z.centers.map (Center.renum σ)

/-- `F` before the selection. -/
theorem SopEnd.firstRanks {c : Cfg d} {σ : Equiv.Perm ℕ} {n : ℕ} {z z' y y' : Sop d} (h : SopEnd c σ z z')
    (hy : z.firstRanks c n = some y) (hy' : z'.firstRanks c n = some y') :
    y.evals = z.evals ∧ y.centers = z.centers ∧ y'.evals = z'.evals ∧ y'.centers = z'.centers ∧
      ∃ F F', y.F = some F ∧ y'.F = some F' ∧ IsPerm σ F F' ∧ F.map FRow.f = z.evals.map SopRec.fx := by
  unfold Sop.firstRanks at hy hy'
  rcases h.rows with ⟨e, e'⟩ | ⟨e, e'⟩
  · rw [e] at hy
    rw [e'] at hy'
    exact h.evals.updateRanks hy hy'
  · rw [e] at hy
    rw [e'] at hy'
    cases hy; cases hy'
    exact ⟨rfl, rfl, rfl, rfl, _, _, e, e', h.evals.map _, by simp [List.map_map, fRow, Function.comp_def]⟩

/-- The centers. -/
theorem SopEnd.centers {c : Cfg d} {σ : Equiv.Perm ℕ} {n : ℕ} {z z' y y' x x' : Sop d} (h : SopEnd c σ z z')
    (hv : (z.evals.map SopRec.fx).Nodup)
    (hy : z.firstRanks c n = some y) (hy' : z'.firstRanks c n = some y') (hx : y.updateCenterList c n = some x)
    (hx' : y'.updateCenterList c n = some x') :
    x.evals = z.evals ∧ x'.evals = z'.evals ∧ x'.centers = x.centers.map (Center.renum σ) := by
  obtain ⟨e1, e2, e1', e2', F, F', hF, hF', hFF, hf⟩ := h.firstRanks hy hy'
  have h1 : IsPerm σ y.evals y'.evals := by rw [e1, e1']; exact h.evals
  rw [h1.updateCenterList hF hF' hFF (by rw [hf]; exact hv) (by rw [e2]; exact h.done) (by rw [e2']; exact h.done'), hx] at hx'
  simp only [Option.map_some, Option.some.injEq] at hx'
  subst hx'
  exact ⟨(updateCenterList_keeps hx).1.trans e1, e1', rfl⟩

/-- The candidate search sees only the set of the data. -/
theorem sopPoint_order (hS : OrderFreeSurr S) {s s' : State (Pt d)} (h : SameData s s') (xc : Pt d) (sigma : ℚ) (r : CandRnd d) :
    sopPoint L S s xc sigma r = sopPoint L S s' xc sigma r := by
  obtain ⟨c, c', hc, hX, hF, hX', hF'⟩ := h.cur
  have hsurr : S.mean (surrData s) = S.mean (surrData s') := (hS _ _ (h.surr.map _)).1
  unfold sopPoint
  cases hcX : s.curX with
  | nil =>
    have : s'.curX = [] := by
      rw [hX] at hcX; rw [hX']
      have := List.map_eq_nil_iff.mp hcX
      subst this
      rw [hc.symm.eq_nil]; rfl
    rw [this]
  | cons x0 xs =>
    obtain ⟨y0, ys, hcX'⟩ : ∃ y0 ys, s'.curX = y0 :: ys := by
      cases h' : s'.curX with
      | nil =>
        exfalso
        rw [hX'] at h'
        have := List.map_eq_nil_iff.mp h'
        subst this
        rw [hX, hc.eq_nil] at hcX
        cases hcX
      | cons y0 ys => exact ⟨y0, ys, rfl⟩
    rw [hcX']
    have e1 : x0 :: xs = c.map Prod.fst := by rw [← hX, hcX]
    have e2 : y0 :: ys = c'.map Prod.fst := by rw [← hX', hcX']
    have hmem : ∀ y, y ∈ x0 :: xs ↔ y ∈ y0 :: ys := by
      intro y; rw [e1, e2]; exact (hc.map Prod.fst).mem_iff
    have hofn : ∀ (a : Pt d) (as : List (Pt d)), List.ofFn (fun i : Fin (as.length + 1) => (a :: as)[i]) = a :: as := by
      intro a as
      exact List.ofFn_getElem (xs := a :: as)
    have hset : ∀ y, y ∈ List.ofFn (fun i : Fin (xs.length + 1) => (x0 :: xs)[i]) ++ s.Xpend ↔
        y ∈ List.ofFn (fun i : Fin (ys.length + 1) => (y0 :: ys)[i]) ++ s'.Xpend := by
      intro y
      rw [hofn, hofn, List.mem_append, List.mem_append, hmem y, h.Xpend.mem_iff]
    have hpp : State.perturbProb L.base d s = State.perturbProb L.base d s' := by
      unfold State.perturbProb; rw [h.X, h.Xpend.length_eq]
    simp only [hsurr, hpp, candidateDycors]
    congr 1
    funext w
    congr 1
    split_ifs
    · rw [wdm_congr _ _ _ _ _ hset]
    · rfl

theorem find_renum (σ : Equiv.Perm ℕ) (cs : List (Center d)) :
    ((cs.map (Center.renum σ)).find? fun ce => ce.newPoint.isNone) =
      (cs.find? fun ce => ce.newPoint.isNone).map (Center.renum σ) := by
  rw [List.find?_map]; rfl

/-- The loop over the new points, the search for a point being given. -/
noncomputable def loopPoints (g : Pt d → ℚ → CandRnd d → Option (Pt d)) (E : List (SopRec d)) :
    List (Center d) → List (CandRnd d) → Option (List (Pt d))
  | _, [] => some []
  | cs, r :: rs =>
    (cs.find? fun ce => ce.newPoint.isNone).bind fun ce =>
    E[ce.index]?.bind fun rec =>
    (g ce.xc rec.sigma r).bind fun x =>
    (assignPoint cs x).bind fun cs' => (loopPoints g E cs' rs).map (x :: ·)

theorem sopPoints_eq (s : State (Pt d)) (E : List (SopRec d)) (cs : List (Center d)) (rs : List (CandRnd d)) :
    sopPoints L S s E cs rs = loopPoints (sopPoint L S s) E cs rs := by
  induction rs generalizing cs with
  | nil => rfl
  | cons r rs ih => simp only [sopPoints, loopPoints, ih]

theorem loopPoints_order (g : Pt d → ℚ → CandRnd d → Option (Pt d)) {σ : Equiv.Perm ℕ} {E E' : List (SopRec d)}
    (hE : IsPerm σ E E') (cs : List (Center d)) (rs : List (CandRnd d)) :
    loopPoints g E' (cs.map (Center.renum σ)) rs = loopPoints g E cs rs := by
  induction rs generalizing cs with
  | nil => rfl
  | cons r rs ih =>
    simp only [loopPoints]
    rw [find_renum]
    cases cs.find? fun ce => ce.newPoint.isNone with
    | none => rfl
    | some ce =>
      have h1 : (ce.renum σ).index = σ ce.index := rfl
      have h2 : (ce.renum σ).xc = ce.xc := rfl
      simp only [Option.map_some, Option.bind_some, h1, h2, hE ce.index, assignPoint_renum, Option.bind_map, Function.comp_def, ih]

/-- The loop over the new points. -/
theorem sopPoints_order (hS : OrderFreeSurr S) {s s' : State (Pt d)} (h : SameData s s') {σ : Equiv.Perm ℕ} {E E' : List (SopRec d)}
    (hE : IsPerm σ E E') (cs : List (Center d)) (rs : List (CandRnd d)) :
    sopPoints L S s' E' (cs.map (Center.renum σ)) rs = sopPoints L S s E cs rs := by
  have hg : sopPoint L S s' = sopPoint L S s := by
    funext xc sg r
    exact (sopPoint_order hS h xc sg r).symm
  rw [sopPoints_eq, sopPoints_eq, hg]
  exact loopPoints_order _ hE cs rs

/-- The points that are found. -/
theorem sopGen_order (hS : OrderFreeSurr S) {w w' : SopSys d} {σ : Equiv.Perm ℕ} (h : SopEnd L.cfg σ w.sop w'.sop)
    (hs : SameData w.sys.st w'.sys.st) (hn : w.sys.st.numEvals = w'.sys.st.numEvals) (hv : (w.sop.evals.map SopRec.fx).Nodup) {n : ℕ}
    {r : SopRnd d} {pts pts' : List (Pt d)} (hg : sopGen L S w n r = some pts) (hg' : sopGen L S w' n r = some pts') : pts = pts' := by
  simp only [sopGen, Option.bind_eq_some_iff] at hg hg'
  obtain ⟨y, hy, x, hx, hp⟩ := hg
  obtain ⟨y', hy', x', hx', hp'⟩ := hg'
  rw [← hn] at hy' hx'
  obtain ⟨e, e', hc⟩ := h.centers hv hy hy' hx hx'
  rw [hc, e', sopPoints_order hS hs h.evals, ← e, hp] at hp'
  exact Option.some_inj.mp hp'

theorem newPts_assign {cs cs' : List (Center d)} {x : Pt d} (h : assignPoint cs x = some cs') : (newPts cs').Perm (x :: newPts cs) := by
  obtain ⟨l, ce, r, rfl, rfl, hn, _⟩ := assignPoint_spec h
  have e1 : newPts (ce :: r) = newPts r := by simp [newPts, List.filterMap_cons, hn]
  have e2 : newPts ({ ce with newPoint := some x } :: r) = x :: newPts r := by simp [newPts, List.filterMap_cons]
  rw [newPts_append, newPts_append, e1, e2]
  exact List.perm_middle

theorem newPts_assignLoop {pts : List (Pt d)} {cs cs' : List (Center d)} (h : pts.foldlM assignPoint cs = some cs') :
    (newPts cs').Perm (pts ++ newPts cs) ∧ ((∀ ce ∈ cs, ce.newIndex = none) → ∀ ce ∈ cs', ce.newIndex = none) := by
  induction pts generalizing cs with
  | nil => simp only [List.foldlM_nil] at h; cases h; exact ⟨.rfl, id⟩
  | cons x pts ih =>
    rw [List.foldlM_cons] at h
    cases h1 : assignPoint cs x with
    | none => rw [h1] at h; cases h
    | some cs1 =>
      rw [h1] at h
      obtain ⟨h2, h3⟩ := ih h
      refine ⟨h2.trans (((newPts_assign h1).append_left pts).trans List.perm_middle), fun hn => h3 fun ce hce => ?_⟩
      obtain ⟨l, c0, r, rfl, rfl, _, _⟩ := assignPoint_spec h1
      simp only [List.mem_append, List.mem_cons] at hce hn
      rcases hce with hce | rfl | hce
      · exact hn ce (.inl hce)
      · exact hn c0 (.inr (.inl rfl))
      · exact hn ce (.inr (.inr hce))

theorem newCenters_fresh {E : List (SopRec d)} {idx : List ℕ} {cs : List (Center d)} (h : newCenters E idx = some cs) :
    ∀ ce ∈ cs, ce.newPoint = none ∧ ce.newIndex = none := by
  unfold newCenters at h
  induction idx generalizing cs with
  | nil => simp only [List.mapM_nil] at h; cases h; simp
  | cons i idx ih =>
    rw [List.mapM_cons] at h
    cases hi : E[i]? with
    | none => rw [hi] at h; cases h
    | some r =>
      rw [hi] at h
      cases hm : (idx.mapM fun i => (E[i]?).map fun r => ({ xc := r.x, index := i, newPoint := none, newIndex := none } : Center d)) with
      | none => rw [hm] at h; cases h
      | some cs1 =>
        rw [hm] at h
        have h' : some (({ xc := r.x, index := i, newPoint := none, newIndex := none } : Center d) :: cs1) = some cs := h
        cases h'
        intro ce hce
        rcases List.mem_cons.mp hce with rfl | hce
        · exact ⟨rfl, rfl⟩
        · exact ih hm ce hce

/-- After a batch, all centers are replaced. -/
theorem centers_fresh {c : Cfg d} {n : ℕ} {z y : Sop d} (hd : AllDone z.centers) (h : z.updateCenterList c n = some y) :
    ∀ ce ∈ y.centers, ce.newPoint = none ∧ ce.newIndex = none := by
  unfold Sop.updateCenterList at h
  cases hF : z.F with
  | none => rw [hF] at h; cases h
  | some F =>
    rw [hF] at h
    cases hdt : dThreshOf c n with
    | none => rw [hdt] at h; cases h
    | some dt =>
      rw [hdt] at h
      simp only [hd.tagRows, hd.filter] at h
      cases hmi : minIndex F with
      | none => rw [hmi] at h; cases h
      | some mi =>
        rw [hmi] at h
        simp only [List.length_nil, List.nil_append] at h
        split at h
        · cases hb : (chooseCenters F n dt (c.ncenters - 0) (bestFirst F (lexOrder F) mi)).bind (newCenters z.evals) with
          | none => rw [hb] at h; cases h
          | some new =>
            rw [hb] at h
            simp only [Option.some.injEq] at h
            rw [← h]
            obtain ⟨idx, _, hidx⟩ := Option.bind_eq_some_iff.mp hb
            exact newCenters_fresh hidx
        · simp only [Option.some.injEq] at h
          rw [← h]; simp

/-- The new points are assigned to new centers. -/
theorem generate_fresh {c : Cfg d} {n : ℕ} {z y : Sop d} {pts : List (Pt d)} (hd : AllDone z.centers) (h : z.generate c n pts = some y) :
    (newPts y.centers).Perm pts ∧ ∀ ce ∈ y.centers, ce.newIndex = none := by
  obtain ⟨z1, z2, h1, h2, h3, h4⟩ := generate_spec h
  have hd1 : AllDone z1.centers := by
    rcases h1 with ⟨_, h1⟩ | ⟨_, rfl⟩
    · obtain ⟨_, _, _, rfl⟩ := updateRanks_spec h1; exact hd
    · exact hd
  have hf := centers_fresh hd1 h2
  obtain ⟨k1, k2⟩ := newPts_assignLoop h3
  have h0 : newPts z2.centers = [] := List.filterMap_eq_nil_iff.mpr fun ce hce => (hf ce hce).1
  rw [h0, List.append_nil] at k1
  exact ⟨k1, k2 fun ce hce => (hf ce hce).2⟩

/-- `generate_evals`. -/
theorem SopEnd.generate {c : Cfg d} {σ : Equiv.Perm ℕ} {n : ℕ} {z z' y y' : Sop d} {pts : List (Pt d)} (h : SopEnd c σ z z')
    (hv : (z.evals.map SopRec.fx).Nodup) (hy : z.generate c n pts = some y) (hy' : z'.generate c n pts = some y') :
    SopStart σ y y' := by
  unfold Sop.generate at hy hy'
  cases h1 : z.firstRanks c n with
  | none => rw [h1] at hy; cases hy
  | some a =>
    cases h1' : z'.firstRanks c n with
    | none => rw [h1'] at hy'; cases hy'
    | some a' =>
      rw [h1] at hy
      rw [h1'] at hy'
      simp only at hy hy'
      cases h2 : a.updateCenterList c n with
      | none => rw [h2] at hy; cases hy
      | some b =>
        cases h2' : a'.updateCenterList c n with
        | none => rw [h2'] at hy'; cases hy'
        | some b' =>
          rw [h2] at hy
          rw [h2'] at hy'
          simp only at hy hy'
          obtain ⟨e, e', hc⟩ := h.centers hv h1 h1' h2 h2'
          rw [hc, foldlM_assign_renum] at hy'
          cases h3 : pts.foldlM assignPoint b.centers with
          | none => rw [h3] at hy; cases hy
          | some cs =>
            rw [h3] at hy hy'
            simp only [Option.map_some, Option.some.injEq] at hy hy'
            subst hy; subst hy'
            exact ⟨by rw [e, e']; exact h.evals, rfl⟩

/-! ## Marking -/

/-- The centers after the points of a list were completed, the first with number `n0`. -/
noncomputable def markAll (n0 : ℕ) (cs : List (Center d)) (done : List (Pt d)) : List (Center d) :=
  (done.zipIdx n0).foldl (fun cs p => (markCenter cs p.1 p.2).1) cs

theorem markAll_concat (n0 : ℕ) (cs : List (Center d)) (done : List (Pt d)) (x : Pt d) :
    markAll n0 cs (done ++ [x]) = (markCenter (markAll n0 cs done) x (n0 + done.length)).1 := by
  unfold markAll
  rw [List.zipIdx_append, List.foldl_append]
  simp [Nat.add_comm]

/-- The same for one center. -/
noncomputable def markDone (n0 : ℕ) (done : List (Pt d)) (ce : Center d) : Center d :=
  match ce.newPoint with
  | none => ce
  | some x => if x ∈ done then { ce with newIndex := some (n0 + done.idxOf x) } else ce

theorem markDone_newPoint (n0 : ℕ) (done : List (Pt d)) (ce : Center d) : (markDone n0 done ce).newPoint = ce.newPoint := by
  unfold markDone
  cases h : ce.newPoint with
  | none => exact h
  | some x => simp only; split_ifs <;> simp [h]

theorem markCenter_nodup {cs : List (Center d)} (hn : (newPts cs).Nodup) (x : Pt d) (ni : ℕ) :
    (markCenter cs x ni).1 = cs.map fun ce => if ce.newPoint = some x then { ce with newIndex := some ni } else ce := by
  induction cs with
  | nil => rfl
  | cons ce rest ih =>
    have hr : (newPts rest).Nodup := by
      unfold newPts at hn ⊢
      rw [List.filterMap_cons] at hn
      split at hn
      · exact hn
      · exact hn.of_cons
    simp only [markCenter, List.map_cons]
    by_cases hx : ce.newPoint = some x
    · rw [if_pos hx, if_pos hx]
      simp only [List.cons.injEq, true_and]
      symm
      have hnot : x ∉ newPts rest := by
        unfold newPts at hn ⊢
        rw [List.filterMap_cons, hx] at hn
        exact (List.nodup_cons.mp hn).1
      refine (List.map_congr_left fun a ha => ?_).trans (List.map_id rest)
      rw [if_neg]
      · rfl
      · intro h
        exact hnot (List.mem_filterMap.mpr ⟨a, ha, h⟩)
    · rw [if_neg hx, if_neg hx, ih hr]

theorem markAll_eq {cs : List (Center d)} (hn : (newPts cs).Nodup) (n0 : ℕ) {done : List (Pt d)} (hd : done.Nodup) :
    markAll n0 cs done = cs.map (markDone n0 done) := by
  induction done using List.reverseRecOn with
  | nil =>
    unfold markAll
    simp only [List.zipIdx_nil, List.foldl_nil]
    symm
    refine (List.map_congr_left fun a _ => ?_).trans (List.map_id cs)
    unfold markDone
    cases a.newPoint <;> simp
  | append_singleton done x ih =>
    have hx : x ∉ done := fun h => (List.nodup_append.mp hd).2.2 x h x (by simp) rfl
    rw [markAll_concat, ih (List.nodup_append.mp hd).1]
    have hnp : newPts (cs.map (markDone n0 done)) = newPts cs := by
      unfold newPts
      rw [List.filterMap_map]
      exact List.filterMap_congr fun a _ => markDone_newPoint n0 done a
    rw [markCenter_nodup (by rw [hnp]; exact hn), List.map_map]
    refine List.map_congr_left fun a _ => ?_
    simp only [Function.comp_apply, markDone_newPoint]
    unfold markDone
    cases hp : a.newPoint with
    | none => simp
    | some y =>
      simp only [Option.some.injEq]
      by_cases hy : y = x
      · subst hy
        rw [if_pos rfl, if_neg hx, if_pos (by simp), List.idxOf_append_of_notMem hx]
        simp
      · rw [if_neg hy]
        by_cases hm : y ∈ done
        · rw [if_pos hm, if_pos (by simp [hm]), List.idxOf_append_of_mem hm]
        · rw [if_neg hm, if_neg (by simp [hm, hy])]

/-- The record of an evaluation. -/
def recOf (f : Pt d → Val) (x : Pt d) : SopRec d := SopRec.new x (f x)

/-- `adjust_memory` succeeds only if all new points are evaluated. -/
theorem adjust_allDone {c : Cfg d} {n : ℕ} {z y : Sop d} (hl : z.centers = [] ∨ z.centers.length = c.ncenters)
    (h : z.adjustMemory c n none = some y) : AllDone z.centers := by
  intro ce hce
  obtain ⟨i, hi, rfl⟩ := List.mem_iff_getElem.mp hce
  by_contra hn
  have hnone : (z.centers[i]).newIndex = none := by
    cases hx : (z.centers[i]).newIndex with
    | none => rfl
    | some v => rw [hx] at hn; simp at hn
  rw [adjustMemory_none (i := i)] at h
  · cases h
  · rcases hl with hl | hl
    · rw [hl] at hi; simp at hi
    · unfold processed; rw [← hl]; exact List.mem_range.mpr hi
  · intro ce hget
    rw [List.getElem?_eq_getElem hi, Option.some.injEq] at hget
    rw [← hget]; exact hnone

/-- The end of a batch. -/
theorem SopStart.finish {c : Cfg d} {σ : Equiv.Perm ℕ} {n : ℕ} {z z' y y' : Sop d} {done done' : List (Pt d)} (h : SopStart σ z z')
    (hp : done.Perm done') (hnd : done.Nodup) (hnp : (newPts z.centers).Nodup) (hni : ∀ ce ∈ z.centers, ce.newIndex = none)
    (hi : ∀ ce ∈ z.centers, ce.index < z.evals.length) (hl : z.centers = [] ∨ z.centers.length = c.ncenters)
    (hy : Sop.adjustMemory c n none ⟨z.evals ++ done.map (recOf f), markAll z.evals.length z.centers done, z.F⟩ = some y)
    (hy' : Sop.adjustMemory c n none ⟨z'.evals ++ done'.map (recOf f), markAll z'.evals.length z'.centers done', z'.F⟩ = some y') :
    ∃ ρ, SopEnd c ρ y y' := by
  obtain ⟨τ, hτ⟩ := exists_isPerm hp
  obtain ⟨ρ, hρ, hρ1, hρ2⟩ := h.evals.append (hτ.map (recOf f))
  have hnp' : newPts z'.centers = newPts z.centers := by
    rw [h.centers]; unfold newPts; rw [List.filterMap_map]; rfl
  have hnd' : done'.Nodup := hp.nodup_iff.mp hnd
  have hidx : ∀ x ∈ done, done'.idxOf x = τ (done.idxOf x) := by
    intro x hx
    have h1 : done'[τ (done.idxOf x)]? = some x := by
      rw [hτ, List.getElem?_idxOf hx]
    obtain ⟨hlt, he⟩ := List.getElem?_eq_some_iff.mp h1
    have h2 := hnd'.idxOf_getElem _ hlt
    rw [he] at h2
    exact h2
  have hc : markAll z'.evals.length z'.centers done' = (markAll z.evals.length z.centers done).map (Center.renum ρ) := by
    rw [markAll_eq (by rw [hnp']; exact hnp) _ hnd', markAll_eq hnp _ hnd, h.centers, List.map_map, List.map_map]
    refine List.map_congr_left fun ce hce => ?_
    have e1 := hρ1 _ (hi ce hce)
    have e2 := hni ce hce
    simp only [Function.comp_apply]
    unfold markDone
    rw [show (ce.renum σ).newPoint = ce.newPoint from rfl]
    cases hnp : ce.newPoint with
    | none =>
      unfold Center.renum
      rw [e1, e2]; rfl
    | some x =>
      simp only [hp.mem_iff.symm]
      by_cases hx : x ∈ done
      · rw [if_pos hx, if_pos hx]
        unfold Center.renum
        simp only [Option.map_some, hρ2, hidx x hx, e1, h.evals.length]
      · rw [if_neg hx, if_neg hx]
        unfold Center.renum
        rw [e1, e2]; rfl
  obtain ⟨k1, k2, k3, k4, k5⟩ := IsPerm.adjustMemory (z := ⟨z.evals ++ done.map (recOf f), markAll z.evals.length z.centers done, z.F⟩)
    (z' := ⟨z'.evals ++ done'.map (recOf f), markAll z'.evals.length z'.centers done', z'.F⟩) hρ hc hy hy'
  have hlen : ∀ cs : List (Center d), (newPts cs).Nodup → (markAll z.evals.length cs done).length = cs.length := by
    intro cs hcs; rw [markAll_eq hcs _ hnd, List.length_map]
  have hD : AllDone (markAll z.evals.length z.centers done) := by
    refine adjust_allDone (z := ⟨z.evals ++ done.map (recOf f), markAll z.evals.length z.centers done, z.F⟩) ?_ hy
    rcases hl with hl | hl
    · left
      have := hlen _ hnp
      rw [hl] at this
      exact List.length_eq_zero_iff.mp (by rw [← hl] at this; rw [this, hl]; rfl)
    · right
      rw [← hl]; exact hlen _ hnp
  refine ⟨ρ, k1, by rw [k4]; exact hD, ?_, .inr ⟨k2, k3⟩⟩
  rw [k5]
  show AllDone (markAll z'.evals.length z'.centers done')
  rw [hc]
  intro ce hce
  obtain ⟨a, ha, rfl⟩ := List.mem_map.mp hce
  have := hD a ha
  unfold Center.renum
  cases hn : a.newIndex <;> simp_all

end Verif.Loop
