import Verif.Sop.Inv
import Mathlib.Data.List.Perm.Basic

/-! # Runs of SOP without losses do not raise exceptions (C56) -/

set_option linter.unusedSectionVars false

namespace Verif.Sop

open Verif.Num Verif.Utils Verif.Strategy
open List (Perm Sublist)

variable {d : ℕ} {c : Cfg d}

/-- The points proposed for the centers and not yet evaluated. -/
def busyPts (cs : List (Center d)) : List (Pt d) := cs.filterMap fun ce => if ce.newIndex.isNone then ce.newPoint else none

/-- The points proposed for the centers. -/
def newPts (cs : List (Center d)) : List (Pt d) := cs.filterMap Center.newPoint

theorem newPts_length_le (cs : List (Center d)) : (newPts cs).length ≤ cs.length := List.length_filterMap_le _ _

theorem newPts_append (a b : List (Center d)) : newPts (a ++ b) = newPts a ++ newPts b := by simp [newPts]

theorem busyPts_append (a b : List (Center d)) : busyPts (a ++ b) = busyPts a ++ busyPts b := by simp [busyPts]

theorem newPts_unfinished (cs : List (Center d)) : newPts (cs.filter fun ce => ce.newIndex.isNone) = busyPts cs := by
  unfold newPts busyPts
  rw [List.filterMap_filter]

theorem newPts_free {cs : List (Center d)} (h : ∀ ce ∈ cs, ce.newPoint = none) : newPts cs = [] := by
  unfold newPts
  rw [List.filterMap_eq_nil_iff]
  exact h

theorem busyPts_free {cs : List (Center d)} (h : ∀ ce ∈ cs, ce.newPoint = none) : busyPts cs = [] := by
  unfold busyPts
  rw [List.filterMap_eq_nil_iff]
  intro ce hce
  rw [h ce hce]; simp

theorem busyPts_unfinished (cs : List (Center d)) : busyPts (cs.filter fun ce => ce.newIndex.isNone) = busyPts cs := by
  unfold busyPts
  rw [List.filterMap_filter]
  congr 1
  funext ce
  split <;> rfl

theorem free_of_lt {cs : List (Center d)} (h : (newPts cs).length < cs.length) : ∃ ce ∈ cs, ce.newPoint = none := by
  by_contra hcon
  push Not at hcon
  have : (newPts cs).length = cs.length := by
    unfold newPts
    rw [List.filterMap_length_eq_length]
    intro ce hce
    exact Option.ne_none_iff_isSome.mp (hcon ce hce)
  omega

/-- Assigning a point to a free center. -/
theorem assign_pts {cs cs' : List (Center d)} {x : Pt d} (h : assignPoint cs x = some cs')
    (hn : ∀ ce ∈ cs, ce.newPoint = none → ce.newIndex = none) :
    Perm (newPts cs') (x :: newPts cs) ∧ Perm (busyPts cs') (x :: busyPts cs) ∧ cs'.length = cs.length ∧
      ∀ ce ∈ cs', ce.newPoint = none → ce.newIndex = none := by
  obtain ⟨l, ce, r, e1, e2, e3, _⟩ := assignPoint_spec h
  have hi : ce.newIndex = none := hn ce (by rw [e1]; simp) e3
  subst e1 e2
  refine ⟨?_, ?_, by simp, ?_⟩
  · simp only [newPts, List.filterMap_append, List.filterMap_cons, e3]
    exact List.perm_middle
  · simp only [busyPts, List.filterMap_append, List.filterMap_cons, e3, hi, Option.isNone_none, if_true]
    exact List.perm_middle
  · intro a ha hp
    simp only [List.mem_append, List.mem_cons] at ha
    rcases ha with h1 | h1 | h1
    · exact hn a (by simp [h1]) hp
    · rw [h1] at hp; simp at hp
    · exact hn a (by simp [h1]) hp

/-- Assigning several points. -/
theorem assignLoop_pts : ∀ {pts : List (Pt d)} {cs cs' : List (Center d)}, pts.foldlM assignPoint cs = some cs' →
    (∀ ce ∈ cs, ce.newPoint = none → ce.newIndex = none) →
    Perm (newPts cs') (pts ++ newPts cs) ∧ Perm (busyPts cs') (pts ++ busyPts cs) ∧ cs'.length = cs.length ∧
      ∀ ce ∈ cs', ce.newPoint = none → ce.newIndex = none := by
  intro pts
  induction pts with
  | nil => intro cs cs' h hn; simp only [List.foldlM_nil, Option.pure_def, Option.some.injEq] at h; subst h; exact ⟨.refl _, .refl _, rfl, hn⟩
  | cons x l ih =>
    intro cs cs' h hn
    rw [List.foldlM_cons] at h
    obtain ⟨e1, h1, h2⟩ := Option.bind_eq_some_iff.mp h
    obtain ⟨a1, a2, a3, a4⟩ := assign_pts h1 hn
    obtain ⟨b1, b2, b3, b4⟩ := ih h2 a4
    refine ⟨?_, ?_, b3.trans a3, b4⟩
    · exact b1.trans ((a1.append_left l).trans (by simpa using List.perm_middle))
    · exact b2.trans ((a2.append_left l).trans (by simpa using List.perm_middle))

theorem assignLoop_isSome : ∀ {pts : List (Pt d)} {cs : List (Center d)},
    (∀ ce ∈ cs, ce.newPoint = none → ce.newIndex = none) → (newPts cs).length + pts.length ≤ cs.length →
    ∃ cs', pts.foldlM assignPoint cs = some cs' := by
  intro pts
  induction pts with
  | nil => intro cs _ _; exact ⟨cs, rfl⟩
  | cons x l ih =>
    intro cs hn hle
    simp only [List.length_cons] at hle
    obtain ⟨cs1, h1⟩ := assignPoint_isSome x (free_of_lt (cs := cs) (by omega))
    obtain ⟨a1, _, a3, a4⟩ := assign_pts h1 hn
    have hl := a1.length_eq
    simp only [List.length_cons] at hl
    obtain ⟨cs', h2⟩ := ih a4 (by omega)
    exact ⟨cs', by rw [List.foldlM_cons, h1]; exact h2⟩

theorem assignLoop_none : ∀ {pts : List (Pt d)} {cs : List (Center d)},
    (∀ ce ∈ cs, ce.newPoint = none → ce.newIndex = none) → cs.length < (newPts cs).length + pts.length →
    pts.foldlM assignPoint cs = none := by
  intro pts cs hn hlt
  cases h : pts.foldlM assignPoint cs with
  | none => rfl
  | some cs' =>
    obtain ⟨b1, _, b3, _⟩ := assignLoop_pts h hn
    have := b1.length_eq
    have h2 := newPts_length_le cs'
    simp only [List.length_append] at this
    omega

/-- The centers after `update_center_list`. -/
theorem updateCenterList_pts {n : ℕ} {z z' : Sop d} (h : z.updateCenterList c n = some z') :
    newPts z'.centers = busyPts z.centers ∧ busyPts z'.centers = busyPts z.centers ∧
      ∀ ce ∈ z'.centers, ce.newPoint = none → ce.newIndex = none := by
  obtain ⟨F, dt, mi, _, _, _, _, _, new, hc, hnew, _⟩ := updateCenterList_spec h
  refine ⟨?_, ?_, ?_⟩
  · rw [hc, newPts_append, newPts_unfinished, newPts_free fun ce hce => (hnew ce hce).2.1, List.append_nil]
  · rw [hc, busyPts_append, busyPts_unfinished, busyPts_free fun ce hce => (hnew ce hce).2.1, List.append_nil]
  · intro ce hce _
    rw [hc] at hce
    rcases List.mem_append.mp hce with h1 | h1
    · simpa using (List.mem_filter.mp h1).2
    · exact (hnew ce h1).2.2

/-- The centers after `generate_evals`. -/
theorem generate_pts {n : ℕ} {pts : List (Pt d)} {z z' : Sop d} (h : z.generate c n pts = some z') :
    Perm (newPts z'.centers) (pts ++ busyPts z.centers) ∧ Perm (busyPts z'.centers) (pts ++ busyPts z.centers) := by
  obtain ⟨z1, z2, h1, h2, h3, h4⟩ := generate_spec h
  have hc : z1.centers = z.centers := by
    rcases h1 with ⟨_, h1⟩ | ⟨_, rfl⟩
    · obtain ⟨_, _, _, rfl⟩ := updateRanks_spec h1; rfl
    · rfl
  obtain ⟨a1, a2, a3⟩ := updateCenterList_pts h2
  obtain ⟨b1, b2, _, _⟩ := assignLoop_pts h3 a3
  rw [a1, hc] at b1
  rw [a2, hc] at b2
  exact ⟨b1, b2⟩

/-- Two evaluated points have different images in the unit box. -/
def TwoPoints (c : Cfg d) (evals : List (SopRec d)) : Prop :=
  ∃ r1 ∈ evals, ∃ r2 ∈ evals, toUnitBox r1.x c.lb c.ub ≠ toUnitBox r2.x c.lb c.ub

theorem eucl_eq_zero {u v : Pt d} (h : eucl u v = 0) : u = v := by
  unfold eucl at h
  rw [Real.sqrt_eq_zero (Finset.sum_nonneg fun i _ => sq_nonneg _)] at h
  have := (Finset.sum_eq_zero_iff_of_nonneg fun i _ => sq_nonneg _).mp h
  funext i
  have hi := this i (Finset.mem_univ i)
  have := pow_eq_zero_iff (two_ne_zero) |>.mp hi
  linarith

theorem distCol_two {evals : List (SopRec d)} (h : TwoPoints c evals) :
    ∃ ds, distCol ((evals.map (fRow c)).map FRow.u) = some ds := by
  obtain ⟨r1, h1, r2, h2, hne⟩ := h
  apply distCol_isSome
  intro u _
  by_cases hu : u = toUnitBox r1.x c.lb c.ub
  · refine ⟨toUnitBox r2.x c.lb c.ub, ?_, fun h0 => hne (hu ▸ eucl_eq_zero h0)⟩
    rw [List.map_map]
    exact List.mem_map.mpr ⟨r2, h2, rfl⟩
  · refine ⟨toUnitBox r1.x c.lb c.ub, ?_, fun h0 => hu (eucl_eq_zero h0)⟩
    rw [List.map_map]
    exact List.mem_map.mpr ⟨r1, h1, rfl⟩

theorem updateRanks_isSome {z : Sop d} {n : ℕ} (hn : z.evals.length = n) (h : TwoPoints c z.evals) :
    ∃ ds, distCol ((z.evals.map (fRow c)).map FRow.u) = some ds ∧
      z.updateRanks c n = some { z with F := some (rankRows (z.evals.map (fRow c)) ds) } := by
  obtain ⟨ds, hds⟩ := distCol_two h
  refine ⟨ds, hds, ?_⟩
  unfold Sop.updateRanks
  have : z.updateF c n = some { z with F := some (z.evals.map (fRow c)) } := by unfold Sop.updateF; rw [if_pos hn]
  simp only [this, hds]

/-- `generate_evals` does not raise if there is room for the new points. -/
theorem generate_isSome {z : Sop d} {n : ℕ} {pts : List (Pt d)} (hz : CInv c z) (hn : z.evals.length = n)
    (h2 : TwoPoints c z.evals) (hF : ∀ F, z.F = some F → F.length = n) (hb : c.base.maxEvals ≠ c.base.numPts)
    (hroom : (busyPts z.centers).length + pts.length ≤ c.ncenters) : ∃ z', z.generate c n pts = some z' := by
  have hpos : 0 < n := by
    obtain ⟨r1, h1, _⟩ := h2
    rw [← hn]; exact List.length_pos_of_mem h1
  have key : ∃ z1 F, z.firstRanks c n = some z1 ∧ z1.F = some F ∧ F.length = n ∧
      z1.evals = z.evals ∧ z1.centers = z.centers ∧ CInv c z1 := by
    unfold Sop.firstRanks
    cases hzF : z.F with
    | none =>
      obtain ⟨ds, hds, hu⟩ := updateRanks_isSome hn h2
      refine ⟨_, rankRows (z.evals.map (fRow c)) ds, hu, rfl, ?_, rfl, rfl, updateRanks_cinv hu hz⟩
      have hl := (distCol_spec hds).1
      rw [rankRows_length (by simpa using hl)]
      simpa using hn
    | some F => exact ⟨z, F, rfl, hzF, hF F hzF, rfl, rfl, hz⟩
  obtain ⟨z1, F, e1, hF1, hlF, hev, hcen, hz1⟩ := key
  obtain ⟨z2, h2'⟩ := updateCenterList_isSome (c := c) (z := z1) (n := n) hF1
    (by intro h; rw [h] at hlF; simp at hlF; omega) (by omega) (by rw [hev]; omega) hb
  obtain ⟨a1, _, a3⟩ := updateCenterList_pts h2'
  have hl := (updateCenterList_cinv h2' hz1).2
  obtain ⟨cs, hcs⟩ := assignLoop_isSome (pts := pts) a3 (by rw [a1, hcen, hl]; exact hroom)
  refine ⟨{ z2 with centers := cs }, ?_⟩
  unfold Sop.generate
  simp only [e1, h2', hcs]

/-- `generate_evals` raises if there is no room. -/
theorem generate_none {z : Sop d} {n : ℕ} {pts : List (Pt d)} (hz : CInv c z)
    (hroom : c.ncenters < (busyPts z.centers).length + pts.length) : z.generate c n pts = none := by
  cases h : z.generate c n pts with
  | none => rfl
  | some z' =>
    have h1 := (generate_pts h).1.length_eq
    have h2 := (generate_cinv h hz).2
    have h3 := newPts_length_le z'.centers
    simp only [List.length_append] at h1
    omega

/-- Marking a center that is being processed. -/
theorem mark_pts {cs : List (Center d)} {x : Pt d} (ni : ℕ) (hx : x ∈ busyPts cs) (hnd : (newPts cs).Nodup) :
    ∃ l ce r, cs = l ++ ce :: r ∧ ce.newPoint = some x ∧
      markCenter cs x ni = (l ++ { ce with newIndex := some ni } :: r, some l.length) ∧
      newPts (markCenter cs x ni).1 = newPts cs ∧ Perm (x :: busyPts (markCenter cs x ni).1) (busyPts cs) := by
  obtain ⟨b, hb, hbx⟩ := List.mem_filterMap.mp hx
  have hbi : b.newIndex = none ∧ b.newPoint = some x := by
    split at hbx
    · rename_i h; exact ⟨by simpa using h, hbx⟩
    · simp at hbx
  rcases markCenter_spec cs x ni with ⟨h1, _⟩ | ⟨l, ce, r, e1, e2, e3, e4⟩
  · exact absurd hbi.2 (h1 b hb)
  · refine ⟨l, ce, r, e1, e2, e4, ?_, ?_⟩
    · rw [e4, e1]; simp [newPts, List.filterMap_cons, e2]
    · -- the marked one is the busy one
      have hce : ce.newIndex = none := by
        rw [e1] at hb
        simp only [List.mem_append, List.mem_cons] at hb
        rcases hb with h | h | h
        · exact absurd hbi.2 (e3 b h)
        · rw [← h]; exact hbi.1
        · exfalso
          rw [e1] at hnd
          simp only [newPts, List.filterMap_append, List.filterMap_cons, e2] at hnd
          have h1 := (List.nodup_append.mp hnd).2.1
          exact (List.nodup_cons.mp h1).1 (List.mem_filterMap.mpr ⟨b, h, hbi.2⟩)
      rw [e4, e1]
      simp only [busyPts, List.filterMap_append, List.filterMap_cons, hce, e2, Option.isNone_none, if_true,
        Option.isNone_some, Bool.false_eq_true, if_false]
      exact List.perm_middle.symm

/-- `adjust_memory` does not raise if the processed centers have evaluated new points. -/
theorem adjustMemory_isSome {z : Sop d} {n : ℕ} {index : Option ℕ} (hz : CInv c z) (hn : z.evals.length = n)
    (h2 : TwoPoints c z.evals) (hidx : ∀ i ∈ processed c index, ∃ ce ni, z.centers[i]? = some ce ∧ ce.newIndex = some ni) :
    ∃ z', z.adjustMemory c n index = some z' := by
  obtain ⟨ds, hds, hu⟩ := updateRanks_isSome hn h2
  have hl := (distCol_spec hds).1
  have hlF : (rankRows (z.evals.map (fRow c)) ds).length = n := by
    rw [rankRows_length (by simpa using hl)]; simpa using hn
  have hfail : ∀ (l : List ℕ) (evals : List (SopRec d)),
      (∀ i ∈ l, ∃ ce ni, z.centers[i]? = some ce ∧ ce.newIndex = some ni) →
      ∃ evals', l.foldlM (failStep (rankRows (z.evals.map (fRow c)) ds) z.centers) evals = some evals' ∧
        evals'.length = evals.length := by
    intro l
    induction l with
    | nil => intro evals _; exact ⟨evals, rfl, rfl⟩
    | cons i l ih =>
      intro evals hl
      obtain ⟨ce, ni, hce, hni⟩ := hl i (List.mem_cons_self ..)
      obtain ⟨x, v, _, hv⟩ := hz.new ce (List.mem_iff_getElem?.mpr ⟨i, hce⟩) ni hni
      have hlt : ni < (rankRows (z.evals.map (fRow c)) ds).length := by
        rw [hlF, ← hn]
        have := (List.getElem?_eq_some_iff.mp hv).1
        simpa [archive] using this
      have hstep : ∃ e1, failStep (rankRows (z.evals.map (fRow c)) ds) z.centers evals i = some e1 ∧
          e1.length = evals.length := by
        unfold failStep
        simp only [hce, hni, Option.bind_some, List.getElem?_eq_getElem hlt]
        refine ⟨_, rfl, ?_⟩
        split
        · rfl
        · simp
      obtain ⟨e1, h1, hl1⟩ := hstep
      obtain ⟨e2, h2, hl2⟩ := ih e1 fun j hj => hl j (List.mem_cons_of_mem _ hj)
      exact ⟨e2, by rw [List.foldlM_cons, h1]; exact h2, hl2.trans hl1⟩
  obtain ⟨evals', he, hle⟩ := hfail (processed c index) z.evals hidx
  have htab : ∀ (l : List ℕ) (evals : List (SopRec d)), (l.foldl (tabuStep z.centers) evals).length = evals.length := by
    intro l
    induction l with
    | nil => intro _; rfl
    | cons i l ih =>
      intro evals
      rw [List.foldl_cons, ih]
      unfold tabuStep
      split <;> simp
  have hlast : ((processed c index).foldl (tabuStep z.centers) (evals'.map SopRec.tick)).length = n := by
    rw [htab, List.length_map, hle, hn]
  unfold Sop.adjustMemory
  simp only [hu, he]
  unfold Sop.updateF
  simp only [hlast, if_true]
  exact ⟨_, rfl⟩

theorem TwoPoints.append {evals : List (SopRec d)} (h : TwoPoints c evals) (e : List (SopRec d)) :
    TwoPoints c (evals ++ e) := by
  obtain ⟨r1, h1, r2, h2, hne⟩ := h
  exact ⟨r1, List.mem_append_left _ h1, r2, List.mem_append_left _ h2, hne⟩

theorem TwoPoints.of_archive {z z' : Sop d} (ha : archive z' = archive z) (h : TwoPoints c z.evals) :
    TwoPoints c z'.evals := by
  obtain ⟨r1, h1, r2, h2, hne⟩ := h
  have key : ∀ r ∈ z.evals, ∃ r' ∈ z'.evals, r'.x = r.x := by
    intro r hr
    have : (r.x, r.fx) ∈ archive z' := by rw [ha]; exact List.mem_map.mpr ⟨r, hr, rfl⟩
    obtain ⟨r', hr', he⟩ := List.mem_map.mp this
    exact ⟨r', hr', (Prod.mk.injEq .. ▸ he).1⟩
  obtain ⟨r1', h1', e1⟩ := key r1 h1
  obtain ⟨r2', h2', e2⟩ := key r2 h2
  exact ⟨r1', h1', r2', h2', by rw [e1, e2]; exact hne⟩

end Verif.Sop
