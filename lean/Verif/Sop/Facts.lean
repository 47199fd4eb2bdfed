import Verif.Sop.Calm
import Verif.Props.Pareto

/-! # Further facts about SOP -/

set_option linter.unusedSectionVars false

namespace Verif.Sop

open Verif.Num Verif.Utils Verif.Strategy Verif.Spec
open List (Perm Sublist)

variable {d : ℕ} {c : Cfg d}

/-! ## Rank one -/

/-- `nd_sorting` with a positive limit gives rank 1 exactly to the nondominated columns. -/
theorem ndSorting_one {F : List (Utils.Vec 2)} {nmax k : ℕ} (hn : 0 < nmax) (hk : k < F.length) :
    rankOf (ndSorting F nmax k) = 1 ↔ ¬ ∃ l, ∃ hl : l < F.length, ∀ i, F[l] i < F[k] i := by
  classical
  obtain ⟨rank, hr, R, h1, h2, _⟩ := Props.C41_sorting (M := 2) (by norm_num) F nmax
  have hpos : ∀ k < F.length, 1 ≤ rank k := by
    intro k hk; rw [hr k hk]; omega
  have hR : 1 ≤ R := by
    by_contra hR
    have : ((Finset.range F.length).filter fun k => rank k ≤ R) = ∅ := by
      rw [Finset.filter_eq_empty_iff]
      intro k hk
      have := hpos k (Finset.mem_range.mp hk)
      omega
    rw [this, Finset.card_empty] at h2
    omega
  have hone : rank k = 1 ↔ ¬ ∃ l, ∃ hl : l < F.length, ∀ i, F[l] i < F[k] i := by
    rw [hr k hk]
    constructor
    · rintro h ⟨l, hl, hd⟩
      have hle := Finset.le_sup (f := rank) (Finset.mem_filter.mpr ⟨Finset.mem_range.mpr hl, ⟨hl, hd⟩⟩ :
        l ∈ (Finset.range F.length).filter fun l => ∃ hl : l < F.length, ∀ i, F[l] i < F[k] i)
      have := hpos l hl
      omega
    · intro h
      have : ((Finset.range F.length).filter fun l => ∃ hl : l < F.length, ∀ i, F[l] i < F[k] i) = ∅ := by
        rw [Finset.filter_eq_empty_iff]
        intro l hl hd
        exact h ⟨l, hd⟩
      rw [this]; simp
  rw [← hone, show ndSorting F nmax k = if rank k ≤ R then some (rank k) else none from h1 k hk]
  by_cases hk' : rank k ≤ R
  · rw [if_pos hk']
    simp only [rankOf]
    constructor
    · intro h; exact_mod_cast h
    · intro h; rw [h]; rfl
  · rw [if_neg hk']
    simp only [rankOf]
    constructor
    · intro h; exact absurd h (by simp)
    · intro h; omega

theorem objVecs_length {rows : List (FRow d)} {ds : List ℝ} (h : ds.length = rows.length) :
    (objVecs rows ds).length = rows.length := by simp [objVecs, h]

theorem objVecs_get {rows : List (FRow d)} {ds : List ℝ} (h : ds.length = rows.length) {i : ℕ} (hi : i < rows.length)
    (hi' : i < (objVecs rows ds).length) : (objVecs rows ds)[i] = ![(rows[i].f : ℝ), ds[i]] := by
  simp [objVecs]

/-- The distance of an archive point to the nearest archive point that differs from it, in the unit box. -/
def IsNearest (c : Cfg d) (evals : List (SopRec d)) (i : ℕ) (m : ℝ) : Prop :=
  ∃ r, evals[i]? = some r ∧
    (∃ r' ∈ evals, eucl (toUnitBox r.x c.lb c.ub) (toUnitBox r'.x c.lb c.ub) = m) ∧ 0 < m ∧
    ∀ r' ∈ evals, eucl (toUnitBox r.x c.lb c.ub) (toUnitBox r'.x c.lb c.ub) ≠ 0 →
      m ≤ eucl (toUnitBox r.x c.lb c.ub) (toUnitBox r'.x c.lb c.ub)

theorem IsNearest.unique {evals : List (SopRec d)} {i : ℕ} {m m' : ℝ} (h : IsNearest c evals i m)
    (h' : IsNearest c evals i m') : m = m' := by
  obtain ⟨r, hr, ⟨a, ha, hae⟩, hpos, hmin⟩ := h
  obtain ⟨r', hr', ⟨a', ha', hae'⟩, hpos', hmin'⟩ := h'
  rw [hr] at hr'
  simp only [Option.some.injEq] at hr'
  subst hr'
  apply le_antisymm
  · rw [← hae']; exact hmin a' ha' (by rw [hae']; exact hpos'.ne')
  · rw [← hae]; exact hmin' a ha (by rw [hae]; exact hpos.ne')

theorem distCol_nearest {evals : List (SopRec d)} {ds : List ℝ} (h : distCol ((evals.map (fRow c)).map FRow.u) = some ds)
    {i : ℕ} (hi : i < evals.length) : ∃ m, ds[i]? = some (-m) ∧ IsNearest c evals i m := by
  have hu : ((evals.map (fRow c)).map FRow.u)[i]? = some (toUnitBox evals[i].x c.lb c.ub) := by
    simp [hi, fRow]
  obtain ⟨m, h1, h2, ⟨u', hu', he⟩, h4⟩ := (distCol_spec h).2 i _ hu
  have hmem : ∀ u, u ∈ (evals.map (fRow c)).map FRow.u ↔ ∃ r ∈ evals, toUnitBox r.x c.lb c.ub = u := by
    intro u; simp [fRow]
  refine ⟨m, h1, evals[i], List.getElem?_eq_getElem hi, ?_, h2, ?_⟩
  · obtain ⟨r', hr', rfl⟩ := (hmem u').mp hu'
    exact ⟨r', hr', he⟩
  · intro r' hr'
    exact h4 _ ((hmem _).mpr ⟨r', hr', rfl⟩)

/-- Rank 1 in the ranked archive: no evaluated point has both a smaller value and a larger distance to its neighbours. -/
theorem rank_one_iff {evals : List (SopRec d)} {ds : List ℝ} (h : distCol ((evals.map (fRow c)).map FRow.u) = some ds)
    {i : ℕ} (hi : i < evals.length) : ∃ row, (rankRows (evals.map (fRow c)) ds)[i]? = some row ∧
      (row.rank = 1 ↔ ¬ ∃ l r r' m m', evals[l]? = some r ∧ evals[i]? = some r' ∧ IsNearest c evals l m ∧
        IsNearest c evals i m' ∧ r.fx < r'.fx ∧ m' < m) := by
  have hl : ds.length = (evals.map (fRow c)).length := by simpa using (distCol_spec h).1
  have hlen := objVecs_length hl
  have hr : (evals.map (fRow c))[i]? = some (fRow c evals[i]) := by simp [hi]
  obtain ⟨δ, hδ, hrow⟩ := rankRows_get hl i hr
  refine ⟨_, hrow, ?_⟩
  have hi' : i < (objVecs (evals.map (fRow c)) ds).length := by rw [hlen]; simpa using hi
  rw [ndSorting_one (by norm_num) hi', not_iff_not]
  have hvec : ∀ l (hl' : l < (objVecs (evals.map (fRow c)) ds).length) (hle : l < evals.length), ∃ m, IsNearest c evals l m ∧
      (objVecs (evals.map (fRow c)) ds)[l] = ![(evals[l].fx : ℝ), -m] := by
    intro l hl' hle
    obtain ⟨m, hm, hn⟩ := distCol_nearest h hle
    refine ⟨m, hn, ?_⟩
    rw [objVecs_get hl (by simpa using hle) hl']
    obtain ⟨hb, he⟩ := List.getElem?_eq_some_iff.mp hm
    simp [he, fRow]
  constructor
  · rintro ⟨l, hl', hd⟩
    have hle : l < evals.length := by rw [hlen] at hl'; simpa using hl'
    obtain ⟨m, hm, hv⟩ := hvec l hl' hle
    obtain ⟨m', hm', hv'⟩ := hvec i hi' hi
    refine ⟨l, evals[l], evals[i], m, m', List.getElem?_eq_getElem hle, List.getElem?_eq_getElem hi, hm, hm', ?_, ?_⟩
    · have := hd 0
      rw [hv, hv'] at this
      simpa using this
    · have := hd 1
      rw [hv, hv'] at this
      simpa using this
  · rintro ⟨l, r, r', m, m', h1, h2, h3, h4, h5, h6⟩
    obtain ⟨hle, rfl⟩ := List.getElem?_eq_some_iff.mp h1
    obtain ⟨_, rfl⟩ := List.getElem?_eq_some_iff.mp h2
    have hl' : l < (objVecs (evals.map (fRow c)) ds).length := by rw [hlen]; simpa using hle
    refine ⟨l, hl', ?_⟩
    obtain ⟨n, hn, hv⟩ := hvec l hl' hle
    obtain ⟨n', hn', hv'⟩ := hvec i hi' hi
    rw [hv, hv', ← h3.unique hn, ← h4.unique hn']
    intro k
    fin_cases k
    · simpa using h5
    · simpa using h6

/-! ## Exceptions in `adjust_memory` -/

theorem failLoop_none {F : List (FRow d)} {cs : List (Center d)} {indices : List ℕ} {i : ℕ} (hi : i ∈ indices)
    (h : ∀ ce, cs[i]? = some ce → ce.newIndex = none) (evals : List (SopRec d)) :
    indices.foldlM (failStep F cs) evals = none := by
  induction indices generalizing evals with
  | nil => simp at hi
  | cons j l ih =>
    rw [List.foldlM_cons]
    rcases List.mem_cons.mp hi with rfl | hm
    · have : failStep F cs evals i = none := by
        unfold failStep
        cases hce : cs[i]? with
        | none => rfl
        | some ce => simp only [h ce hce]; rfl
      rw [this]; rfl
    · cases hf : failStep F cs evals j with
      | none => rfl
      | some e => exact ih hm e

theorem adjustMemory_none {n : ℕ} {index : Option ℕ} {z : Sop d} {i : ℕ} (hi : i ∈ processed c index)
    (h : ∀ ce, z.centers[i]? = some ce → ce.newIndex = none) : z.adjustMemory c n index = none := by
  cases ha : z.adjustMemory c n index with
  | none => rfl
  | some z' =>
    obtain ⟨ds, evals, _, _, he, _⟩ := adjustMemory_spec ha
    rw [failLoop_none hi h] at he
    simp at he

/-! ## Counting the points that were generated -/

/-- All points generated in the adaptive phase. -/
def generatedPts (log : List (Event (Pt d))) : List (Pt d) :=
  log.flatMap fun e => match e with
    | .generated pts _ => pts
    | _ => []

/-- The number of completed evaluations with the callbacks of the adaptive phase. -/
def adaptDone (log : List (Event (Pt d))) : ℕ :=
  log.countP fun e => match e with
    | .completed _ .adapt _ _ => true
    | _ => false

theorem generatedPts_append (l m : List (Event (Pt d))) : generatedPts (l ++ m) = generatedPts l ++ generatedPts m := by
  simp [generatedPts]

theorem adaptDone_append (l m : List (Event (Pt d))) : adaptDone (l ++ m) = adaptDone l + adaptDone m := by
  simp [adaptDone]

theorem mark_busy (cs : List (Center d)) (x : Pt d) (ni : ℕ) :
    (busyPts cs).length ≤ (busyPts (markCenter cs x ni).1).length + 1 := by
  rcases markCenter_spec cs x ni with ⟨_, h2⟩ | ⟨l, ce, r, e1, e2, _, e4⟩
  · rw [h2]; simp only; omega
  · rw [e4, e1]
    simp only [busyPts, List.filterMap_append, List.filterMap_cons, e2, Option.isNone_some, Bool.false_eq_true, if_false,
      List.length_append]
    split
    · omega
    · simp only [List.length_cons]; omega

theorem mark_new (cs : List (Center d)) (x : Pt d) (ni : ℕ) : newPts (markCenter cs x ni).1 = newPts cs := by
  rcases markCenter_spec cs x ni with ⟨_, h2⟩ | ⟨l, ce, r, e1, e2, _, e4⟩
  · rw [h2]
  · rw [e4, e1]; simp [newPts, List.filterMap_cons]

theorem onAdaptCompleted_centers {st : State (Pt d)} {z z' : Sop d} {x : Pt d} {v : Val} {evId : ℕ} (hev : st.evLast = 0)
    (h : z.onAdaptCompleted c st x v evId = some z') :
    z'.centers = (markCenter z.centers x (st.numEvals.toNat - 1)).1 := by
  rcases onAdaptCompleted_spec hev h with ⟨_, h3⟩ | ⟨_, _, _, h3⟩ | ⟨_, _, rfl⟩
  · obtain ⟨_, _, _, _, _, _, hc, _⟩ := adjustMemory_spec h3; exact hc
  · obtain ⟨_, _, _, _, _, _, hc, _⟩ := adjustMemory_spec h3; exact hc
  · rfl

/-- How one step changes the log and the centers: with no generation and no adaptive completion, nothing changes. -/
inductive Effect (c : Cfg d) (w w' : SopSys d) : Prop
  | quiet (h1 : generatedPts w'.sys.st.log = generatedPts w.sys.st.log) (h2 : adaptDone w'.sys.st.log = adaptDone w.sys.st.log)
      (h3 : w'.sop.centers = w.sop.centers) (h4 : w'.sop.F = w.sop.F)
  | gen (pts : List (Pt d)) (h1 : generatedPts w'.sys.st.log = generatedPts w.sys.st.log ++ pts)
      (h2 : adaptDone w'.sys.st.log = adaptDone w.sys.st.log)
      (h3 : w.sop.generate c w.sys.st.numEvals.toNat pts = some w'.sop)
      (h4 : pts.length = genCount c.base)
  | done (x : Pt d) (h1 : generatedPts w'.sys.st.log = generatedPts w.sys.st.log)
      (h2 : adaptDone w'.sys.st.log = adaptDone w.sys.st.log + 1)
      (h3 : w'.sop.centers = (markCenter w.sop.centers x (w'.sys.st.numEvals.toNat - 1)).1)

theorem step_effect (hs : c.base.srbf = none) {w w' : SopSys d} (hr : Reach c w) {op : Strategy.Op (Pt d)}
    (h : w.step c op = some w') : Effect c w w' := by
  cases op with
  | propose o =>
    cases step_propose hs (hr.inv hs).conv h with
    | term ht =>
      by_cases hp : w.sys.st.pendingEvals = 0
      · rw [show termState w.sys.st = State.note { w.sys.st with terminate := true } .terminated by
          unfold termState; rw [if_pos hp]]
        exact .quiet (by simp [State.note, generatedPts]) (by simp [State.note, adaptDone]) rfl rfl
      · rw [show termState w.sys.st = { w.sys.st with terminate := true } by unfold termState; rw [if_neg hp]]
        exact .quiet rfl rfl rfl rfl
    | queue x q hq hg =>
      exact .quiet (by simp [proposeLast, State.note, State.makeProposal, generatedPts])
        (by simp [proposeLast, State.note, State.makeProposal, adaptDone]) rfl rfl
    | gen x q z hpts hq hg ha hz =>
      refine .gen (q ++ [x]) ?_ ?_ hz ?_
      · simp [proposeLast, State.note, State.makeProposal, genState, generatedPts]
      · simp [proposeLast, State.note, State.makeProposal, genState, adaptDone]
      · rw [← hpts]; simp
    | genNone z hn hq hg ha hz =>
      refine .gen [] ?_ ?_ hz (by simp [hn])
      · simp [genState, generatedPts]
      · simp [genState, adaptDone]
    | wait hq hg ha hp => exact .quiet rfl rfl rfl rfl
  | complete i v =>
    have hr' := hr.step _ h
    obtain ⟨r, hrec, hsys, hsop⟩ := step_complete hs h
    have hlog : w'.sys.st.log = w.sys.st.log ++ [.completed r.x r.kind v r.accAt] := by
      rw [hsys]; simp only [recordCompleted_eq]; rfl
    have hev := (hr'.inv hs).evLast
    cases hk : r.kind with
    | init =>
      rw [hk] at hsop
      simp only at hsop
      rw [Sop.onInitialCompleted, hev, if_pos (Nat.zero_le _)] at hsop
      refine .quiet ?_ ?_ (by rw [hsop]) (by rw [hsop])
      · rw [hlog]; simp [generatedPts]
      · rw [hlog, hk]; simp [adaptDone]
    | adapt =>
      rw [hk] at hsop
      refine .done r.x ?_ ?_ (onAdaptCompleted_centers hev hsop)
      · rw [hlog]; simp [generatedPts]
      · rw [hlog, hk]; simp [adaptDone]
  | accept i =>
    obtain ⟨h1, h2⟩ := step_other h (by simp) (by simp)
    unfold Sys.step at h2
    simp only at h2
    split at h2
    · simp at h2
    · simp only [Option.some.injEq] at h2
      exact .quiet (by rw [← h2]; simp [State.onAccept, State.note, generatedPts])
        (by rw [← h2]; simp [State.onAccept, State.note, adaptDone]) (by rw [h1]) (by rw [h1])
  | reject i =>
    obtain ⟨h1, h2⟩ := step_other h (by simp) (by simp)
    unfold Sys.step at h2
    simp only at h2
    split at h2
    · simp at h2
    · rename_i p hp
      simp only [Option.some.injEq] at h2
      cases hk : p.kind <;> rw [hk] at h2 <;> simp only [onInitialRejected_eq, onAdaptReject_eq] at h2 <;>
        exact .quiet (by rw [← h2]; simp [State.note, generatedPts]) (by rw [← h2]; simp [State.note, adaptDone])
          (by rw [h1]) (by rw [h1])
  | abort i =>
    obtain ⟨h1, h2⟩ := step_other h (by simp) (by simp)
    unfold Sys.step at h2
    simp only at h2
    split at h2
    · simp at h2
    · simp only [Option.some.injEq, onAborted_eq] at h2
      exact .quiet (by rw [← h2]; simp [State.note, generatedPts]) (by rw [← h2]; simp [State.note, adaptDone])
          (by rw [h1]) (by rw [h1])
  | update i =>
    obtain ⟨h1, h2⟩ := step_other h (by simp) (by simp)
    unfold Sys.step at h2
    simp only at h2
    split at h2
    · simp at h2
    · simp only [Option.some.injEq] at h2
      exact .quiet (by rw [← h2]) (by rw [← h2]) (by rw [h1]) (by rw [h1])

/-- Every generated point is still waited for, or was paid for by a completed evaluation. -/
theorem Reach.generated_le (hs : c.base.srbf = none) {w : SopSys d} (h : Reach c w) :
    (generatedPts w.sys.st.log).length ≤ adaptDone w.sys.st.log + (busyPts w.sop.centers).length := by
  induction h with
  | create o => simp [SopSys.create, Sys.create, create_eq, generatedPts]
  | @step w w' op hr hstep ih =>
    cases step_effect hs hr hstep with
    | quiet h1 h2 h3 h4 => rw [h1, h2, h3]; exact ih
    | gen pts h1 h2 h3 h4 =>
      have := (generate_pts h3).2.length_eq
      rw [h1, h2, this]
      simp only [List.length_append]
      omega
    | done x h1 h2 h3 =>
      have := mark_busy w.sop.centers x (w'.sys.st.numEvals.toNat - 1)
      rw [h1, h2, h3]
      omega
  | @resume w hr ih =>
    have h1 : generatedPts w.sys.resumed.st.log = generatedPts w.sys.st.log := by
      simp [Sys.resumed, resume_eq, State.note, generatedPts]
    have h2 : adaptDone w.sys.resumed.st.log = adaptDone w.sys.st.log := by
      simp [Sys.resumed, resume_eq, State.note, adaptDone]
    simp only [h1, h2]
    exact ih

/-- At most the points generated so far were assigned to centers. -/
theorem Reach.newPts_le (hs : c.base.srbf = none) {w : SopSys d} (h : Reach c w) :
    (newPts w.sop.centers).length ≤ (generatedPts w.sys.st.log).length := by
  induction h with
  | create o => simp [SopSys.create, newPts]
  | @step w w' op hr hstep ih =>
    cases step_effect hs hr hstep with
    | quiet h1 h2 h3 h4 => rw [h1, h3]; exact ih
    | gen pts h1 h2 h3 h4 =>
      have h5 := (generate_pts h3).1.length_eq
      have h6 : (busyPts w.sop.centers).length ≤ (newPts w.sop.centers).length := by
        rw [← newPts_unfinished]
        exact (List.Sublist.filterMap _ List.filter_sublist).length_le
      rw [h1, h5]
      simp only [List.length_append]
      omega
    | done x h1 h2 h3 => rw [h1, h3, mark_new]; exact ih
  | @resume w hr ih =>
    have h1 : generatedPts w.sys.resumed.st.log = generatedPts w.sys.st.log := by
      simp [Sys.resumed, resume_eq, State.note, generatedPts]
    simp only [h1]
    exact ih

end Verif.Sop
