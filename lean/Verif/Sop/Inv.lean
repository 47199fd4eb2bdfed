import Verif.Sop.Centers
import Verif.Strategy.Inv

/-! # Invariants of the centers and of the ranked archive -/

set_option linter.unusedSectionVars false

namespace Verif.Sop

open Verif.Num Verif.Utils Verif.Strategy
open List (Perm Sublist)

variable {d : ℕ} {c : Cfg d}

/-- The row agrees with the record. -/
structure RowOk (c : Cfg d) (row : FRow d) (r : SopRec d) : Prop where
  u : row.u = toUnitBox r.x c.lb c.ub
  f : row.f = r.fx
  tabu : row.tabu = r.ntabu
  nfail : row.nfail = r.nfail

/-- All rows agree with the first records. -/
def RowsOk (c : Cfg d) (F : List (FRow d)) (evals : List (SopRec d)) : Prop :=
  F.length ≤ evals.length ∧ ∀ i : ℕ, i < F.length → ∃ row r, F[i]? = some row ∧ evals[i]? = some r ∧ RowOk c row r

theorem RowsOk.append {F : List (FRow d)} {evals : List (SopRec d)} (h : RowsOk c F evals) (e : List (SopRec d)) :
    RowsOk c F (evals ++ e) := by
  refine ⟨by have := h.1; simp; omega, fun i hi => ?_⟩
  obtain ⟨row, r, h1, h2, h3⟩ := h.2 i hi
  refine ⟨row, r, h1, ?_, h3⟩
  have hi' : i < evals.length := by have := h.1; omega
  rw [List.getElem?_append_left hi', h2]

theorem rowsOk_map (evals : List (SopRec d)) : RowsOk c (evals.map (fRow c)) evals := by
  refine ⟨by simp, fun i hi => ?_⟩
  rw [List.length_map] at hi
  exact ⟨fRow c evals[i], evals[i], by simp [hi], by simp [hi], ⟨rfl, rfl, rfl, rfl⟩⟩

theorem rowsOk_rank {evals : List (SopRec d)} {ds : List ℝ} (h : ds.length = evals.length) :
    RowsOk c (rankRows (evals.map (fRow c)) ds) evals := by
  have hl : ds.length = (evals.map (fRow c)).length := by simpa using h
  refine ⟨by rw [rankRows_length hl]; simp, fun i hi => ?_⟩
  rw [rankRows_length hl, List.length_map] at hi
  have hr : (evals.map (fRow c))[i]? = some (fRow c evals[i]) := by simp [hi]
  obtain ⟨δ, _, hrow⟩ := rankRows_get hl i hr
  exact ⟨_, evals[i], hrow, by simp [hi], ⟨rfl, rfl, rfl, rfl⟩⟩

/-- Invariants of the memory. -/
structure CInv (c : Cfg d) (z : Sop d) : Prop where
  len : z.centers = [] ∨ z.centers.length = c.ncenters
  at_ : ∀ ce ∈ z.centers, ∃ v, (archive z)[ce.index]? = some (ce.xc, v)
  new : ∀ ce ∈ z.centers, ∀ ni, ce.newIndex = some ni → ∃ x v, ce.newPoint = some x ∧ (archive z)[ni]? = some (x, v)
  rows : ∀ F, z.F = some F → RowsOk c F z.evals

theorem archive_get_of_evals {z : Sop d} {i : ℕ} {x : Pt d} (h : (z.evals[i]?).map SopRec.x = some x) :
    ∃ v, (archive z)[i]? = some (x, v) := by
  obtain ⟨r, hr, rfl⟩ := Option.map_eq_some_iff.mp h
  refine ⟨r.fx, ?_⟩
  unfold archive
  rw [List.getElem?_map, hr]; rfl

theorem updateRanks_cinv {n : ℕ} {z z' : Sop d} (h : z.updateRanks c n = some z') (hz : CInv c z) : CInv c z' := by
  obtain ⟨hl, ds, hds, rfl⟩ := updateRanks_spec h
  refine ⟨hz.len, hz.at_, hz.new, ?_⟩
  intro F hF
  simp only [Option.some.injEq] at hF
  subst hF
  have := (distCol_spec hds).1
  exact rowsOk_rank (by simpa using this)

theorem updateCenterList_cinv {n : ℕ} {z z' : Sop d} (h : z.updateCenterList c n = some z') (hz : CInv c z) :
    CInv c z' ∧ z'.centers.length = c.ncenters := by
  obtain ⟨F, dt, mi, hF, _, _, he, hF', new, hc, hnew, hl, _⟩ := updateCenterList_spec h
  have hlen : z'.centers.length = c.ncenters := by
    rw [hc, List.length_append, hl]
    have h1 : (z.centers.filter fun ce => ce.newIndex.isNone).length ≤ z.centers.length := List.length_filter_le _ _
    rcases hz.len with h2 | h2
    · rw [h2]; simp
    · omega
  have harch : archive z' = archive z := by unfold archive; rw [he]
  refine ⟨⟨Or.inr hlen, ?_, ?_, ?_⟩, hlen⟩
  · intro ce hce
    rw [harch]
    rw [hc] at hce
    rcases List.mem_append.mp hce with h1 | h1
    · exact hz.at_ ce (List.mem_filter.mp h1).1
    · exact archive_get_of_evals (hnew ce h1).1
  · intro ce hce ni hni
    rw [hc] at hce
    rcases List.mem_append.mp hce with h1 | h1
    · have := (List.mem_filter.mp h1).2
      rw [hni] at this; simp at this
    · rw [(hnew ce h1).2.2] at hni; simp at hni
  · rw [hF', he]; exact hz.rows

theorem assignPoint_spec {cs cs' : List (Center d)} {x : Pt d} (h : assignPoint cs x = some cs') :
    ∃ l ce r, cs = l ++ ce :: r ∧ cs' = l ++ { ce with newPoint := some x } :: r ∧ ce.newPoint = none ∧
      ∀ a ∈ l, a.newPoint ≠ none := by
  induction cs generalizing cs' with
  | nil => simp [assignPoint] at h
  | cons ce rest ih =>
    unfold assignPoint at h
    cases hp : ce.newPoint with
    | none =>
      rw [hp] at h
      simp only [Option.some.injEq] at h
      exact ⟨[], ce, rest, rfl, h.symm, hp, by simp⟩
    | some y =>
      rw [hp] at h
      simp only at h
      obtain ⟨cs1, h1, rfl⟩ := Option.map_eq_some_iff.mp h
      obtain ⟨l, ce', r, e1, e2, e3, e4⟩ := ih h1
      refine ⟨ce :: l, ce', r, by simp [e1], by simp [e2], e3, ?_⟩
      intro a ha
      rcases List.mem_cons.mp ha with rfl | hm
      · rw [hp]; simp
      · exact e4 a hm

theorem assignPoint_isSome {cs : List (Center d)} (x : Pt d) (h : ∃ ce ∈ cs, ce.newPoint = none) :
    ∃ cs', assignPoint cs x = some cs' := by
  induction cs with
  | nil => simp at h
  | cons ce rest ih =>
    unfold assignPoint
    cases hp : ce.newPoint with
    | none => exact ⟨_, rfl⟩
    | some y =>
      obtain ⟨ce', hm, hn⟩ := h
      rcases List.mem_cons.mp hm with rfl | hm
      · rw [hp] at hn; simp at hn
      · obtain ⟨cs', h'⟩ := ih ⟨ce', hm, hn⟩
        rw [h']; exact ⟨_, rfl⟩

theorem assignPoint_cinv {z : Sop d} {x : Pt d} {cs' : List (Center d)} (h : assignPoint z.centers x = some cs')
    (hz : CInv c z) : CInv c { z with centers := cs' } ∧ cs'.length = z.centers.length := by
  obtain ⟨l, ce, r, e1, e2, e3, _⟩ := assignPoint_spec h
  have hlen : cs'.length = z.centers.length := by rw [e1, e2]; simp
  have hmem : ∀ a ∈ cs', (a ∈ z.centers) ∨ (a.index = ce.index ∧ a.xc = ce.xc ∧ a.newIndex = ce.newIndex) := by
    intro a ha
    rw [e2] at ha
    rw [e1]
    simp only [List.mem_append, List.mem_cons] at ha ⊢
    rcases ha with h1 | h1 | h1
    · exact Or.inl (Or.inl h1)
    · rw [h1]; exact Or.inr ⟨rfl, rfl, rfl⟩
    · exact Or.inl (Or.inr (Or.inr h1))
  have hce : ce ∈ z.centers := by rw [e1]; simp
  refine ⟨⟨?_, ?_, ?_, hz.rows⟩, hlen⟩
  · rcases hz.len with h1 | h1
    · rw [e1] at h1; simp at h1
    · right; simp only; omega
  · intro a ha
    rcases hmem a ha with h1 | ⟨h1, h2, _⟩
    · exact hz.at_ a h1
    · rw [h1, h2]; exact hz.at_ ce hce
  · intro a ha ni hni
    rcases hmem a ha with h1 | ⟨_, _, h3⟩
    · exact hz.new a h1 ni hni
    · rw [h3] at hni
      obtain ⟨y, v, hy, _⟩ := hz.new ce hce ni hni
      rw [e3] at hy; simp at hy

theorem assignLoop_cinv {z : Sop d} : ∀ {pts : List (Pt d)} {cs cs' : List (Center d)}, 
    pts.foldlM assignPoint cs = some cs' → CInv c { z with centers := cs } →
    CInv c { z with centers := cs' } ∧ cs'.length = cs.length := by
  intro pts
  induction pts with
  | nil => intro cs cs' h hz; simp only [List.foldlM_nil, Option.pure_def, Option.some.injEq] at h; subst h; exact ⟨hz, rfl⟩
  | cons x l ih =>
    intro cs cs' h hz
    rw [List.foldlM_cons] at h
    obtain ⟨e1, h1, h2⟩ := Option.bind_eq_some_iff.mp h
    obtain ⟨h3, h4⟩ := assignPoint_cinv (z := { z with centers := cs }) h1 hz
    obtain ⟨h5, h6⟩ := ih h2 h3
    exact ⟨h5, h6.trans h4⟩

/-- The parts of `generate_evals`. -/
theorem generate_spec {n : ℕ} {pts : List (Pt d)} {z z' : Sop d} (h : z.generate c n pts = some z') :
    ∃ z1 z2, (z.F = none ∧ z.updateRanks c n = some z1 ∨ z.F ≠ none ∧ z1 = z) ∧ z1.updateCenterList c n = some z2 ∧
      pts.foldlM assignPoint z2.centers = some z'.centers ∧ z' = { z2 with centers := z'.centers } := by
  unfold Sop.generate at h
  split at h
  · simp at h
  · rename_i z1 h1
    split at h
    · simp at h
    · rename_i z2 h2
      split at h
      · simp at h
      · rename_i cs h3
        simp only [Option.some.injEq] at h
        refine ⟨z1, z2, ?_, h2, ?_, ?_⟩
        · unfold Sop.firstRanks at h1
          split at h1
          · rename_i hF; exact Or.inl ⟨hF, h1⟩
          · rename_i F hF
            simp only [Option.some.injEq] at h1
            exact Or.inr ⟨by rw [hF]; simp, h1.symm⟩
        · rw [h3, ← h]
        · rw [← h]

theorem generate_cinv {n : ℕ} {pts : List (Pt d)} {z z' : Sop d} (h : z.generate c n pts = some z') (hz : CInv c z) :
    CInv c z' ∧ z'.centers.length = c.ncenters := by
  obtain ⟨z1, z2, h1, h2, h3, h4⟩ := generate_spec h
  have hz1 : CInv c z1 := by
    rcases h1 with ⟨_, h1⟩ | ⟨_, rfl⟩
    · exact updateRanks_cinv h1 hz
    · exact hz
  obtain ⟨hz2, hl⟩ := updateCenterList_cinv h2 hz1
  obtain ⟨h5, h6⟩ := assignLoop_cinv (z := z2) h3 hz2
  rw [h4]
  exact ⟨h5, h6.trans hl⟩

theorem markCenter_spec (cs : List (Center d)) (x : Pt d) (ni : ℕ) :
    ((∀ ce ∈ cs, ce.newPoint ≠ some x) ∧ markCenter cs x ni = (cs, none)) ∨
    ∃ l ce r, cs = l ++ ce :: r ∧ ce.newPoint = some x ∧ (∀ a ∈ l, a.newPoint ≠ some x) ∧
      markCenter cs x ni = (l ++ { ce with newIndex := some ni } :: r, some l.length) := by
  induction cs with
  | nil => left; simp [markCenter]
  | cons ce rest ih =>
    by_cases hp : ce.newPoint = some x
    · right
      refine ⟨[], ce, rest, rfl, hp, by simp, ?_⟩
      unfold markCenter
      rw [if_pos hp]; rfl
    · rcases ih with ⟨h1, h2⟩ | ⟨l, ce', r, e1, e2, e3, e4⟩
      · left
        refine ⟨by intro a ha; rcases List.mem_cons.mp ha with rfl | hm; exacts [hp, h1 a hm], ?_⟩
        unfold markCenter
        rw [if_neg hp]
        simp only [h2]; rfl
      · right
        refine ⟨ce :: l, ce', r, by simp [e1], e2, ?_, ?_⟩
        · intro a ha; rcases List.mem_cons.mp ha with rfl | hm; exacts [hp, e3 a hm]
        · unfold markCenter
          rw [if_neg hp]
          simp only [e4]
          simp

theorem markCenter_cinv {z : Sop d} {x : Pt d} {v : Val} {ni : ℕ} (hni : (archive z)[ni]? = some (x, v)) (hz : CInv c z) :
    CInv c { z with centers := (markCenter z.centers x ni).1 } := by
  rcases markCenter_spec z.centers x ni with ⟨_, h2⟩ | ⟨l, ce, r, e1, e2, _, e4⟩
  · rw [h2]; exact hz
  · rw [e4]
    simp only
    have hmem : ∀ a ∈ l ++ { ce with newIndex := some ni } :: r, a ∈ z.centers ∨ a = { ce with newIndex := some ni } := by
      intro a ha
      rw [e1]
      simp only [List.mem_append, List.mem_cons] at ha ⊢
      tauto
    have hce : ce ∈ z.centers := by rw [e1]; simp
    refine ⟨?_, ?_, ?_, hz.rows⟩
    · rcases hz.len with h1 | h1
      · rw [e1] at h1; simp at h1
      · right; rw [e1] at h1; simpa using h1
    · intro a ha
      rcases hmem a ha with h1 | rfl
      · exact hz.at_ a h1
      · exact hz.at_ ce hce
    · intro a ha mi hmi
      rcases hmem a ha with h1 | rfl
      · exact hz.new a h1 mi hmi
      · simp only [Option.some.injEq] at hmi
        subst hmi
        exact ⟨x, v, e2, hni⟩

theorem adjustMemory_cinv {n : ℕ} {index : Option ℕ} {z z' : Sop d} (h : z.adjustMemory c n index = some z')
    (hz : CInv c z) : CInv c z' := by
  have ha := adjustMemory_archive h
  obtain ⟨_, _, _, _, _, _, hc, hF, _⟩ := adjustMemory_spec h
  refine ⟨by rw [hc]; exact hz.len, by rw [hc, ha]; exact hz.at_, by rw [hc, ha]; exact hz.new, ?_⟩
  intro F hF'
  rw [hF] at hF'
  simp only [Option.some.injEq] at hF'
  subst hF'
  exact rowsOk_map _

theorem append_cinv {z : Sop d} (r : SopRec d) (hz : CInv c z) : CInv c { z with evals := z.evals ++ [r] } := by
  have ha : archive { z with evals := z.evals ++ [r] } = archive z ++ [(r.x, r.fx)] := by simp [archive]
  have hget : ∀ (i : ℕ) p, (archive z)[i]? = some p → (archive { z with evals := z.evals ++ [r] })[i]? = some p := by
    intro i p hp
    rw [ha, List.getElem?_append_left (List.getElem?_eq_some_iff.mp hp).1, hp]
  refine ⟨hz.len, ?_, ?_, ?_⟩
  · intro ce hce
    obtain ⟨v, hv⟩ := hz.at_ ce hce
    exact ⟨v, hget _ _ hv⟩
  · intro ce hce ni hni
    obtain ⟨x, v, h1, h2⟩ := hz.new ce hce ni hni
    exact ⟨x, v, h1, hget _ _ h2⟩
  · intro F hF
    exact (hz.rows F hF).append _

/-- `on_adapt_completed` in parts: the archive is extended, the center marked, and the memory adjusted or not. -/
theorem onAdaptCompleted_spec {st : State (Pt d)} {z z' : Sop d} {x : Pt d} {v : Val} {evId : ℕ} (hev : st.evLast = 0)
    (h : z.onAdaptCompleted c st x v evId = some z') :
    (c.base.asynchronous = true ∧ Sop.adjustMemory c st.numEvals.toNat (markCenter z.centers x (st.numEvals.toNat - 1)).2
        { z with evals := z.evals ++ [SopRec.new x v], centers := (markCenter z.centers x (st.numEvals.toNat - 1)).1 } = some z') ∨
    (c.base.asynchronous = false ∧ st.batchQueue = [] ∧ st.pendingEvals = 0 ∧
      Sop.adjustMemory c st.numEvals.toNat none
        { z with evals := z.evals ++ [SopRec.new x v], centers := (markCenter z.centers x (st.numEvals.toNat - 1)).1 } = some z') ∨
    (c.base.asynchronous = false ∧ ¬ (st.batchQueue = [] ∧ st.pendingEvals = 0) ∧ z' =
        { z with evals := z.evals ++ [SopRec.new x v], centers := (markCenter z.centers x (st.numEvals.toNat - 1)).1 }) := by
  unfold Sop.onAdaptCompleted at h
  rw [hev, if_pos (Nat.zero_le _)] at h
  simp only at h
  by_cases ha : c.base.asynchronous = true
  · rw [if_pos ha] at h
    exact Or.inl ⟨ha, h⟩
  · rw [if_neg ha] at h
    simp only [Bool.not_eq_true] at ha
    by_cases hb : (st.batchQueue.isEmpty && st.pendingEvals == 0) = true
    · rw [if_pos hb] at h
      simp only [Bool.and_eq_true, List.isEmpty_iff, beq_iff_eq] at hb
      exact Or.inr (Or.inl ⟨ha, hb.1, hb.2, h⟩)
    · rw [if_neg hb] at h
      simp only [Bool.and_eq_true, List.isEmpty_iff, beq_iff_eq] at hb
      simp only [Option.some.injEq] at h
      exact Or.inr (Or.inr ⟨ha, hb, h.symm⟩)

theorem onAdaptCompleted_cinv {st : State (Pt d)} {z z' : Sop d} {x : Pt d} {v : Val} {evId : ℕ} (hev : st.evLast = 0)
    (hn : st.numEvals.toNat = z.evals.length + 1)
    (h : z.onAdaptCompleted c st x v evId = some z') (hz : CInv c z) : CInv c z' := by
  have h1 := append_cinv (SopRec.new x v) hz
  have hni : (archive { z with evals := z.evals ++ [SopRec.new x v] })[st.numEvals.toNat - 1]? = some (x, v) := by
    rw [hn]
    simp [archive, SopRec.new]
  have h2 := markCenter_cinv hni h1
  rcases onAdaptCompleted_spec hev h with ⟨_, h3⟩ | ⟨_, _, _, h3⟩ | ⟨_, _, rfl⟩
  · exact adjustMemory_cinv h3 h2
  · exact adjustMemory_cinv h3 h2
  · exact h2

/-- The number of evaluations is the size of the archive. -/
theorem Reach.count (hs : c.base.srbf = none) {w : SopSys d} (h : Reach c w) :
    w.sys.st.numEvals = (w.sop.evals.length : ℤ) := by
  have h1 := h.base.book.num
  have h2 := congrArg List.length (h.inv hs).arch
  rw [h1]
  have : (archive w.sop).length = w.sop.evals.length := by simp [archive]
  rw [← this, h2]

theorem Reach.cinv (hs : c.base.srbf = none) {w : SopSys d} (h : Reach c w) : CInv c w.sop := by
  induction h with
  | create o => exact ⟨Or.inl rfl, by simp [SopSys.create], by simp [SopSys.create], by simp [SopSys.create]⟩
  | @step w w' op hr hstep ih =>
    by_cases hp : ∃ o, op = .propose o
    · obtain ⟨o, rfl⟩ := hp
      cases step_propose hs (hr.inv hs).conv hstep with
      | term ht => exact ih
      | queue x q hq hg => exact ih
      | gen x q z hpts hq hg ha hz => exact (generate_cinv hz ih).1
      | genNone z hn hq hg ha hz => exact (generate_cinv hz ih).1
      | wait hq hg ha hp => exact ih
    · by_cases hc : ∃ i v, op = .complete i v
      · obtain ⟨i, v, rfl⟩ := hc
        have hr' := hr.step _ hstep
        obtain ⟨r, hrec, hsys, hsop⟩ := step_complete hs hstep
        have hev := (hr'.inv hs).evLast
        cases hk : r.kind with
        | init =>
          rw [hk] at hsop
          simp only at hsop
          rw [hsop]
          unfold Sop.onInitialCompleted
          rw [hev, if_pos (Nat.zero_le _)]
          exact append_cinv _ ih
        | adapt =>
          rw [hk] at hsop
          refine onAdaptCompleted_cinv hev ?_ hsop ih
          have h1 := hr.count hs
          have h2 : w'.sys.st.numEvals = w.sys.st.numEvals + 1 := by
            rw [hsys]; simp only [recordCompleted_eq]; rfl
          omega
      · rw [(step_other hstep (fun o ho => hp ⟨o, ho⟩) fun i v hv => hc ⟨i, v, hv⟩).1]
        exact ih
  | resume _ ih => exact ih

end Verif.Sop
