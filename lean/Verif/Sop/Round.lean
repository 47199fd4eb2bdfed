import Verif.Sop.Loss

/-! # One update of the memory, in terms of domination in the archive (C54) -/

set_option linter.unusedSectionVars false

namespace Verif.Sop

open Verif.Num Verif.Utils Verif.Strategy Verif.Spec
open List (Perm Sublist)

variable {d : ℕ} {c : Cfg d}

/-! ## Specification -/

open Classical in
/-- The number of failures recorded for the archive entry `j` when the centers `cs` are processed: those around `j` whose new
point is dominated. -/
noncomputable def failures (c : Cfg d) (evals : List (SopRec d)) (cs : List (Center d)) (j : ℕ) : ℕ :=
  cs.countP fun ce => decide (ce.index = j ∧ ∃ ni, ce.newIndex = some ni ∧ Dominated c evals ni)

/-- One round of the tabu counter: 0 stays, after 5 the entry is reset. -/
def aged (q : SopRec d) : SopRec d :=
  if q.ntabu = 0 then q
  else if q.ntabu < 5 then { q with ntabu := q.ntabu + 1 }
  else { q with nfail := 0, ntabu := 0, sigma := 2 / 10 }

open Classical in
/-- An entry after one update of the memory: `k` failures are recorded, the tabu counter advances, and if the entry was
processed and has more than three failures it becomes tabu. -/
noncomputable def afterRound (k : ℕ) (used : Prop) (q : SopRec d) : SopRec d :=
  let q1 := { q with nfail := q.nfail + k, sigma := q.sigma / 2 ^ k }
  if used ∧ 3 < (aged q1).nfail then { aged q1 with nfail := 0, ntabu := 1, sigma := 2 / 10 } else aged q1

/-! ## Proof -/

theorem aged_eq (q : SopRec d) : q.tick = aged q := by
  unfold SopRec.tick aged radius0
  rcases Nat.eq_zero_or_pos q.ntabu with h | h
  · rw [if_neg (by omega), if_pos h]
  · rw [if_pos h]
    by_cases h5 : q.ntabu < 5
    · rw [if_pos h5, if_neg (Nat.pos_iff_ne_zero.mp h)]
    · rw [if_neg h5, if_neg (Nat.pos_iff_ne_zero.mp h)]

theorem makeTabu_eq (q : SopRec d) : q.makeTabu = { q with nfail := 0, ntabu := 1, sigma := 2 / 10 } := rfl

/-- The centers at the processed positions. -/
def procCenters (c : Cfg d) (index : Option ℕ) (cs : List (Center d)) : List (Center d) :=
  (processed c index).filterMap fun i => cs[i]?

theorem failsAt_iff {evals : List (SopRec d)} {ds : List ℝ} (h : distCol ((evals.map (fRow c)).map FRow.u) = some ds)
    {cs : List (Center d)} {i j : ℕ} : failsAt (rankRows (evals.map (fRow c)) ds) cs j i = true ↔
      ∃ ce, cs[i]? = some ce ∧ ce.index = j ∧ ∃ ni, ce.newIndex = some ni ∧ Dominated c evals ni := by
  have hl : (rankRows (evals.map (fRow c)) ds).length = evals.length := by
    have := (distCol_spec h).1
    rw [rankRows_length (by simpa using this)]; simp
  unfold failsAt
  cases hce : cs[i]? with
  | none => simp
  | some ce =>
    simp only [Bool.and_eq_true, beq_iff_eq, Option.some.injEq, exists_eq_left']
    refine and_congr_right fun _ => ?_
    cases hni : ce.newIndex with
    | none => simp
    | some ni =>
      simp only [Option.bind_some, Option.some.injEq, exists_eq_left']
      by_cases hlt : ni < evals.length
      · obtain ⟨row, hrow, hr⟩ := rank_one_iff h hlt
        rw [hrow]
        simp only [decide_eq_true_eq]
        exact (not_congr hr).trans not_not
      · rw [List.getElem?_eq_none (by omega)]
        simp only [Bool.false_eq_true, false_iff]
        rintro ⟨_, _, _, _, _, _, h2, _⟩
        rw [List.getElem?_eq_none (by omega)] at h2
        simp at h2

theorem adjust_round {n : ℕ} {index : Option ℕ} {z z' : Sop d} (h : z.adjustMemory c n index = some z') (j : ℕ) :
    z'.evals[j]? = (z.evals[j]?).map (afterRound (failures c z.evals (procCenters c index z.centers) j)
      (∃ ce ∈ procCenters c index z.centers, ce.index = j)) := by
  obtain ⟨ds, hds, hget⟩ := adjustMemory_get h
  rw [hget j]
  congr 1
  funext q
  have hcount : (processed c index).countP (failsAt (rankRows (z.evals.map (fRow c)) ds) z.centers j) =
      failures c z.evals (procCenters c index z.centers) j := by
    unfold failures procCenters
    rw [List.countP_filterMap]
    refine List.countP_congr fun i _ => ?_
    rw [failsAt_iff hds]
    cases z.centers[i]? <;> simp
  have hany : ((processed c index).any (usesAt z.centers j) = true) ↔ ∃ ce ∈ procCenters c index z.centers, ce.index = j := by
    unfold procCenters usesAt
    rw [List.any_eq_true]
    constructor
    · rintro ⟨i, hi, hu⟩
      cases hce : z.centers[i]? with
      | none => rw [hce] at hu; simp at hu
      | some ce =>
        rw [hce] at hu
        exact ⟨ce, List.mem_filterMap.mpr ⟨i, hi, hce⟩, by simpa using hu⟩
    · rintro ⟨ce, hce, hj⟩
      obtain ⟨i, hi, he⟩ := List.mem_filterMap.mp hce
      exact ⟨i, hi, by rw [he]; simpa using hj⟩
  simp only [hcount, SopRec.fail_iter, aged_eq, makeTabu_eq]
  unfold afterRound
  simp only [gt_iff_lt]
  generalize aged _ = q2
  by_cases hc : (∃ ce ∈ procCenters c index z.centers, ce.index = j) ∧ 3 < q2.nfail
  · rw [if_pos ⟨hany.mpr hc.1, hc.2⟩, if_pos hc]
  · rw [if_neg (fun h => hc ⟨hany.mp h.1, h.2⟩), if_neg hc]

theorem procCenters_none {cs : List (Center d)} (h : cs.length = c.ncenters) : procCenters c none cs = cs := by
  unfold procCenters processed
  rw [← h]
  apply List.ext_getElem?
  intro i
  have : (List.range cs.length).filterMap (fun i => cs[i]?) = cs := by
    have h1 : (List.range cs.length).map (fun i => cs[i]?) = cs.map some := by
      apply List.ext_getElem?
      intro i
      simp only [List.getElem?_map]
      by_cases hi : i < cs.length
      · simp [hi]
      · rw [List.getElem?_eq_none (by simp; omega), List.getElem?_eq_none (by omega)]; rfl
    have h2 : (List.range cs.length).filterMap (fun i => cs[i]?) = ((List.range cs.length).map (fun i => cs[i]?)).filterMap id := by
      rw [List.filterMap_map]; rfl
    rw [h2, h1, List.filterMap_map]
    simp
  rw [this]

theorem procCenters_some {l r : List (Center d)} {ce : Center d} : procCenters c (some l.length) (l ++ ce :: r) = [ce] := by
  unfold procCenters processed
  simp

/-- What an adaptive completion does to the entries: a full update (with the centers that count), or nothing. -/
theorem complete_round (hs : c.base.srbf = none) {w w' : SopSys d} (h : Reach c w) {i : ℕ} {v : Val}
    (hst : w.step c (.complete i v) = some w') {r : Rec (Pt d)} (hr : w.sys.recs[i]? = some r) (hk : r.kind = .adapt) :
    ∃ cs, (∀ ce ∈ cs, ce ∈ w'.sop.centers) ∧
      (c.base.asynchronous = true → ∀ l ce rest, w.sop.centers = l ++ ce :: rest → ce.newPoint = some r.x →
        (∀ a ∈ l, a.newPoint ≠ some r.x) → cs = [{ ce with newIndex := some w.sop.evals.length }]) ∧
      (c.base.asynchronous = false → w'.sys.st.batchQueue = [] → w'.sys.st.pendingEvals = 0 → cs = w'.sop.centers) ∧
      ((c.base.asynchronous = true ∨ w'.sys.st.batchQueue = [] ∧ w'.sys.st.pendingEvals = 0) →
        ∀ j, w'.sop.evals[j]? = ((w.sop.evals ++ [SopRec.new r.x v])[j]?).map
          (afterRound (failures c (w.sop.evals ++ [SopRec.new r.x v]) cs j) (∃ ce ∈ cs, ce.index = j))) ∧
      (¬ (c.base.asynchronous = true ∨ w'.sys.st.batchQueue = [] ∧ w'.sys.st.pendingEvals = 0) →
        w'.sop.evals = w.sop.evals ++ [SopRec.new r.x v]) := by
  have hr' := h.step _ hst
  have hev := (hr'.inv hs).evLast
  have hci := hr'.cinv hs
  obtain ⟨r', hrec', hsys, hsop⟩ := step_complete hs hst
  rw [hr] at hrec'
  simp only [Option.some.injEq] at hrec'
  subst hrec'
  rw [hk] at hsop
  simp only at hsop
  obtain ⟨hnum, _⟩ := evals_completed h hs hr hsys
  have hn1 : w'.sys.st.numEvals.toNat - 1 = w.sop.evals.length := by omega
  have hmemProc : ∀ (index : Option ℕ) (cs : List (Center d)), ∀ ce ∈ procCenters c index cs, ce ∈ cs := by
    intro index cs ce hce
    obtain ⟨k, _, hk⟩ := List.mem_filterMap.mp hce
    exact List.mem_iff_getElem?.mpr ⟨k, hk⟩
  rcases onAdaptCompleted_spec hev hsop with ⟨ha, h3⟩ | ⟨ha, hq, hp, h3⟩ | ⟨ha, hb, h3⟩
  · obtain ⟨_, _, _, _, _, _, hcen, _⟩ := adjustMemory_spec h3
    simp only at hcen
    refine ⟨_, ?_, ?_, ?_, fun _ j => adjust_round h3 j, ?_⟩
    · intro ce hce
      rw [hcen]
      exact hmemProc _ _ ce hce
    · intro _ l ce rest he hne hfirst
      simp only
      rw [hn1]
      rcases markCenter_spec w.sop.centers r.x w.sop.evals.length with ⟨hno, _⟩ | ⟨l', ce', rest', e1, e2, e3, e4⟩
      · exact absurd hne (hno ce (by rw [he]; simp))
      · have hll : l = l' ∧ ce = ce' ∧ rest = rest' := by
          have heq : l ++ ce :: rest = l' ++ ce' :: rest' := by rw [← he, e1]
          rcases lt_trichotomy l.length l'.length with hlt | heq' | hlt
          · exfalso
            have h1 : (l ++ ce :: rest)[l.length]? = some ce := by simp
            rw [heq, List.getElem?_append_left hlt] at h1
            exact e3 ce (List.mem_iff_getElem?.mpr ⟨_, h1⟩) hne
          · have := List.append_inj heq heq'
            simp only [List.cons.injEq] at this
            exact ⟨this.1, this.2.1, this.2.2⟩
          · exfalso
            have h1 : (l' ++ ce' :: rest')[l'.length]? = some ce' := by simp
            rw [← heq, List.getElem?_append_left hlt] at h1
            exact hfirst ce' (List.mem_iff_getElem?.mpr ⟨_, h1⟩) e2
        obtain ⟨rfl, rfl, rfl⟩ := hll
        rw [e4]
        simp only
        rw [procCenters_some]
    · intro hf; rw [ha] at hf; simp at hf
    · intro hf; exact absurd (Or.inl ha) hf
  · obtain ⟨_, _, _, _, _, _, hcen, _⟩ := adjustMemory_spec h3
    simp only at hcen
    refine ⟨_, ?_, ?_, ?_, fun _ j => adjust_round h3 j, ?_⟩
    · intro ce hce
      rw [hcen]
      exact hmemProc _ _ ce hce
    · intro hf; rw [ha] at hf; simp at hf
    · intro _ _ _
      simp only
      rw [← hcen]
      rcases hci.len with h0 | h0
      · rw [h0]; unfold procCenters; simp
      · exact procCenters_none h0
    · intro hf; exact absurd (Or.inr ⟨hq, hp⟩) hf
  · refine ⟨[], by simp, ?_, ?_, ?_, ?_⟩
    · intro hf; rw [ha] at hf; simp at hf
    · intro _ hq hp; exact absurd ⟨hq, hp⟩ hb
    · rintro (hf | hf)
      · rw [ha] at hf; simp at hf
      · exact absurd hf hb
    · intro _; rw [h3]

/-- Every other step leaves the entries alone; initial completions append a new one. -/
theorem other_round (hs : c.base.srbf = none) {w w' : SopSys d} (h : Reach c w) {op : Strategy.Op (Pt d)}
    (hst : w.step c op = some w') :
    (∃ i v r, op = .complete i v ∧ w.sys.recs[i]? = some r ∧
      (r.kind = .adapt ∨ w'.sop.evals = w.sop.evals ++ [SopRec.new r.x v])) ∨
    (¬ (∃ i v, op = .complete i v) ∧ w'.sop.evals = w.sop.evals) := by
  by_cases hp : ∃ o, op = .propose o
  · obtain ⟨o, rfl⟩ := hp
    right
    refine ⟨by simp, ?_⟩
    cases step_propose hs (h.inv hs).conv hst with
    | term ht => rfl
    | queue x q hq hg => rfl
    | gen x q z hpts hq hg ha hz => exact generate_keeps hz
    | genNone z hn hq hg ha hz => exact generate_keeps hz
    | wait hq hg ha hp => rfl
  · by_cases hc : ∃ i v, op = .complete i v
    · obtain ⟨i, v, rfl⟩ := hc
      left
      have hev := ((h.step _ hst).inv hs).evLast
      obtain ⟨r, hrec, hsys, hsop⟩ := step_complete hs hst
      refine ⟨i, v, r, rfl, hrec, ?_⟩
      cases hk : r.kind with
      | adapt => exact Or.inl rfl
      | init =>
        right
        rw [hk] at hsop
        simp only at hsop
        rw [hsop, Sop.onInitialCompleted, hev, if_pos (Nat.zero_le _)]
    · right
      exact ⟨hc, by rw [(step_other hst (fun o he => hp ⟨o, he⟩) (fun i v he => hc ⟨i, v, he⟩)).1]⟩

end Verif.Sop
