import Verif.Sop.Steps

/-! # The memory attributes of SOP (C54) -/

set_option linter.unusedSectionVars false

namespace Verif.Sop

open Verif.Num Verif.Utils Verif.Strategy

variable {d : ℕ} {c : Cfg d}

/-- Does the center at position `i` have index `j`, and a new point whose rank is not 1? -/
def failsAt (F : List (FRow d)) (cs : List (Center d)) (j i : ℕ) : Bool :=
  match cs[i]? with
  | none => false
  | some ce => ce.index == j && match ce.newIndex.bind fun ni => F[ni]? with
    | none => false
    | some row => decide (row.rank ≠ 1)

/-- Does the center at position `i` have index `j`? -/
def usesAt (cs : List (Center d)) (j i : ℕ) : Bool :=
  match cs[i]? with
  | none => false
  | some ce => ce.index == j

theorem failStep_get {F : List (FRow d)} {cs : List (Center d)} {evals evals' : List (SopRec d)} {i : ℕ}
    (h : failStep F cs evals i = some evals') (j : ℕ) :
    evals'[j]? = (evals[j]?).map fun r => if failsAt F cs j i then r.fail else r := by
  unfold failStep at h
  unfold failsAt
  split at h
  · simp at h
  · rename_i ce hce
    split at h
    · simp at h
    · rename_i row hrow
      simp only [Option.some.injEq] at h
      rw [← h, hce]
      simp only [hrow]
      by_cases hr : row.rank = 1
      · rw [if_pos hr]; simp [hr]
      · rw [if_neg hr, List.getElem?_modify]
        by_cases hj : ce.index = j
        · simp [hj, hr]
        · simp [hj]

theorem failLoop_get {F : List (FRow d)} {cs : List (Center d)} {indices : List ℕ} {evals evals' : List (SopRec d)}
    (h : indices.foldlM (failStep F cs) evals = some evals') (j : ℕ) :
    evals'[j]? = (evals[j]?).map fun r => SopRec.fail^[indices.countP (failsAt F cs j)] r := by
  induction indices generalizing evals with
  | nil => simp only [List.foldlM_nil, Option.pure_def, Option.some.injEq] at h; rw [h]; simp
  | cons i l ih =>
    rw [List.foldlM_cons] at h
    obtain ⟨e1, h1, h2⟩ := Option.bind_eq_some_iff.mp h
    rw [ih h2, failStep_get h1 j, Option.map_map]
    congr 1
    funext r
    by_cases hf : failsAt F cs j i = true
    · rw [List.countP_cons_of_pos hf]
      simp [hf, Function.iterate_succ_apply]
    · rw [List.countP_cons_of_neg hf]
      simp [hf]

theorem tabuStep_get (cs : List (Center d)) (evals : List (SopRec d)) (i j : ℕ) :
    (tabuStep cs evals i)[j]? = (evals[j]?).map fun r => if usesAt cs j i ∧ r.nfail > 3 then r.makeTabu else r := by
  unfold tabuStep usesAt
  cases hce : cs[i]? with
  | none => simp
  | some ce =>
    simp only [List.getElem?_modify]
    by_cases hj : ce.index = j
    · simp [hj]
    · simp [hj]

theorem tabuLoop_get (cs : List (Center d)) (indices : List ℕ) (evals : List (SopRec d)) (j : ℕ) :
    (indices.foldl (tabuStep cs) evals)[j]? =
      (evals[j]?).map fun r => if indices.any (usesAt cs j) ∧ r.nfail > 3 then r.makeTabu else r := by
  induction indices generalizing evals with
  | nil => simp
  | cons i l ih =>
    rw [List.foldl_cons, ih, tabuStep_get, Option.map_map]
    congr 1
    funext r
    simp only [Function.comp, List.any_cons, Bool.or_eq_true]
    by_cases hu : usesAt cs j i = true
    · by_cases hn : r.nfail > 3
      · simp only [hu, hn, true_and, true_or, and_self, if_true]
        rw [if_neg]
        simp [SopRec.makeTabu]
      · simp [hn]
    · simp [hu]

/-- One call of `adjust_memory`, record by record. -/
theorem adjustMemory_get {n : ℕ} {index : Option ℕ} {z z' : Sop d} (h : z.adjustMemory c n index = some z') :
    ∃ ds, distCol ((z.evals.map (fRow c)).map FRow.u) = some ds ∧ ∀ j, z'.evals[j]? = (z.evals[j]?).map fun r =>
      let r1 := (SopRec.fail^[(processed c index).countP (failsAt (rankRows (z.evals.map (fRow c)) ds) z.centers j)] r).tick
      if (processed c index).any (usesAt z.centers j) ∧ r1.nfail > 3 then r1.makeTabu else r1 := by
  obtain ⟨ds, evals, _, hds, he, he', _⟩ := adjustMemory_spec h
  refine ⟨ds, hds, fun j => ?_⟩
  rw [he', tabuLoop_get, List.getElem?_map, failLoop_get he j, Option.map_map, Option.map_map]
  rfl

/-- Bounds and the radius. -/
structure SopRec.Ok (r : SopRec d) : Prop where
  fail : r.nfail ≤ 3
  tabu : r.ntabu ≤ 5
  sig : r.sigma = radius0 / 2 ^ r.nfail

theorem SopRec.new_ok (x : Pt d) (v : Val) : (SopRec.new x v).Ok := ⟨by simp [SopRec.new], by simp [SopRec.new], by simp [SopRec.new]⟩

theorem SopRec.fail_iter (n : ℕ) (r : SopRec d) :
    SopRec.fail^[n] r = { r with nfail := r.nfail + n, sigma := r.sigma / 2 ^ n } := by
  induction n generalizing r with
  | zero => simp
  | succ n ih =>
    rw [Function.iterate_succ_apply, ih]
    unfold SopRec.fail
    simp only [SopRec.mk.injEq, true_and]
    refine ⟨by omega, ?_⟩
    rw [pow_succ, div_div, mul_comm]

theorem failsAt_uses {F : List (FRow d)} {cs : List (Center d)} {j i : ℕ} (h : failsAt F cs j i = true) :
    usesAt cs j i = true := by
  unfold failsAt at h
  unfold usesAt
  split at h
  · simp at h
  · rename_i ce hce
    simp only [Bool.and_eq_true] at h
    exact h.1

theorem round_ok {F : List (FRow d)} {cs : List (Center d)} {indices : List ℕ} {j : ℕ} {r : SopRec d} (hr : r.Ok) :
    (let r1 := (SopRec.fail^[indices.countP (failsAt F cs j)] r).tick
      if indices.any (usesAt cs j) ∧ r1.nfail > 3 then r1.makeTabu else r1).Ok := by
  simp only [SopRec.fail_iter]
  set k := indices.countP (failsAt F cs j) with hk
  set r0 : SopRec d := { r with nfail := r.nfail + k, sigma := r.sigma / 2 ^ k } with hr0
  have hs : r0.sigma = radius0 / 2 ^ r0.nfail := by
    simp only [hr0, hr.sig, div_div, ← pow_add]
  have ht : r0.tick.sigma = radius0 / 2 ^ r0.tick.nfail ∧ r0.tick.ntabu ≤ 5 ∧ r0.tick.nfail ≤ r.nfail + k := by
    unfold SopRec.tick
    have := hr.tabu
    split
    · split
      · rename_i h1 h2
        exact ⟨hs, by simpa using h2, le_rfl⟩
      · exact ⟨by simp, by simp, by simp⟩
    · exact ⟨hs, this, le_rfl⟩
  by_cases hc : indices.any (usesAt cs j) ∧ r0.tick.nfail > 3
  · rw [if_pos hc]
    exact ⟨by simp [SopRec.makeTabu], by simp [SopRec.makeTabu], by simp [SopRec.makeTabu]⟩
  · rw [if_neg hc]
    refine ⟨?_, ht.2.1, ht.1⟩
    by_cases ha : indices.any (usesAt cs j) = true
    · by_contra h
      exact hc ⟨ha, by omega⟩
    · have : k = 0 := by
        rw [hk, List.countP_eq_zero]
        intro i hi hf
        exact ha (List.any_eq_true.mpr ⟨i, hi, failsAt_uses hf⟩)
      have h3 := hr.fail
      have h4 := ht.2.2
      omega

theorem adjustMemory_ok {n : ℕ} {index : Option ℕ} {z z' : Sop d} (h : z.adjustMemory c n index = some z')
    (hz : ∀ r ∈ z.evals, r.Ok) : ∀ r ∈ z'.evals, r.Ok := by
  obtain ⟨ds, _, hget⟩ := adjustMemory_get h
  intro r hr
  obtain ⟨j, hj⟩ := List.mem_iff_getElem?.mp hr
  rw [hget j] at hj
  obtain ⟨r0, hr0, rfl⟩ := Option.map_eq_some_iff.mp hj
  exact round_ok (hz r0 (List.mem_iff_getElem?.mpr ⟨j, hr0⟩))

theorem onAdaptCompleted_ok {st : State (Pt d)} {z z' : Sop d} {x : Pt d} {v : Val} {evId : ℕ}
    (h : z.onAdaptCompleted c st x v evId = some z') (hz : ∀ r ∈ z.evals, r.Ok) : ∀ r ∈ z'.evals, r.Ok := by
  have hz' : ∀ r ∈ z.evals ++ [SopRec.new x v], r.Ok := by
    intro r hr
    rcases List.mem_append.mp hr with h1 | h1
    · exact hz r h1
    · simp only [List.mem_singleton] at h1; rw [h1]; exact SopRec.new_ok x v
  unfold Sop.onAdaptCompleted at h
  split at h
  · simp only at h
    split at h
    · exact adjustMemory_ok h hz'
    · split at h
      · exact adjustMemory_ok h hz'
      · simp only [Option.some.injEq] at h; rw [← h]; exact hz'
  · simp only [Option.some.injEq] at h; rw [← h]; exact hz

theorem Reach.evals_ok (hs : c.base.srbf = none) {w : SopSys d} (h : Reach c w) : ∀ r ∈ w.sop.evals, r.Ok := by
  induction h with
  | create o => simp [SopSys.create]
  | @step w w' op hr hstep ih =>
    by_cases hp : ∃ o, op = .propose o
    · obtain ⟨o, rfl⟩ := hp
      cases step_propose hs (hr.inv hs).conv hstep with
      | term ht => exact ih
      | queue x q hq hg => exact ih
      | gen x q z hpts hq hg ha hz => rw [generate_keeps hz]; exact ih
      | genNone z hn hq hg ha hz => rw [generate_keeps hz]; exact ih
      | wait hq hg ha hp => exact ih
    · by_cases hc : ∃ i v, op = .complete i v
      · obtain ⟨i, v, rfl⟩ := hc
        obtain ⟨r, hr', hsys, hsop⟩ := step_complete hs hstep
        cases hk : r.kind with
        | init =>
          rw [hk] at hsop
          simp only at hsop
          rw [hsop]
          unfold Sop.onInitialCompleted
          split
          · intro r' hr'
            rcases List.mem_append.mp hr' with h1 | h1
            · exact ih r' h1
            · simp only [List.mem_singleton] at h1; rw [h1]; exact SopRec.new_ok _ _
          · exact ih
        | adapt =>
          rw [hk] at hsop
          exact onAdaptCompleted_ok hsop ih
      · rw [(step_other hstep (fun o ho => hp ⟨o, ho⟩) fun i v hv => hc ⟨i, v, hv⟩).1]
        exact ih
  | resume _ ih => exact ih

end Verif.Sop
