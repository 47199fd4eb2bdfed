import Verif.Strategy.Inv5

/-! # Case analysis of `propose_action` -/

set_option linter.unusedSectionVars false
set_option linter.unusedSimpArgs false

namespace Verif.Strategy

open Verif.Spec

variable {P : Type} [DecidableEq P] {cfg : Config P}

theorem checkTermination_eq (s : State P) :
    s.checkTermination cfg = { s with
      terminate := s.terminate || decide (cfg.maxEvals ≤ s.numEvals + s.pendingEvals) } := by
  unfold State.checkTermination
  by_cases h : s.numEvals + s.pendingEvals ≥ cfg.maxEvals
  · rw [if_pos h]; simp [show cfg.maxEvals ≤ s.numEvals + s.pendingEvals from h]
  · rw [if_neg h]; simp [show ¬ cfg.maxEvals ≤ s.numEvals + s.pendingEvals from h]

/-- The first branch: the budget is used or was used. -/
theorem proposeAction_terminate {o : Oracle P} {s : State P}
    (h : s.terminate = true ∨ cfg.maxEvals ≤ s.numEvals + s.pendingEvals) :
    s.proposeAction cfg o = some (if s.pendingEvals = 0 then .terminate else .nothing,
      { s with terminate := true }) := by
  unfold State.proposeAction
  rw [checkTermination_eq]
  have ht : (s.terminate || decide (cfg.maxEvals ≤ s.numEvals + s.pendingEvals)) = true := by
    simpa using h
  simp only [ht, if_true]
  by_cases hp : s.pendingEvals = 0 <;> simp [hp]

/-- The other branches. -/
theorem proposeAction_going {o : Oracle P} {s : State P}
    (h : s.terminate = false) (hb : s.numEvals + s.pendingEvals < cfg.maxEvals) :
    s.proposeAction cfg o =
      if s.converged then
        if cfg.useRestarts then
          if cfg.asynchronous || s.pendingEvals == 0 then (s.sampleRestart cfg o).initProposal
          else some (.nothing, s)
        else some (.nothing, s)
      else if s.batchQueue.isEmpty then s.adaptBranch cfg o
      else match s.phase with
        | .initial => s.initProposal
        | .adaptive => some s.adaptProposal := by
  unfold State.proposeAction
  have hc : s.checkTermination cfg = s := by
    unfold State.checkTermination; rw [if_neg (by omega)]
  simp only [hc, h, Bool.false_eq_true, if_false]
  rfl

/-- A proposal to terminate is only made in the first branch. -/
theorem proposeAction_terminate_iff {o : Oracle P} {s s' : State P}
    (h : s.proposeAction cfg o = some (.terminate, s')) :
    (s.terminate = true ∨ cfg.maxEvals ≤ s.numEvals + s.pendingEvals) ∧ s.pendingEvals = 0 := by
  by_cases ht : s.terminate = true ∨ cfg.maxEvals ≤ s.numEvals + s.pendingEvals
  · refine ⟨ht, ?_⟩
    rw [proposeAction_terminate ht] at h
    simp only [Option.some.injEq, Prod.mk.injEq] at h
    by_contra hp
    simp [hp] at h
  · exfalso
    simp only [not_or, not_le] at ht
    rw [proposeAction_going (by simpa using ht.1) ht.2] at h
    have hinit : ∀ t : State P, t.initProposal ≠ some (.terminate, s') := by
      intro t; unfold State.initProposal; split <;> simp
    have hadapt : ∀ t : State P, t.adaptProposal ≠ (.terminate, s') := by
      intro t; unfold State.adaptProposal; split <;> simp
    have hag : ∀ t : State P, t.afterGenerate cfg o ≠ some (.terminate, s') := by
      intro t
      unfold State.afterGenerate
      split
      · split
        · exact hinit _
        · simp
      · intro hh; exact hadapt t (by simpa using hh)
    split at h
    · split at h
      · split at h
        · exact hinit _ h
        · simp at h
      · simp at h
    · split at h
      · unfold State.adaptBranch at h
        simp only at h
        split at h
        · split at h
          · simp at h
          · exact hag _ h
        · split at h
          · split at h
            · simp at h
            · exact hag _ h
          · exact hag _ h
      · split at h
        · exact hinit _ h
        · exact hadapt _ (by simpa using h)

theorem initProposal_log {s s' : State P} {a : Action P} (h : s.initProposal = some (a, s')) :
    s'.log = s.log := by
  unfold State.initProposal at h
  split at h
  · simp at h
  · simp only [Option.some.injEq, Prod.mk.injEq] at h
    rw [← h.2]; rfl

theorem adaptProposal_log {s s' : State P} {a : Action P} (h : s.adaptProposal = (a, s')) :
    s'.log = s.log := by
  unfold State.adaptProposal at h
  split at h
  · simp only [Prod.mk.injEq] at h
    rw [← h.2]
  · simp only [Prod.mk.injEq] at h
    rw [← h.2]; rfl

/-- When and how many adaptive points are generated. -/
theorem proposeAction_adaptive {o : Oracle P} {s s' : State P} {a : Action P}
    (h : s.proposeAction cfg o = some (a, s')) :
    adaptivePoints s'.log = adaptivePoints s.log ∨
      (s.batchQueue = [] ∧ s.converged = false ∧
        (cfg.asynchronous = true ∧ adaptivePoints s'.log = adaptivePoints s.log ++ [o.pts 0] ∨
         cfg.asynchronous = false ∧ s.pendingEvals = 0 ∧
          adaptivePoints s'.log = adaptivePoints s.log ++ (List.range cfg.batchSize).map o.pts)) := by
  by_cases ht : s.terminate = true ∨ cfg.maxEvals ≤ s.numEvals + s.pendingEvals
  · rw [proposeAction_terminate ht] at h
    simp only [Option.some.injEq, Prod.mk.injEq] at h
    rw [← h.2]; left; rfl
  · simp only [not_or, not_le] at ht
    rw [proposeAction_going (by simpa using ht.1) ht.2] at h
    have hrest : ∀ (t : State P), (t.sampleRestart cfg o).initProposal = some (a, s') →
        adaptivePoints s'.log = adaptivePoints t.log := by
      intro t hh
      rw [initProposal_log hh, sampleRestart_eq]
      simp [adaptivePoints]
    have hag : ∀ t : State P, t.afterGenerate cfg o = some (a, s') →
        adaptivePoints s'.log = adaptivePoints t.log := by
      intro t hh
      unfold State.afterGenerate at hh
      split at hh
      · split at hh
        · exact hrest t hh
        · simp only [Option.some.injEq, Prod.mk.injEq] at hh; rw [← hh.2]
      · rw [adaptProposal_log (by simpa using hh)]
    split at h
    · left
      split at h
      · split at h
        · exact hrest s h
        · simp only [Option.some.injEq, Prod.mk.injEq] at h; rw [← h.2]
      · simp only [Option.some.injEq, Prod.mk.injEq] at h; rw [← h.2]
    · rename_i hcv
      split at h
      · rename_i hq
        have hq : s.batchQueue = [] := by simpa using hq
        unfold State.adaptBranch at h
        simp only at h
        have hgen : ∀ n s1, State.generateEvals cfg o n { s with phase := .adaptive } = some s1 →
            adaptivePoints s1.log = adaptivePoints s.log ∨
            adaptivePoints s1.log = adaptivePoints s.log ++ (List.range n).map o.pts := by
          intro n s1 hg
          rcases generateEvals_cases hg with ⟨ws, z, rfl, _⟩ | ⟨_, rfl, _⟩
          · right; simp [adaptivePoints_append]; simp [adaptivePoints]
          · left; rfl
        split at h
        · rename_i ha
          split at h
          · simp at h
          · rename_i s1 hg
            rw [hag _ h]
            rcases hgen 1 s1 hg with hh | hh
            · exact .inl hh
            · right
              exact ⟨hq, by simpa using hcv, .inl ⟨ha, by simpa using hh⟩⟩
        · rename_i ha
          split at h
          · rename_i hp
            split at h
            · simp at h
            · rename_i s1 hg
              rw [hag _ h]
              rcases hgen _ s1 hg with hh | hh
              · exact .inl hh
              · right
                exact ⟨hq, by simpa using hcv, .inr ⟨by simpa using ha, by simpa using hp, hh⟩⟩
          · left
            have := hag _ h
            exact this
      · left
        split at h
        · rw [initProposal_log h]
        · rw [adaptProposal_log (by simpa using h)]

theorem getWeights_some {ws : List ℚ} {next : Nat} (n : Nat) (h : next < ws.length) :
    ∃ l next', getWeights ws next n = some (l, next') := by
  induction n generalizing next with
  | zero => exact ⟨[], next, rfl⟩
  | succ n ih =>
    simp only [getWeights]
    rw [List.getElem?_eq_getElem h]
    obtain ⟨l, nx, hl⟩ := ih (next := (next + 1) % ws.length) (Nat.mod_lt _ (by omega))
    rw [hl]
    exact ⟨_, _, rfl⟩

/-- Conditions on the arguments of the constructor under which the strategy can always go on. -/
structure Sane (cfg : Config P) : Prop where
  design : 0 < cfg.numPts
  batch : cfg.asynchronous = true ∨ 0 < cfg.batchSize
  weights : ∀ sc, cfg.srbf = some sc → sc.weights ≠ []

theorem initProposal_restart (hs : Sane cfg) (o : Oracle P) (s : State P) :
    ∃ x s', (s.sampleRestart cfg o).initProposal = some (.eval x .init, s') := by
  unfold State.initProposal
  have hne : (s.sampleRestart cfg o).batchQueue ≠ [] := by
    rw [sampleRestart_eq]
    have := hs.design
    simp; omega
  cases hpop : popLast (s.sampleRestart cfg o).batchQueue with
  | none => exact absurd (popLast_none hpop) hne
  | some p => exact ⟨p.1, _, rfl⟩

theorem adaptProposal_eval {s : State P} (h : s.batchQueue ≠ []) :
    ∃ x s', s.adaptProposal = (.eval x .adapt, s') := by
  unfold State.adaptProposal
  cases hpop : popLast s.batchQueue with
  | none => exact absurd (popLast_none hpop) h
  | some p => exact ⟨p.1, _, rfl⟩

theorem initProposal_eval {s : State P} (h : s.batchQueue ≠ []) :
    ∃ x s', s.initProposal = some (.eval x .init, s') := by
  unfold State.initProposal
  cases hpop : popLast s.batchQueue with
  | none => exact absurd (popLast_none hpop) h
  | some p => exact ⟨p.1, _, rfl⟩

/-- `generate_evals` succeeds in every reachable state. -/
theorem generateEvals_ok (hs : Sane cfg) {w : Sys P} (h : Reach cfg w) (o : Oracle P) (n : Nat)
    (hn : 0 < n) (hgu : cfg.srbf.isSome = true ∨ o.giveUp = false ∨ cfg.useRestarts = true)
    (hcv : w.st.converged = false) :
    ∃ s', State.generateEvals cfg o n { w.st with phase := .adaptive } = some s' ∧
      (s'.converged = false ∧ s'.batchQueue ≠ [] ∨ s'.converged = true ∧ cfg.useRestarts = true) ∧
      s'.pendingEvals = w.st.pendingEvals := by
  have hsome := h.book.srbf
  unfold State.generateEvals
  cases hc : cfg.srbf with
  | none =>
    simp only
    rcases Bool.eq_false_or_eq_true o.giveUp with hg | hg
    · simp only [hg, if_true]
      refine ⟨_, rfl, .inr ⟨rfl, ?_⟩, rfl⟩
      simpa [hc, hg] using hgu
    · simp only [hg, Bool.false_eq_true, if_false]
      exact ⟨_, rfl, .inl ⟨hcv, by simp; omega⟩, rfl⟩
  | some sc =>
    obtain ⟨⟨z, hz, hnw⟩, _⟩ := h.weights hc
    have hne := hs.weights sc hc
    have hl : 0 < sc.weights.length := List.length_pos_iff.2 hne
    obtain ⟨l, nx, hw⟩ := getWeights_some (ws := sc.weights) (next := z.nextWeight) n
      (by rw [hnw]; exact Nat.mod_lt _ hl)
    simp only [hz, hw]
    exact ⟨_, rfl, .inl ⟨hcv, by simp; omega⟩, rfl⟩

theorem afterGenerate_eval (hs : Sane cfg) (o : Oracle P) (s : State P)
    (h : s.converged = false ∧ s.batchQueue ≠ [] ∨ s.converged = true ∧ cfg.useRestarts = true)
    (hp : cfg.asynchronous = true ∨ s.pendingEvals = 0) :
    ∃ x k s', s.afterGenerate cfg o = some (.eval x k, s') := by
  unfold State.afterGenerate
  rcases h with ⟨h1, h2⟩ | ⟨h1, h2⟩
  · simp only [h1, Bool.false_and, Bool.false_eq_true, if_false]
    obtain ⟨x, s', hh⟩ := adaptProposal_eval h2
    exact ⟨x, .adapt, s', by rw [hh]⟩
  · have hc : (cfg.asynchronous || s.pendingEvals == 0) = true := by simpa using hp
    simp only [h1, h2, Bool.and_self, if_true, hc]
    obtain ⟨x, s', hh⟩ := initProposal_restart hs o s
    exact ⟨x, .init, s', hh⟩

/-- As long as the budget allows it and waiting is not required, an evaluation is proposed. -/
theorem proposeAction_eval (hs : Sane cfg) {w : Sys P} (h : Reach cfg w) (o : Oracle P)
    (ht : w.st.terminate = false) (hb : w.st.numEvals + w.st.pendingEvals < cfg.maxEvals)
    (hp : cfg.asynchronous = true ∨ w.st.pendingEvals = 0)
    (hconv : cfg.useRestarts = true ∨
      (w.st.converged = false ∧ (cfg.srbf.isSome = true ∨ o.giveUp = false))) :
    ∃ x k s', w.st.proposeAction cfg o = some (.eval x k, s') := by
  rw [proposeAction_going ht hb]
  have hc : (cfg.asynchronous || w.st.pendingEvals == 0) = true := by simpa using hp
  cases hcv : w.st.converged with
  | true =>
    have hr : cfg.useRestarts = true := by simpa [hcv] using hconv
    simp only [if_true, hr, hc]
    obtain ⟨x, s', hh⟩ := initProposal_restart hs o w.st
    exact ⟨x, .init, s', hh⟩
  | false =>
    simp only [Bool.false_eq_true, if_false]
    cases hq : w.st.batchQueue.isEmpty with
    | false =>
      simp only [Bool.false_eq_true, if_false]
      have hne : w.st.batchQueue ≠ [] := by simpa using hq
      cases w.st.phase with
      | initial =>
        obtain ⟨x, s', hh⟩ := initProposal_eval hne
        exact ⟨x, .init, s', hh⟩
      | adaptive =>
        obtain ⟨x, s', hh⟩ := adaptProposal_eval hne
        exact ⟨x, .adapt, s', by rw [hh]⟩
    | true =>
      simp only [if_true]
      unfold State.adaptBranch
      have hgu : cfg.srbf.isSome = true ∨ o.giveUp = false ∨ cfg.useRestarts = true := by
        rcases hconv with h' | ⟨_, h' | h'⟩
        · exact .inr (.inr h')
        · exact .inl h'
        · exact .inr (.inl h')
      cases ha : cfg.asynchronous with
      | true =>
        simp only [if_true]
        obtain ⟨s', h1, h2, h3⟩ := generateEvals_ok hs h o 1 (by omega) hgu hcv
        rw [h1]
        exact afterGenerate_eval hs o s' h2 (.inl ha)
      | false =>
        have hp0 : w.st.pendingEvals = 0 := by simpa [ha] using hp
        have hbs : 0 < cfg.batchSize := by simpa [ha] using hs.batch
        have hp1 : (w.st.pendingEvals == 0) = true := by simp [hp0]
        simp only [Bool.false_eq_true, if_false, hp1, if_true]
        obtain ⟨s', h1, h2, h3⟩ := generateEvals_ok hs h o cfg.batchSize hbs hgu hcv
        rw [h1]
        exact afterGenerate_eval hs o s' h2 (.inr (h3.trans hp0))

end Verif.Strategy
