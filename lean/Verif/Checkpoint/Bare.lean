import Verif.Strategy.OneWorker

/-!
# What the decisions of a strategy depend on

With one evaluation at a time no decision of the strategy depends on the counters of accepted and rejected proposals, on the
event numbers or on the ghost log.  `State.bare` erases them.
-/

set_option linter.unusedSectionVars false

namespace Verif.Strategy

variable {P : Type} {cfg : Config P}

/-- The state without the event numbers (ss.py:131-134), the counters (ss.py:107-108) and the ghost log. -/
def State.bare (s : State P) : State P := { s with
  acceptedCount := 0
  rejectedCount := 0
  evLast := 0
  evNext := 1
  fevals := s.fevals.map fun f => { f with evId := 0 }
  log := [] }

theorem bare_bare (s : State P) : s.bare.bare = s.bare := by
  simp [State.bare, Function.comp_def]

theorem sampleRestart_bare (o : Oracle P) (s : State P) :
    (s.sampleRestart cfg o).bare = (s.bare.sampleRestart cfg o).bare := by
  simp [sampleRestart_eq, State.bare, Function.comp_def]

/-- The result of a call, with the state erased. -/
def erased (r : Option (Action P × State P)) : Option (Action P × State P) := r.map fun p => (p.1, p.2.bare)

theorem initProposal_bare (s : State P) : erased s.initProposal = erased s.bare.initProposal := by
  unfold State.initProposal
  rw [show s.bare.batchQueue = s.batchQueue from rfl]
  cases popLast s.batchQueue with
  | none => rfl
  | some p => simp [erased, State.makeProposal, State.bare, Function.comp_def]

theorem initProposal_congr {s t : State P} (h : s.bare = t.bare) : erased s.initProposal = erased t.initProposal := by
  rw [initProposal_bare s, h, ← initProposal_bare t]

theorem adaptProposal_bare (s : State P) : erased (some s.adaptProposal) = erased (some s.bare.adaptProposal) := by
  unfold State.adaptProposal
  rw [show s.bare.batchQueue = s.batchQueue from rfl]
  cases popLast s.batchQueue with
  | none => simp [erased, bare_bare]
  | some p => simp [erased, State.makeProposal, State.bare, Function.comp_def]

theorem generateEvals_bare (o : Oracle P) (n : Nat) (s : State P) :
    (s.generateEvals cfg o n).map State.bare = (s.bare.generateEvals cfg o n).map State.bare := by
  unfold State.generateEvals
  rw [show s.bare.srbf = s.srbf from rfl]
  rcases hs : cfg.srbf with _ | sc <;> rcases hz : s.srbf with _ | z <;> simp only
  · cases o.giveUp <;> simp [State.bare, Function.comp_def]
  · cases o.giveUp <;> simp [State.bare, Function.comp_def]
  · cases o.giveUp <;> simp [State.bare, Function.comp_def]
  · cases getWeights sc.weights z.nextWeight n <;> simp [State.bare, Function.comp_def]

theorem afterGenerate_bare (o : Oracle P) (s : State P) :
    erased (s.afterGenerate cfg o) = erased (s.bare.afterGenerate cfg o) := by
  unfold State.afterGenerate
  rw [show s.bare.converged = s.converged from rfl, show s.bare.pendingEvals = s.pendingEvals from rfl]
  split
  · split
    · exact initProposal_congr (sampleRestart_bare o s)
    · simp [erased, bare_bare]
  · exact adaptProposal_bare s

theorem afterGenerate_congr {o : Oracle P} {s t : State P} (h : s.bare = t.bare) :
    erased (s.afterGenerate cfg o) = erased (t.afterGenerate cfg o) := by
  rw [afterGenerate_bare o s, h, ← afterGenerate_bare o t]

theorem thenAfter_congr {o : Oracle P} {g g' : Option (State P)} (h : g.map State.bare = g'.map State.bare) :
    erased (match g with | none => none | some s => s.afterGenerate cfg o) =
      erased (match g' with | none => none | some s => s.afterGenerate cfg o) := by
  cases g <;> cases g' <;> simp only [Option.map_none, Option.map_some, reduceCtorEq, Option.some.injEq] at h ⊢
  exact afterGenerate_congr h

theorem adaptBranch_bare (o : Oracle P) (s : State P) :
    erased (s.adaptBranch cfg o) = erased (s.bare.adaptBranch cfg o) := by
  unfold State.adaptBranch
  have e : ({ s.bare with phase := .adaptive } : State P) = ({ s with phase := .adaptive } : State P).bare := rfl
  simp only [e]
  rw [show s.bare.pendingEvals = s.pendingEvals from rfl]
  split
  · exact thenAfter_congr (generateEvals_bare o 1 _)
  · split
    · exact thenAfter_congr (generateEvals_bare o cfg.batchSize _)
    · exact afterGenerate_bare o _

variable [DecidableEq P]

theorem proposeAction_bare (o : Oracle P) (s : State P) :
    erased (s.proposeAction cfg o) = erased (s.bare.proposeAction cfg o) := by
  by_cases ht : s.terminate = true ∨ cfg.maxEvals ≤ s.numEvals + s.pendingEvals
  · rw [proposeAction_terminate ht, proposeAction_terminate (s := s.bare) ht]
    simp [erased, State.bare, Function.comp_def]
    rfl
  · simp only [not_or, not_le] at ht
    rw [proposeAction_going (by simpa using ht.1) ht.2,
      proposeAction_going (s := s.bare) (show s.terminate = false by simpa using ht.1) ht.2]
    rw [show s.bare.converged = s.converged from rfl, show s.bare.pendingEvals = s.pendingEvals from rfl,
      show s.bare.batchQueue = s.batchQueue from rfl, show s.bare.phase = s.phase from rfl]
    split
    · split
      · split
        · exact initProposal_congr (sampleRestart_bare o s)
        · simp [erased, bare_bare]
      · simp [erased, bare_bare]
    · split
      · exact adaptBranch_bare o s
      · split
        · exact initProposal_bare s
        · exact adaptProposal_bare s

theorem proposeAction_congr {o : Oracle P} {s t : State P} (h : s.bare = t.bare) :
    erased (s.proposeAction cfg o) = erased (t.proposeAction cfg o) := by
  rw [proposeAction_bare o s, h, ← proposeAction_bare o t]

/-- Completion of an evaluation that counts in both runs. -/
theorem onCompleted_congr {s t : State P} (h : s.bare = t.bare) (x : P) (k : Kind) (v : Val) {e e' : Nat}
    (he : s.evLast < e) (he' : t.evLast < e') :
    (s.onCompleted cfg x k v e).bare = (t.onCompleted cfg x k v e').bare := by
  have hrec : (s.recordCompleted x v e).bare = (t.recordCompleted x v e').bare := by
    simp only [State.bare, State.mk.injEq] at h
    simp only [recordCompleted_eq, if_pos he, if_pos he', State.bare, State.mk.injEq, List.map_append, List.map_cons, List.map_nil]
    simp_all
  have hl : (s.recordCompleted x v e).evLast = s.evLast := by rw [recordCompleted_eq]
  have hl' : (t.recordCompleted x v e').evLast = t.evLast := by rw [recordCompleted_eq]
  unfold State.onCompleted
  cases k with
  | init => exact hrec
  | adapt =>
    simp only
    generalize s.recordCompleted x v e = a at *
    generalize t.recordCompleted x v e' = b at *
    have hz : a.srbf = b.srbf := by
      have := congrArg State.srbf hrec; exact this
    rw [hz]
    cases cfg.srbf with
    | none => exact hrec
    | some sc =>
      cases b.srbf with
      | none => exact hrec
      | some z =>
        simp only
        unfold State.srbfCompleted
        rw [if_pos (show e > a.evLast by omega), if_pos (show e' > b.evLast by omega)]
        have hq : a.bare.batchQueue = b.bare.batchQueue := by rw [hrec]
        have hp : a.bare.pendingEvals = b.bare.pendingEvals := by rw [hrec]
        replace hq : a.batchQueue = b.batchQueue := hq
        replace hp : a.pendingEvals = b.pendingEvals := hp
        rw [hq, hp]
        simp only [State.bare, State.mk.injEq] at hrec
        split
        · unfold State.adjustStep State.moveEvLast
          simp only
          split <;> split <;> simp only [State.bare, State.mk.injEq] <;> simp_all
        · simp only [State.bare, State.mk.injEq]; simp_all

end Verif.Strategy
