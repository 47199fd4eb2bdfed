import Verif.Checkpoint.Bare

/-!
# Proposing again after a resume

The strategy proposed a point, the proposal was accepted, the process died and the snapshot is resumed: the next call of
`propose_action` proposes the same point again (ss.py:182-191, 249-299).
-/

set_option linter.unusedSectionVars false

namespace Verif.Strategy

variable {P : Type} {cfg : Config P} [DecidableEq P]

theorem resume_congr {s t : State P} (h : s.bare = t.bare) : s.resume.bare = t.resume.bare := by
  simp only [State.bare, State.mk.injEq] at h
  simp only [resume_eq, State.bare, State.mk.injEq]
  simp_all

/-- A call that pops the queue of the initial phase. -/
theorem again_init {t : State P} {o' : Oracle P} {x : P} {k : Kind} {s' : State P} (hp : t.pendingEvals = 0) (hX : t.Xpend = [])
    (hph : t.phase = .initial) (hcv : t.converged = false) (ht : t.terminate = false) (hn : t.numEvals < cfg.maxEvals)
    (h : t.initProposal = some (.eval x k, s')) :
    s'.phase = .initial ∧ erased (s'.resume.proposeAction cfg o') = some (.eval x k, s'.bare) := by
  have h0 := h
  unfold State.initProposal at h
  cases hpop : popLast t.batchQueue with
  | none => rw [hpop] at h; simp at h
  | some p =>
    obtain ⟨y, q⟩ := p
    rw [hpop] at h
    simp only [Option.some.injEq, Prod.mk.injEq, Action.eval.injEq] at h
    obtain ⟨⟨rfl, rfl⟩, rfl⟩ := h
    refine ⟨hph, ?_⟩
    have hq : t.batchQueue = q ++ [y] := popLast_some hpop
    have e : (State.makeProposal { t with batchQueue := q } y).resume.bare = t.bare := by
      simp only [resume_eq, State.makeProposal, State.bare, State.mk.injEq]
      simp [hph, hX, hq, hp]
    have key : t.proposeAction cfg o' = t.initProposal := by
      rw [proposeAction_going ht (by omega)]
      simp [hcv, hph, hq]
    rw [proposeAction_congr e, key, h0]
    rfl

/-- The call is repeated with the same answers of the auxiliary problem. -/
theorem propose_again (hc : cfg.asynchronous = true ∨ cfg.batchSize = 1) {o o' : Oracle P} {s s' : State P} {x : P} {k : Kind}
    (hp : s.pendingEvals = 0) (hX : s.Xpend = []) (hq : s.phase = .adaptive → s.batchQueue = [])
    (h : s.proposeAction cfg o = some (.eval x k, s'))
    (ho : s'.phase = .adaptive → o'.pts 0 = o.pts 0 ∧ o'.giveUp = o.giveUp)
    (hw : s'.phase = .adaptive → ∀ sc, cfg.srbf = some sc → sc.weights.length = 1) :
    erased (s'.resume.proposeAction cfg o') = some (.eval x k, s'.bare) := by
  by_cases ht : s.terminate = true ∨ cfg.maxEvals ≤ s.numEvals + s.pendingEvals
  · rw [proposeAction_terminate ht] at h
    simp only [hp, if_true, Option.some.injEq, Prod.mk.injEq, reduceCtorEq, false_and] at h
  simp only [not_or, not_le] at ht
  obtain ⟨ht, hn⟩ := ht
  have ht : s.terminate = false := by simpa using ht
  have hn : s.numEvals < cfg.maxEvals := by omega
  have hres : ∀ t : State P, t.pendingEvals = 0 → t.Xpend = [] → t.terminate = false → t.numEvals < cfg.maxEvals →
      (t.sampleRestart cfg o).initProposal = some (.eval x k, s') →
      erased (s'.resume.proposeAction cfg o') = some (.eval x k, s'.bare) := by
    intro t h1 h2 h3 h4 hi
    refine (again_init ?_ ?_ ?_ ?_ ?_ ?_ hi).2 <;> simp only [sampleRestart_eq] <;> assumption
  have h0 := h
  rw [proposeAction_going ht (by omega)] at h
  simp only [hp, beq_self_eq_true, Bool.or_true, if_true] at h
  split at h
  · split at h
    · exact hres s hp hX ht hn h
    · simp at h
  · rename_i hcv
    have hcv : s.converged = false := by simpa using hcv
    split at h
    · rename_i hemp
      have hemp : s.batchQueue = [] := by simpa using hemp
      -- both modes ask for one point
      have hone : ∀ (o : Oracle P) (t : State P), t.pendingEvals = 0 → t.adaptBranch cfg o =
          (match State.generateEvals cfg o 1 { t with phase := .adaptive } with
            | none => none
            | some s => s.afterGenerate cfg o) := by
        intro o t htp
        unfold State.adaptBranch
        simp only
        split
        · rfl
        · rename_i hna
          rw [if_pos (show (t.pendingEvals == 0) = true by simp [htp]), hc.resolve_left hna]
          cases State.generateEvals cfg o 1 { t with phase := .adaptive } <;> rfl
      rw [hone o s hp] at h
      cases hgen : State.generateEvals cfg o 1 { s with phase := .adaptive } with
      | none => rw [hgen] at h; simp at h
      | some g =>
        rw [hgen] at h
        simp only at h
        unfold State.afterGenerate at h
        rcases generateEvals_cases hgen with ⟨ws, z, hg, hz⟩ | ⟨hg, he, hno⟩
        · have hgc : g.converged = false := by rw [hg]; exact hcv
          simp only [hgc, Bool.false_and, Bool.false_eq_true, if_false, Option.some.injEq] at h
          unfold State.adaptProposal at h
          have hgq : g.batchQueue = [o.pts 0] := by rw [hg]; simp [hemp]
          have hpop : popLast g.batchQueue = some (o.pts 0, []) := by rw [hgq]; rfl
          rw [hpop] at h
          simp only [Prod.mk.injEq, Action.eval.injEq] at h
          obtain ⟨⟨rfl, rfl⟩, hs'⟩ := h
          have hph' : s'.phase = .adaptive := by rw [← hs', hg]; rfl
          obtain ⟨ho1, ho2⟩ := ho hph'
          have hzz : z = s.srbf := by
            rcases hz with ⟨sc, z0, next', hsc, hz0, hgw, hzn⟩ | ⟨hz, -, -⟩
            · have hl := hw hph' sc hsc
              rw [show ({ s with phase := .adaptive } : State P).srbf = s.srbf from rfl] at hz0
              rw [hzn, hz0]
              obtain ⟨w0, hw0⟩ := List.length_eq_one_iff.1 hl
              have : z0.nextWeight = 0 ∧ next' = 0 := by
                rw [hw0] at hgw
                rcases hnw : z0.nextWeight with _ | m
                · rw [hnw] at hgw
                  simp [getWeights] at hgw
                  exact ⟨rfl, hgw.2.symm⟩
                · rw [hnw] at hgw
                  simp [getWeights] at hgw
              rw [this.2, ← this.1]
            · exact hz
          have e : s'.resume.bare = ({ s with phase := .adaptive } : State P).bare := by
            rw [← hs', hg]
            simp only [resume_eq, State.makeProposal, State.bare, State.mk.injEq]
            simp [hemp, hp, hX, hzz]
          have key : State.proposeAction cfg o' { s with phase := .adaptive } = State.adaptBranch cfg o' { s with phase := .adaptive } := by
            rw [proposeAction_going (s := ({ s with phase := .adaptive } : State P)) ht (by simpa [hp] using hn)]
            rw [if_neg (show ¬ s.converged = true by simp [hcv]), if_pos (show s.batchQueue.isEmpty = true by simp [hemp])]
          rw [proposeAction_congr e, key, hone o' ({ s with phase := .adaptive } : State P) hp]
          have hgen' : State.generateEvals cfg o' 1 { s with phase := .adaptive } = some g := by
            rw [← hgen]
            unfold State.generateEvals
            simp [ho1, ho2]
          have hag : g.afterGenerate cfg o' = some (.eval (o.pts 0) .adapt, s') := by
            unfold State.afterGenerate
            simp only [hgc, Bool.false_and, Bool.false_eq_true, if_false, Option.some.injEq]
            unfold State.adaptProposal
            rw [hpop, ← hs']
          rw [show ({ ({ s with phase := .adaptive } : State P) with phase := .adaptive } : State P) =
            { s with phase := .adaptive } from rfl, hgen']
          simp only [hag]
          rfl
        · have hgc : g.converged = true := by rw [he]
          rw [hgc] at h
          simp only [Bool.true_and] at h
          split at h
          · split at h
            · refine hres g ?_ ?_ ?_ ?_ h <;> rw [he] <;> assumption
            · simp at h
          · have hgq : g.batchQueue = [] := by rw [he]; exact hemp
            unfold State.adaptProposal at h
            rw [hgq] at h
            simp [popLast] at h
    · rename_i hne
      split at h
      · rename_i hph
        exact (again_init hp hX hph hcv ht hn h).2
      · rename_i hph
        exact absurd (by simpa using hq hph) hne

/-- With one weight a call in the adaptive phase leaves the step control alone. -/
theorem ask_srbf (hc : cfg.asynchronous = true ∨ cfg.batchSize = 1) {o : Oracle P} {s s' : State P} {a : Action P}
    (hp : s.pendingEvals = 0) (h : s.proposeAction cfg o = some (a, s'))
    (hw : ∀ sc, cfg.srbf = some sc → sc.weights.length = 1) (hph : s'.phase = .adaptive) : s'.srbf = s.srbf := by
  by_cases ht : s.terminate = true ∨ cfg.maxEvals ≤ s.numEvals + s.pendingEvals
  · rw [proposeAction_terminate ht] at h
    simp only [Option.some.injEq, Prod.mk.injEq] at h
    rw [← h.2]
  simp only [not_or, not_le] at ht
  have hini : ∀ t : State P, t.initProposal = some (a, s') → s'.srbf = t.srbf ∧ s'.phase = t.phase := by
    intro t hi
    unfold State.initProposal at hi
    split at hi
    · simp at hi
    · simp only [Option.some.injEq, Prod.mk.injEq] at hi
      rw [← hi.2]; exact ⟨rfl, rfl⟩
  have hada : ∀ t : State P, t.adaptProposal = (a, s') → s'.srbf = t.srbf := by
    intro t hi
    unfold State.adaptProposal at hi
    split at hi <;> simp only [Prod.mk.injEq] at hi <;> rw [← hi.2]
    rfl
  have hres : ∀ t : State P, (t.sampleRestart cfg o).initProposal = some (a, s') → s'.srbf = s.srbf := by
    intro t hi
    have := (hini _ hi).2
    rw [hph, sampleRestart_eq] at this
    simp at this
  have haft : ∀ t : State P, t.srbf = s.srbf → t.afterGenerate cfg o = some (a, s') → s'.srbf = s.srbf := by
    intro t ht1 hi
    unfold State.afterGenerate at hi
    split at hi
    · split at hi
      · exact hres t hi
      · simp only [Option.some.injEq, Prod.mk.injEq] at hi
        rw [← hi.2]; exact ht1
    · rw [hada t (by simpa using hi)]; exact ht1
  have hgen : ∀ (t g : State P) (n : Nat), n ≤ 1 → t.srbf = s.srbf → t.generateEvals cfg o n = some g → g.srbf = s.srbf := by
    intro t g n hn ht1 hg
    rcases generateEvals_cases hg with ⟨ws, z, hg, hz⟩ | ⟨-, he, -⟩
    · rcases hz with ⟨sc, z0, next', hsc, hz0, hgw, hzn⟩ | ⟨hz, -, -⟩
      · obtain ⟨w0, hw0⟩ := List.length_eq_one_iff.1 (hw sc hsc)
        have : next' = z0.nextWeight := by
          rcases Nat.le_one_iff_eq_zero_or_eq_one.1 hn with rfl | rfl
          · simp only [getWeights, Option.some.injEq, Prod.mk.injEq] at hgw
            exact hgw.2.symm
          · rw [hw0] at hgw
            rcases hnw : z0.nextWeight with _ | m
            · rw [hnw] at hgw
              simp [getWeights] at hgw
              exact hgw.2.symm
            · rw [hnw] at hgw
              simp [getWeights] at hgw
        rw [hg, hzn, this, ← ht1, hz0]
      · rw [hg, hz]; exact ht1
    · rw [he]; exact ht1
  rw [proposeAction_going (by simpa using ht.1) ht.2] at h
  split at h
  · split at h
    · split at h
      · exact hres s h
      · simp only [Option.some.injEq, Prod.mk.injEq] at h
        rw [← h.2]
    · simp only [Option.some.injEq, Prod.mk.injEq] at h
      rw [← h.2]
  · split at h
    · unfold State.adaptBranch at h
      simp only at h
      split at h
      · split at h
        · simp at h
        · rename_i g hg
          refine haft g (hgen { s with phase := .adaptive } g 1 le_rfl (by rfl) hg) h
      · rename_i hna
        split at h
        · split at h
          · simp at h
          · rename_i g hg
            refine haft g (hgen { s with phase := .adaptive } g _ (hc.resolve_left hna).le (by rfl) hg) h
        · exact haft _ (by rfl) h
    · split at h
      · exact (hini s h).1
      · exact hada s (by simpa using h)

end Verif.Strategy
