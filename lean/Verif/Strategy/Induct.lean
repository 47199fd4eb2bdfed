import Verif.Strategy.Model

/-!
# Induction principle for the strategy model

`Preserved cfg I` collects, for an invariant `I`, one obligation per elementary transformation of the
model, with the facts about the state that hold when the code performs it.
`Preserved.reach` lifts them to all reachable systems.
-/

set_option linter.unusedSectionVars false

namespace Verif.Strategy

variable {P : Type} [DecidableEq P]

theorem popLast_some {α : Type} {l q : List α} {x : α} (h : popLast l = some (x, q)) :
    l = q ++ [x] := by
  unfold popLast at h
  split at h
  · simp at h
  · rename_i y hy
    simp only [Option.some.injEq, Prod.mk.injEq] at h
    obtain ⟨rfl, rfl⟩ := h
    have hne : l ≠ [] := by rintro rfl; simp at hy
    rw [List.getLast?_eq_some_getLast hne] at hy
    simp only [Option.some.injEq] at hy
    rw [← hy]
    exact (List.dropLast_append_getLast hne).symm

theorem popLast_none {α : Type} {l : List α} (h : popLast l = none) : l = [] := by
  unfold popLast at h
  split at h
  · rename_i hy; simpa using hy
  · simp at h

theorem popLast_append {α : Type} (q : List α) (x : α) : popLast (q ++ [x]) = some (x, q) := by
  simp [popLast]

/-- Facts that hold whenever `propose_action` goes past its first test (ss.py:267). -/
structure Going (cfg : Config P) (s : State P) : Prop where
  notTerm : s.terminate = false
  budget : s.numEvals + s.pendingEvals < cfg.maxEvals

/-- `I` is preserved by every elementary transformation. -/
structure Closed (cfg : Config P) (I : Sys P → Prop) : Prop where
  setTerm : ∀ w, I w → w.st.numEvals + w.st.pendingEvals ≥ cfg.maxEvals →
    I { w with st := { w.st with terminate := true } }
  setPhase : ∀ w, I w → Going cfg w.st → w.st.converged = false → w.st.batchQueue = [] →
    I { w with st := { w.st with phase := .adaptive } }
  gen : ∀ w o n s', I w → Going cfg w.st → w.st.converged = false → w.st.batchQueue = [] →
    w.st.phase = .adaptive →
    (cfg.asynchronous = true ∧ n = 1 ∨
      cfg.asynchronous = false ∧ w.st.pendingEvals = 0 ∧ n = cfg.batchSize) →
    w.st.generateEvals cfg o n = some s' → I { w with st := s' }
  restart : ∀ w o, I w → Going cfg w.st → w.st.converged = true → cfg.useRestarts = true →
    (cfg.asynchronous = true ∨ w.st.pendingEvals = 0) →
    I { w with st := w.st.sampleRestart cfg o }
  term : ∀ w, I w → w.st.terminate = true → w.st.pendingEvals = 0 →
    I { w with st := w.st.note .terminated }
  pop : ∀ w x q k, I w → Going cfg w.st → w.st.converged = false → w.st.batchQueue = q ++ [x] →
    (k = .init ∧ w.st.phase = .initial ∨ k = .adapt ∧ w.st.phase = .adaptive) →
    I { w with
      st := (State.makeProposal { w.st with batchQueue := q } x).note (.proposed x k)
      props := w.props ++ [{ x := x, kind := k }] }
  accept : ∀ w i p, I w → w.props[i]? = some p →
    I { st := (w.st.note (.accepted p.x p.kind w.st.evNext)).onAccept
        props := w.props.eraseIdx i
        recs := w.recs ++ [{ x := p.x, kind := p.kind, evId := w.st.evNext, accAt := w.st.log.length }] }
  rejectInit : ∀ w i p, I w → w.props[i]? = some p → p.kind = .init →
    I { w with st := (w.st.note (.rejected p.x .init)).onInitialRejected p.x, props := w.props.eraseIdx i }
  rejectAdapt : ∀ w i p, I w → w.props[i]? = some p → p.kind = .adapt →
    I { w with st := (w.st.note (.rejected p.x .adapt)).onAdaptReject cfg p.x, props := w.props.eraseIdx i }
  completed : ∀ w i r v, I w → w.recs[i]? = some r →
    I { w with
      st := (w.st.note (.completed r.x r.kind v r.accAt)).recordCompleted r.x v r.evId
      recs := w.recs.eraseIdx i }
  adjusted : ∀ w sc z v, I w → cfg.srbf = some sc → w.st.srbf = some z →
    (cfg.asynchronous = true ∨ (w.st.batchQueue = [] ∧ w.st.pendingEvals = 0)) →
    v ∈ w.st.curFX →
    I { w with st := w.st.adjustStep cfg sc z (minValue z.recordQueue v) }
  queued : ∀ w z v, I w → w.st.srbf = some z →
    (cfg.asynchronous = false ∧ ¬ (w.st.batchQueue = [] ∧ w.st.pendingEvals = 0)) → v ∈ w.st.curFX →
    I { w with st := { w.st with srbf := some { z with recordQueue := z.recordQueue ++ [v] } } }
  aborted : ∀ w i r, I w → w.recs[i]? = some r →
    I { w with st := (w.st.note (.aborted r.x r.kind)).onAborted r.x r.kind r.evId, recs := w.recs.eraseIdx i }
  resume : ∀ w, I w → I w.resumed

/-- `I` holds initially and is preserved by every elementary transformation. -/
structure Preserved (cfg : Config P) (I : Sys P → Prop) : Prop extends Closed cfg I where
  create : ∀ o, I (Sys.create cfg o)

section
variable {cfg : Config P} {I : Sys P → Prop}

omit [DecidableEq P] in
@[simp] theorem sampleRestart_pending (o : Oracle P) (s : State P) :
    (s.sampleRestart cfg o).pendingEvals = s.pendingEvals := by
  have key : ∀ (l : List (P × Option Val)) (t : State P),
      (l.foldl State.addExtra t).pendingEvals = t.pendingEvals := by
    intro l
    induction l with
    | nil => intro t; rfl
    | cons e l ih => intro t; rw [List.foldl_cons, ih]; unfold State.addExtra; split <;> rfl
  simp only [State.sampleRestart, State.sampleInitial]
  split
  · simp [key, State.moveEvLast]
  · rfl

omit [DecidableEq P] in
@[simp] theorem sampleRestart_num (o : Oracle P) (s : State P) :
    (s.sampleRestart cfg o).numEvals = s.numEvals := by
  have key : ∀ (l : List (P × Option Val)) (t : State P),
      (l.foldl State.addExtra t).numEvals = t.numEvals := by
    intro l
    induction l with
    | nil => intro t; rfl
    | cons e l ih => intro t; rw [List.foldl_cons, ih]; unfold State.addExtra; split <;> rfl
  simp only [State.sampleRestart, State.sampleInitial]
  split
  · simp [key, State.moveEvLast]
  · rfl

omit [DecidableEq P] in
@[simp] theorem sampleRestart_terminate (o : Oracle P) (s : State P) :
    (s.sampleRestart cfg o).terminate = s.terminate := by
  have key : ∀ (l : List (P × Option Val)) (t : State P),
      (l.foldl State.addExtra t).terminate = t.terminate := by
    intro l
    induction l with
    | nil => intro t; rfl
    | cons e l ih => intro t; rw [List.foldl_cons, ih]; unfold State.addExtra; split <;> rfl
  simp only [State.sampleRestart, State.sampleInitial]
  split
  · simp [key, State.moveEvLast]
  · rfl

omit [DecidableEq P] in
@[simp] theorem sampleRestart_phase (o : Oracle P) (s : State P) :
    (s.sampleRestart cfg o).phase = .initial := by
  have key : ∀ (l : List (P × Option Val)) (t : State P),
      (l.foldl State.addExtra t).phase = t.phase := by
    intro l
    induction l with
    | nil => intro t; rfl
    | cons e l ih => intro t; rw [List.foldl_cons, ih]; unfold State.addExtra; split <;> rfl
  simp only [State.sampleRestart, State.sampleInitial]
  split
  · simp [key]
  · rfl

omit [DecidableEq P] in
@[simp] theorem sampleRestart_converged (o : Oracle P) (s : State P) :
    (s.sampleRestart cfg o).converged = false := by
  have key : ∀ (l : List (P × Option Val)) (t : State P),
      (l.foldl State.addExtra t).converged = t.converged := by
    intro l
    induction l with
    | nil => intro t; rfl
    | cons e l ih => intro t; rw [List.foldl_cons, ih]; unfold State.addExtra; split <;> rfl
  simp only [State.sampleRestart, State.sampleInitial]
  split
  · simp [key]
  · rfl

omit [DecidableEq P] in
theorem generateEvals_facts {o : Oracle P} {n : Nat} {s s' : State P}
    (h : s.generateEvals cfg o n = some s') :
    s'.numEvals = s.numEvals ∧ s'.pendingEvals = s.pendingEvals ∧ s'.terminate = s.terminate ∧
      s'.phase = s.phase ∧
      (s'.converged = s.converged ∨ (s'.converged = true ∧ s'.batchQueue = s.batchQueue)) := by
  unfold State.generateEvals at h
  split at h
  · split at h
    · simp at h
    · simp only [Option.some.injEq] at h; subst h; simp
  · split at h <;> simp only [Option.some.injEq] at h <;> subst h <;> simp

/-- Every outcome of `propose_action` is built from the elementary transformations. -/
theorem Closed.propose (hP : Closed cfg I) {w : Sys P} {o : Oracle P} {a : Action P}
    {s : State P} (hw : I w) (h : w.st.proposeAction cfg o = some (a, s)) :
    (∀ x k, a = .eval x k → I { w with
        st := s.note (.proposed x k), props := w.props ++ [{ x := x, kind := k }] }) ∧
      (a = .terminate → I { w with st := s.note .terminated }) ∧ (a = .nothing → I { w with st := s }) := by
  -- popping
  have hinit : ∀ t : State P, I { w with st := t } → Going cfg t → t.converged = false → t.phase = .initial →
      t.initProposal = some (a, s) →
      (∀ x k, a = .eval x k → I { w with
        st := s.note (.proposed x k), props := w.props ++ [{ x := x, kind := k }] }) ∧
        (a = .terminate → I { w with st := s.note .terminated }) ∧ (a = .nothing → I { w with st := s }) := by
    intro t ht hg hcf hph he
    unfold State.initProposal at he
    split at he
    · simp at he
    · rename_i x q hq
      simp only [Option.some.injEq, Prod.mk.injEq] at he
      obtain ⟨rfl, rfl⟩ := he
      refine ⟨?_, by simp, by simp⟩
      rintro x' k' hxk
      cases hxk
      exact hP.pop { w with st := t } x q .init ht hg hcf (popLast_some hq) (.inl ⟨rfl, hph⟩)
  have hadapt : ∀ t : State P, I { w with st := t } → Going cfg t → (t.converged = false ∨ t.batchQueue = []) → t.phase = .adaptive →
      t.adaptProposal = (a, s) →
      (∀ x k, a = .eval x k → I { w with
        st := s.note (.proposed x k), props := w.props ++ [{ x := x, kind := k }] }) ∧
        (a = .terminate → I { w with st := s.note .terminated }) ∧ (a = .nothing → I { w with st := s }) := by
    intro t ht hg hcf hph he
    unfold State.adaptProposal at he
    split at he
    · simp only [Prod.mk.injEq] at he
      obtain ⟨rfl, rfl⟩ := he
      exact ⟨by simp, by simp, fun _ => ht⟩
    · rename_i x q hq
      simp only [Prod.mk.injEq] at he
      obtain ⟨rfl, rfl⟩ := he
      refine ⟨?_, by simp, by simp⟩
      rintro x' k' hxk
      cases hxk
      exact hP.pop { w with st := t } x q .adapt ht hg (hcf.resolve_right (by rw [popLast_some hq]; simp)) (popLast_some hq) (.inr ⟨rfl, hph⟩)
  have hnothing : ∀ t : State P, I { w with st := t } → some (Action.nothing, t) = some (a, s) →
      (∀ x k, a = .eval x k → I { w with
        st := s.note (.proposed x k), props := w.props ++ [{ x := x, kind := k }] }) ∧
        (a = .terminate → I { w with st := s.note .terminated }) ∧ (a = .nothing → I { w with st := s }) := by
    intro t ht he
    simp only [Option.some.injEq, Prod.mk.injEq] at he
    obtain ⟨rfl, rfl⟩ := he
    exact ⟨by simp, by simp, fun _ => ht⟩
  have hrest : ∀ t : State P, I { w with st := t } → Going cfg t → t.converged = true →
      cfg.useRestarts = true → (cfg.asynchronous || t.pendingEvals == 0) = true →
      (t.sampleRestart cfg o).initProposal = some (a, s) →
      (∀ x k, a = .eval x k → I { w with
        st := s.note (.proposed x k), props := w.props ++ [{ x := x, kind := k }] }) ∧
        (a = .terminate → I { w with st := s.note .terminated }) ∧ (a = .nothing → I { w with st := s }) := by
    intro t ht hg hc hr hpd he
    refine hinit _ (hP.restart { w with st := t } o ht hg hc hr ?_) ?_ (by simp) (by simp) he
    · simpa using hpd
    · exact ⟨by simpa using hg.notTerm, by simpa using hg.budget⟩
  have hafter : ∀ t : State P, I { w with st := t } → Going cfg t → (t.converged = false ∨ t.batchQueue = []) → t.phase = .adaptive →
      t.afterGenerate cfg o = some (a, s) →
      (∀ x k, a = .eval x k → I { w with
        st := s.note (.proposed x k), props := w.props ++ [{ x := x, kind := k }] }) ∧
        (a = .terminate → I { w with st := s.note .terminated }) ∧ (a = .nothing → I { w with st := s }) := by
    intro t ht hg hcf hph he
    unfold State.afterGenerate at he
    split at he
    · rename_i hcr
      simp only [Bool.and_eq_true] at hcr
      split at he
      · rename_i hpd
        exact hrest t ht hg hcr.1 hcr.2 hpd he
      · exact hnothing t ht he
    · exact hadapt t ht hg hcf hph (by simpa using he)
  -- the first test
  unfold State.proposeAction at h
  have hct : I { w with st := w.st.checkTermination cfg } := by
    unfold State.checkTermination
    split
    · rename_i hb
      exact hP.setTerm w hw hb
    · exact hw
  have hgo : (w.st.checkTermination cfg).terminate = false → Going cfg (w.st.checkTermination cfg) := by
    unfold State.checkTermination
    split
    · intro hh; simp at hh
    · rename_i hb; intro hh; exact ⟨hh, by omega⟩
  generalize w.st.checkTermination cfg = t at h hct hgo
  simp only at h
  split at h
  · rename_i htt
    split at h
    · rename_i hp0
      simp only [Option.some.injEq, Prod.mk.injEq] at h
      obtain ⟨rfl, rfl⟩ := h
      refine ⟨by simp, fun _ => ?_, by simp⟩
      exact hP.term { w with st := t } hct htt (by simpa using hp0)
    · exact hnothing t hct h
  · rename_i htt
    have hg : Going cfg t := hgo (by simpa using htt)
    split at h
    · rename_i hcv
      split at h
      · rename_i hur
        split at h
        · rename_i hpd
          exact hrest t hct hg hcv hur hpd h
        · exact hnothing t hct h
      · exact hnothing t hct h
    · rename_i hcv
      have hcv : t.converged = false := by simpa using hcv
      split at h
      · rename_i hq
        have hq : t.batchQueue = [] := by simpa using hq
        unfold State.adaptBranch at h
        have h2 := hP.setPhase { w with st := t } hct hg hcv hq
        have hg2 : Going cfg { t with phase := .adaptive } := ⟨hg.notTerm, hg.budget⟩
        simp only at h h2
        have hgenc : ∀ n s1, State.generateEvals cfg o n { t with phase := .adaptive } = some s1 →
            (cfg.asynchronous = true ∧ n = 1 ∨
              cfg.asynchronous = false ∧ t.pendingEvals = 0 ∧ n = cfg.batchSize) →
            s1.afterGenerate cfg o = some (a, s) →
            (∀ x k, a = .eval x k → I { w with
        st := s.note (.proposed x k), props := w.props ++ [{ x := x, kind := k }] }) ∧
              (a = .terminate → I { w with st := s.note .terminated }) ∧ (a = .nothing → I { w with st := s }) := by
          intro n s1 hge hn hag
          have hf := generateEvals_facts hge
          refine hafter s1
            (hP.gen { w with st := { t with phase := .adaptive } } o n s1 h2 hg2 hcv hq rfl hn hge)
            ⟨by rw [hf.2.2.1]; exact hg.notTerm, by rw [hf.1, hf.2.1]; exact hg.budget⟩
            ?_ (by rw [hf.2.2.2.1]) hag
          rcases hf.2.2.2.2 with hh | hh
          · exact .inl (hh.trans hcv)
          · exact .inr (hh.2.trans hq)
        split at h
        · rename_i has
          split at h
          · simp at h
          · rename_i s1 hge
            exact hgenc 1 s1 hge (.inl ⟨has, rfl⟩) h
        · rename_i has
          split at h
          · rename_i hp0
            split at h
            · simp at h
            · rename_i s1 hge
              exact hgenc _ s1 hge (.inr ⟨by simpa using has, by simpa using hp0, rfl⟩) h
          · exact hafter _ h2 hg2 (.inl hcv) rfl h
      · split at h
        · rename_i hph
          exact hinit t hct hg hcv hph h
        · rename_i hph
          exact hadapt t hct hg (.inl hcv) hph (by simpa using h)

theorem recordCompleted_srbf (s : State P) (x : P) (v : Val) (e : Nat) :
    (s.recordCompleted x v e).srbf = s.srbf := by
  by_cases h : e > s.evLast <;> simp [State.recordCompleted, State.removePending, h]

theorem recordCompleted_curFX (s : State P) (x : P) (v : Val) (e : Nat) :
    (s.recordCompleted x v e).curFX = if e > s.evLast then s.curFX ++ [v] else s.curFX := by
  by_cases h : e > s.evLast <;> simp [State.recordCompleted, State.removePending, h]

theorem recordCompleted_evLast (s : State P) (x : P) (v : Val) (e : Nat) :
    (s.recordCompleted x v e).evLast = s.evLast := by
  by_cases h : e > s.evLast <;> simp [State.recordCompleted, State.removePending, h]

theorem Closed.complete (hP : Closed cfg I) {w : Sys P} {i : Nat} {r : Rec P} (v : Val)
    (hw : I w) (h : w.recs[i]? = some r) :
    I { w with
      st := (w.st.note (.completed r.x r.kind v r.accAt)).onCompleted cfg r.x r.kind v r.evId
      recs := w.recs.eraseIdx i } := by
  have h1 := hP.completed w i r v hw h
  have hcur := recordCompleted_curFX (w.st.note (.completed r.x r.kind v r.accAt)) r.x v r.evId
  have hev := recordCompleted_evLast (w.st.note (.completed r.x r.kind v r.accAt)) r.x v r.evId
  unfold State.onCompleted
  simp only
  generalize State.recordCompleted (w.st.note (.completed r.x r.kind v r.accAt)) r.x v r.evId = s1 at *
  rw [← hev] at hcur
  split
  · exact h1
  · split
    · rename_i sc z hsc hz
      unfold State.srbfCompleted
      split
      · rename_i hlt
        have hmem : v ∈ s1.curFX := by rw [hcur, if_pos hlt]; simp
        split
        · rename_i hcond
          exact hP.adjusted _ sc z v h1 hsc hz (by simpa using hcond) hmem
        · rename_i hcond
          refine hP.queued _ z v h1 hz ?_ hmem
          simpa using hcond
      · exact h1
    · exact h1

/-- `adjust_step` is a change of the SRBF attributes, then possibly a radius change, then possibly
convergence. -/
theorem adjusted_of {I : Sys P → Prop}
    (hz : ∀ w z f, I w → w.st.srbf.isSome →
      I { w with st := { w.st with srbf := some z, log := w.st.log ++ [.adjusted f] } })
    (hs : ∀ w, I w → w.st.srbf.isSome →
      (cfg.asynchronous = true ∨ (w.st.batchQueue = [] ∧ w.st.pendingEvals = 0)) →
      I { w with st := { w.st.moveEvLast with log := w.st.log ++ [.stepChange] } })
    (hc : ∀ w, I w → w.st.srbf.isSome → I { w with st := { w.st with converged := true } })
    (w : Sys P) (sc : SrbfCfg) (z : Srbf) (f : Val) (hw : I w) (hsome : w.st.srbf = some z)
    (hcond : cfg.asynchronous = true ∨ (w.st.batchQueue = [] ∧ w.st.pendingEvals = 0)) :
    I { w with st := w.st.adjustStep cfg sc z f } := by
  unfold State.adjustStep
  generalize z.adjust (failtol cfg sc) (maxfailtol cfg sc) f = a
  have h2 := hz _ a.1 f hw (by rw [hsome]; rfl)
  simp only
  have h3 : I { w with
      st := if a.2.1 = true then
        { State.moveEvLast { w.st with srbf := some a.1, log := w.st.log ++ [.adjusted f] } with
          log := w.st.log ++ [.adjusted f] ++ [.stepChange] }
        else { w.st with srbf := some a.1, log := w.st.log ++ [.adjusted f] } } := by
    split
    · exact hs _ h2 rfl hcond
    · exact h2
  split
  · refine hc _ h3 ?_
    split <;> rfl
  · exact h3

theorem Closed.step (hP : Closed cfg I) {w w' : Sys P} {op : Op P} (hw : I w)
    (h : w.step cfg op = some w') : I w' := by
  cases op with
  | propose o =>
    simp only [Sys.step] at h
    split at h
    · simp at h
    · rename_i x k s he
      simp only [Option.some.injEq] at h; subst h
      exact (hP.propose hw he).1 x k rfl
    · rename_i s he
      simp only [Option.some.injEq] at h; subst h
      exact (hP.propose hw he).2.1 rfl
    · rename_i s he
      simp only [Option.some.injEq] at h; subst h
      exact (hP.propose hw he).2.2 rfl
  | accept i =>
    simp only [Sys.step] at h
    split at h
    · simp at h
    · rename_i p hp
      simp only [Option.some.injEq] at h; subst h
      exact hP.accept w i p hw hp
  | reject i =>
    simp only [Sys.step] at h
    split at h
    · simp at h
    · rename_i p hp
      simp only [Option.some.injEq] at h; subst h
      split
      · rename_i hk; rw [hk]; exact hP.rejectInit w i p hw hp hk
      · rename_i hk; rw [hk]; exact hP.rejectAdapt w i p hw hp hk
  | complete i v =>
    simp only [Sys.step] at h
    split at h
    · simp at h
    · rename_i r hr
      simp only [Option.some.injEq] at h; subst h
      exact hP.complete v hw hr
  | abort i =>
    simp only [Sys.step] at h
    split at h
    · simp at h
    · rename_i r hr
      simp only [Option.some.injEq] at h; subst h
      exact hP.aborted w i r hw hr
  | update i =>
    simp only [Sys.step] at h
    split at h
    · simp at h
    · simp only [Option.some.injEq] at h; subst h; exact hw

theorem Preserved.reach (hP : Preserved cfg I) {w : Sys P} (h : Reach cfg w) : I w := by
  induction h with
  | create o => exact hP.create o
  | step op _ hs ih => exact hP.step ih hs
  | resume _ ih => exact hP.resume _ ih

/-- `w'` comes later than `w`: after any events, crashes and resumes. -/
inductive Later (cfg : Config P) (w : Sys P) : Sys P → Prop
  | refl : Later cfg w w
  | step {v v' : Sys P} (op : Op P) : Later cfg w v → v.step cfg op = some v' → Later cfg w v'
  | resume {v : Sys P} : Later cfg w v → Later cfg w v.resumed

theorem Closed.later (hP : Closed cfg I) {w w' : Sys P} (h : Later cfg w w') (hw : I w) : I w' := by
  induction h with
  | refl => exact hw
  | step op _ hs ih => exact hP.step ih hs
  | resume _ ih => exact hP.resume _ ih

theorem Reach.later {w w' : Sys P} (h : Reach cfg w) (hl : Later cfg w w') : Reach cfg w' := by
  induction hl with
  | refl => exact h
  | step op _ hs ih => exact .step op ih hs
  | resume _ ih => exact .resume ih

/-- A sequence of events. -/
def Sys.steps (cfg : Config P) (w : Sys P) : List (Op P) → Option (Sys P)
  | [] => some w
  | op :: ops => match w.step cfg op with
    | none => none
    | some w' => w'.steps cfg ops

theorem Reach.steps {w w' : Sys P} {ops : List (Op P)} (h : Reach cfg w) (hs : w.steps cfg ops = some w') :
    Reach cfg w' := by
  induction ops generalizing w with
  | nil => simp only [Sys.steps, Option.some.injEq] at hs; exact hs ▸ h
  | cons op ops ih =>
    simp only [Sys.steps] at hs
    split at hs
    · simp at hs
    · rename_i v hv
      exact ih (.step op h hv) hs

end

end Verif.Strategy
