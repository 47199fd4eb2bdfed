import Verif.Strategy.Restarts
import Verif.Props.Strategy

/-!
# Property C82: when restarts happen; additions to C22 and C63
-/

set_option linter.unusedSectionVars false

namespace Verif.Props

open Verif.Strategy Verif.Spec

variable {P : Type} [DecidableEq P] {cfg : Config P}

/-- SRBF/DYCORS: the strategy is converged exactly when, in the current run, some step of the control ended with
`4 * failtol` consecutive failures or with the minimum radius. -/
theorem C22_exact {sc : SrbfCfg} (hsc : cfg.srbf = some sc) (hbs : BatchOk cfg) {w : Sys P} (h : Reach cfg w) :
    w.st.converged = runFinished (tol cfg sc) w.st.log := by
  rw [← C63_failtol hbs]; exact (h.conv hsc hbs).eq

/-- Every step of the control is directly followed by a change of the radius (from then on results of older evaluations are
ignored) if it is the third success in a row or the `failtol`-th failure in a row, and not otherwise. -/
theorem C63_change {sc : SrbfCfg} (hsc : cfg.srbf = some sc) (hbs : BatchOk cfg) {w : Sys P} (h : Reach cfg w)
    {l m : List (Event P)} {f : Val} (hl : w.st.log = l ++ .adjusted f :: m) :
    m.head? = some .stepChange ↔ (control (tol cfg sc) l).turns (tol cfg sc) f = true := by
  rw [← C63_failtol hbs]; exact (h.changes hsc hbs).turn l f m hl

/-- There are no other changes of the radius. -/
theorem C63_change_only {sc : SrbfCfg} (hsc : cfg.srbf = some sc) (hbs : BatchOk cfg) {w : Sys P} (h : Reach cfg w)
    {l m : List (Event P)} (hl : w.st.log = l ++ .stepChange :: m) :
    ∃ f l', l = l' ++ [.adjusted f] ∧ (control (tol cfg sc) l').turns (tol cfg sc) f = true := by
  obtain ⟨f, l', rfl⟩ := (h.changes hsc hbs).only l m hl
  refine ⟨f, l', rfl, ?_⟩
  rw [← C63_change hsc hbs h (m := .stepChange :: m) (f := f) (by rw [hl]; simp)]
  rfl

/-- A result whose evaluation was accepted before the last restart or change of the radius is recorded, but does not enter
the step control, the data of the current run or the surrogate. -/
theorem C63_stale {w w' : Sys P} (h : Reach cfg w) {i : Nat} {r : Rec P} {v : Val} (hr : w.recs[i]? = some r)
    (hn : r.accAt < lastChange w.st.log) (hst : w.step cfg (.complete i v) = some w') :
    w'.st.log = w.st.log ++ [.completed r.x r.kind v r.accAt] ∧ w'.st.srbf = w.st.srbf ∧
      w'.st.converged = w.st.converged ∧ w'.st.curX = w.st.curX ∧ w'.st.curFX = w.st.curFX ∧ w'.st.surr = w.st.surr :=
  complete_stale h hr hn hst

/-- A history with 4 failures in a row, so that the radius is halved, and an evaluation that was accepted before. -/
def staleOps : List (Op Nat) :=
  [pr 100, .accept 0, .complete 0 0, pr 100, .accept 0, .complete 0 0, pr 90, .accept 0] ++
    (List.range 5).flatMap fun i => [pr (100 + i), .accept 0, .complete 1 (i : ℚ)]

example : ∃ w, Reach demoSrbf w ∧ (radiusChanged w.st.log &&
    (w.recs[0]?.any fun r : Rec Nat => decide (r.accAt < lastChange w.st.log) && decide (r.kind = .adapt))) = true :=
  exists_reach (orc 0) staleOps _ (by decide +kernel)

/-! ## C82 -/

/-- Every restart of the history: restarts were enabled, in synchronous mode every proposed point had been completed or
lost, and SRBF/DYCORS had finished the run. -/
theorem C82_history {w : Sys P} (h : Reach cfg w) {l : List (Event P)} {q : List P}
    (hl : l ++ [.restart q] <+: w.st.log) :
    cfg.useRestarts = true ∧ (cfg.asynchronous = false → outstanding l = 0) ∧
      ∀ sc, cfg.srbf = some sc → BatchOk cfg → runFinished (tol cfg sc) l = true := by
  obtain ⟨h1, h2⟩ := h.restarts l q hl
  refine ⟨h1, h2, fun sc hsc hbs => ?_⟩
  rw [← C63_failtol hbs]; exact h.restartsConv hsc hbs l q hl

/-- A call of `propose_action` restarts only if restarts are enabled, nothing is in flight (synchronous mode), and either
the run had converged or (EI, LCB) the auxiliary problem just gave up with an empty queue. -/
theorem C82_only {w w' : Sys P} (h : Reach cfg w) {o : Oracle P} (hst : w.step cfg (.propose o) = some w')
    {m : List (Event P)} {q : List P} (hl : w'.st.log = w.st.log ++ m) (hm : Event.restart q ∈ m) :
    cfg.useRestarts = true ∧ (cfg.asynchronous = false → w.inflight = []) ∧
      (w.st.converged = true ∨ (cfg.srbf = none ∧ o.giveUp = true ∧ w.st.batchQueue = [])) := by
  have hidle : (cfg.asynchronous || w.st.pendingEvals == 0) = true → cfg.asynchronous = false → w.inflight = [] := by
    intro h1 h2
    rw [h2] at h1
    have h1 : w.st.pendingEvals = 0 := by simpa using h1
    have h3 := h.book.pending
    rw [h1] at h3
    have h4 : w.props = [] := List.length_eq_zero_iff.1 (by omega)
    have h5 : w.recs = [] := List.length_eq_zero_iff.1 (by omega)
    simp [Sys.inflight, h4, h5]
  -- the state returned by `propose_action` contains the restart
  obtain ⟨a, s', hp, hs⟩ : ∃ a s', w.st.proposeAction cfg o = some (a, s') ∧ ∃ m', s'.log = w.st.log ++ m' ∧
      Event.restart q ∈ m' := by
    simp only [Sys.step] at hst
    split at hst
    · simp at hst
    all_goals
      rename_i he
      cases hst
      obtain ⟨m', hm', _⟩ := proposeAction_ext he
      refine ⟨_, _, he, m', hm', ?_⟩
      simp only [State.note, hm', List.append_assoc, List.append_cancel_left_eq] at hl
      rw [← hl] at hm
      simpa using hm
  obtain ⟨m', hs, hm'⟩ := hs
  clear hst hl hm
  by_cases ht : w.st.terminate = true ∨ cfg.maxEvals ≤ w.st.numEvals + w.st.pendingEvals
  · rw [proposeAction_terminate ht] at hp
    simp only [Option.some.injEq, Prod.mk.injEq] at hp
    rw [← hp.2] at hs
    have hs : m' = [] := by simpa using hs
    subst hs; simp at hm'
  · simp only [not_or, not_le] at ht
    rw [proposeAction_going (by simpa using ht.1) ht.2] at hp
    have hno : s'.log = w.st.log → False := by
      intro hh; rw [hs] at hh; have hh : m' = [] := by simpa using hh
      subst hh; simp at hm'
    have hgen1 : ∀ x ws, s'.log = w.st.log ++ [.generated x ws] → False := by
      intro x ws hh; rw [hs] at hh; simp only [List.append_cancel_left_eq] at hh; subst hh; simp at hm'
    have hag : ∀ t : State P, t.afterGenerate cfg o = some (a, s') → t.pendingEvals = w.st.pendingEvals →
        (t.log = w.st.log ∧ (t.converged = true → cfg.srbf = none ∧ o.giveUp = true ∧ w.st.batchQueue = [])
          ∨ (∃ x ws, t.log = w.st.log ++ [.generated x ws]) ∧ t.converged = false) →
        cfg.useRestarts = true ∧ (cfg.asynchronous = false → w.inflight = []) ∧
          (w.st.converged = true ∨ (cfg.srbf = none ∧ o.giveUp = true ∧ w.st.batchQueue = [])) := by
      intro t hh hpe hc
      unfold State.afterGenerate at hh
      split at hh
      · rename_i hcr
        simp only [Bool.and_eq_true] at hcr
        rcases hc with ⟨_, hc⟩ | ⟨_, hc⟩
        · split at hh
          · rename_i hpd
            rw [hpe] at hpd
            exact ⟨hcr.2, hidle hpd, .inr (hc hcr.1)⟩
          · simp only [Option.some.injEq, Prod.mk.injEq] at hh
            rename_i hl _
            exact absurd (by rw [← hh.2]; exact hl) hno
        · rw [hc] at hcr; simp at hcr
      · have e := adaptProposal_log (s := t) (s' := s') (a := a) (by simpa using hh)
        rcases hc with ⟨hl, _⟩ | ⟨⟨x, ws, hl⟩, _⟩
        · exact (hno (e.trans hl)).elim
        · exact (hgen1 x ws (e.trans hl)).elim
    split at hp
    · rename_i hcv
      split at hp
      · rename_i hur
        split at hp
        · rename_i hpd
          exact ⟨hur, hidle hpd, .inl hcv⟩
        · simp only [Option.some.injEq, Prod.mk.injEq] at hp
          exact absurd (by rw [← hp.2]) hno
      · simp only [Option.some.injEq, Prod.mk.injEq] at hp
        exact absurd (by rw [← hp.2]) hno
    · rename_i hcv
      split at hp
      · rename_i hq
        have hq : w.st.batchQueue = [] := by simpa using hq
        unfold State.adaptBranch at hp
        simp only at hp
        have hgen : ∀ n s1, State.generateEvals cfg o n { w.st with phase := .adaptive } = some s1 →
            s1.pendingEvals = w.st.pendingEvals ∧
            (s1.log = w.st.log ∧ (s1.converged = true → cfg.srbf = none ∧ o.giveUp = true ∧ w.st.batchQueue = [])
              ∨ (∃ x ws, s1.log = w.st.log ++ [.generated x ws]) ∧ s1.converged = false) := by
          intro n s1 hg
          rcases generateEvals_cases hg with ⟨ws, z, rfl, _⟩ | ⟨hgu, rfl, hn⟩
          · exact ⟨rfl, .inr ⟨⟨_, _, rfl⟩, by simpa using hcv⟩⟩
          · refine ⟨rfl, .inl ⟨rfl, fun _ => ⟨?_, hgu, hq⟩⟩⟩
            rcases hn with hn | hn
            · exact hn
            · have := h.book.srbf
              simp only at hn
              rw [hn] at this
              simpa using this.symm
        split at hp
        · split at hp
          · simp at hp
          · rename_i s1 hg
            exact hag s1 hp (hgen _ _ hg).1 (hgen _ _ hg).2
        · split at hp
          · split at hp
            · simp at hp
            · rename_i s1 hg
              exact hag s1 hp (hgen _ _ hg).1 (hgen _ _ hg).2
          · have hh := hag _ hp rfl
            exact hh (.inl ⟨rfl, fun hc => absurd hc hcv⟩)
      · split at hp
        · exact absurd (initProposal_log hp) hno
        · have e := adaptProposal_log (s := w.st) (s' := s') (a := a) (by simpa using hp)
          exact absurd e hno

/-- The points that a restart queues are proposed at once: the answer is the last of them, as an initial evaluation. -/
theorem restart_answer {o : Oracle P} {s : State P} (hn : 0 < cfg.numPts ) :
    ∃ q x s', (s.sampleRestart cfg o).initProposal = some (.eval x .init, s') ∧ q.getLast? = some x ∧
      (∀ i < cfg.numPts, q[i]? = some (o.design i)) ∧ s'.log = s.log ++ [.restart q] ∧ s'.converged = false ∧
      s'.phase = .initial ∧ s'.curX = [] ∧ s'.numEvals = s.numEvals := by
  set q : List P := (List.range cfg.numPts).map o.design ++ (if s.X = [] then unknownExtras cfg else []) with hq
  have hne : q ≠ [] := by
    intro hh
    have := congrArg List.length hh
    simp [hq] at this
    omega
  refine ⟨q, q.getLast hne, State.makeProposal { s.sampleRestart cfg o with batchQueue := s.batchQueue ++ q.dropLast } (q.getLast hne),
    ?_, List.getLast?_eq_some_getLast hne, ?_, ?_⟩
  · unfold State.initProposal
    have hb : (s.sampleRestart cfg o).batchQueue = (s.batchQueue ++ q.dropLast) ++ [q.getLast hne] := by
      rw [sampleRestart_eq]
      simp only [List.append_assoc, List.dropLast_append_getLast]
      rfl
    rw [hb, popLast_append]
  · intro i hi
    rw [hq, List.getElem?_append_left (by simpa using hi)]
    simp [hi]
  · rw [sampleRestart_eq]
    simp [State.makeProposal]
    rfl

/-- A converged run is restarted by the next call of `propose_action`, if restarts are enabled, budget is left and (in
synchronous mode) nothing is in flight: a new design is queued and one of its points is the answer. -/
theorem C82_converged {w : Sys P} (h : Reach cfg w) (hc : w.st.converged = true) (hu : cfg.useRestarts = true)
    (ht : w.st.terminate = false) (hb : ((completions w.st.log).length + w.inflight.length : Int) < cfg.maxEvals)
    (hi : cfg.asynchronous = true ∨ w.inflight = []) (hn : 0 < cfg.numPts) (o : Oracle P) :
    ∃ w' q x, w.step cfg (.propose o) = some w' ∧ w'.st.log = w.st.log ++ [.restart q, .proposed x .init] ∧
      q.getLast? = some x ∧ (∀ i < cfg.numPts, q[i]? = some (o.design i)) ∧ w'.st.converged = false ∧
      w'.st.phase = .initial ∧ w'.st.curX = [] := by
  have hch := h.book.num
  have hpe := C02_pending_exact h
  obtain ⟨q, x, s', h1, h2, h3, h4, h5, h6, h7, _⟩ := restart_answer (cfg := cfg) (o := o) (s := w.st) hn
  have hp : w.st.proposeAction cfg o = some (.eval x .init, s') := by
    rw [proposeAction_going ht (by omega)]
    have hpd : (cfg.asynchronous || w.st.pendingEvals == 0) = true := by
      rcases hi with hi | hi
      · simp [hi]
      · simp [C02_pending_exact h, hi]
    simp only [hc, hu, hpd, if_true, h1]
  refine ⟨{ w with st := s'.note (.proposed x .init), props := w.props ++ [{ x := x, kind := .init }] }, q, x, ?_, ?_,
    h2, h3, h5, h6, h7⟩
  · simp only [Sys.step, hp]
  · simp only [State.note, h4, List.append_assoc, List.cons_append, List.nil_append]

/-- EI and LCB: when the auxiliary problem gives up, the same call of `propose_action` restarts. -/
theorem C82_giveup {w : Sys P} (h : Reach cfg w) (hsc : cfg.srbf = none) (hc : w.st.converged = false)
    (hq : w.st.batchQueue = []) (hu : cfg.useRestarts = true)
    (ht : w.st.terminate = false) (hb : ((completions w.st.log).length + w.inflight.length : Int) < cfg.maxEvals)
    (hi : cfg.asynchronous = true ∨ w.inflight = []) (hn : 0 < cfg.numPts) (o : Oracle P) (hg : o.giveUp = true) :
    ∃ w' q x, w.step cfg (.propose o) = some w' ∧ w'.st.log = w.st.log ++ [.restart q, .proposed x .init] ∧
      q.getLast? = some x ∧ (∀ i < cfg.numPts, q[i]? = some (o.design i)) ∧ w'.st.converged = false ∧
      w'.st.phase = .initial ∧ w'.st.curX = [] := by
  have hch := h.book.num
  have hpe := C02_pending_exact h
  obtain ⟨q, x, s', h1, h2, h3, h4, h5, h6, h7, _⟩ := restart_answer (cfg := cfg) (o := o)
    (s := { w.st with phase := .adaptive, converged := true }) hn
  have hpd : (cfg.asynchronous || w.st.pendingEvals == 0) = true := by
    rcases hi with hi | hi
    · simp [hi]
    · simp [C02_pending_exact h, hi]
  have hgen : ∀ n, State.generateEvals cfg o n { w.st with phase := .adaptive } =
      some { w.st with phase := .adaptive, converged := true } := by
    intro n
    unfold State.generateEvals
    simp [hsc, hg]
  have hag : State.afterGenerate cfg o { w.st with phase := .adaptive, converged := true } = some (.eval x .init, s') := by
    unfold State.afterGenerate
    simp only [hu, hpd, Bool.and_true, if_true, h1]
  have hp : w.st.proposeAction cfg o = some (.eval x .init, s') := by
    rw [proposeAction_going ht (by omega)]
    unfold State.adaptBranch
    have hq' : w.st.batchQueue.isEmpty = true := by simp [hq]
    rw [if_neg (by simp [hc]), if_pos hq']
    simp only [hgen, hag]
    cases ha : cfg.asynchronous with
    | true => simp
    | false =>
      rw [ha] at hpd
      simp only [Bool.false_or] at hpd
      simp [hpd]
  refine ⟨{ w with st := s'.note (.proposed x .init), props := w.props ++ [{ x := x, kind := .init }] }, q, x, ?_, ?_,
    h2, h3, h5, h6, h7⟩
  · simp only [Sys.step, hp]
  · simp only [State.note, h4, List.append_assoc, List.cons_append, List.nil_append]

/-- Non-vacuity of `C82_history` and `C82_only`: a run of SRBF that converges and is restarted. -/
example : ∃ w, Reach demoSrbf w ∧ (restarted w.st.log && decide (w.st.phase = .initial)) = true :=
  exists_reach (orc 0) (failOps ++ [pr 100]) _ (by decide +kernel)

/-- Non-vacuity of `C82_converged`. -/
example : ∃ w, Reach demoSrbf w ∧ (w.st.converged && !w.st.terminate && demoSrbf.useRestarts &&
    decide (((completions w.st.log).length + w.inflight.length : Int) < demoSrbf.maxEvals) &&
    decide (0 < demoSrbf.numPts)) = true :=
  exists_reach (orc 0) failOps _ (by decide +kernel)

/-- Non-vacuity of `C82_giveup`: all initial points are evaluated and the auxiliary problem is about to be called. -/
example : ∃ w, Reach demo w ∧ (!w.st.converged && !w.st.terminate && demo.useRestarts && demo.srbf.isNone &&
    decide (w.st.batchQueue = []) && decide (((completions w.st.log).length + w.inflight.length : Int) < demo.maxEvals) &&
    decide (0 < demo.numPts)) = true :=
  exists_reach (orc 0) [pr 100, .accept 0, .complete 0 5, pr 100, .accept 0, .complete 0 6, pr 100, .accept 0, .complete 0 7] _
    (by decide +kernel)

end Verif.Props
