import Verif.Strategy.Propose

/-!
# One worker

Runs in which a proposal is only requested when nothing is outstanding (POAP's serial controller, or one worker), for the
comparison of asynchronous mode with synchronous mode and batch size 1 (C89).
-/

set_option linter.unusedSectionVars false

namespace Verif.Strategy

variable {P : Type} [DecidableEq P] {cfg : Config P}

/-- The arguments with `asynchronous=True`. -/
def Config.asynchronousMode (cfg : Config P) : Config P := { cfg with asynchronous := true }

/-- The arguments with `asynchronous=False, batch_size=1`. -/
def Config.serialMode (cfg : Config P) : Config P := { cfg with asynchronous := false, batchSize := 1 }

/-- An event that one worker allows: a proposal is requested only if nothing is outstanding, proposals of the adaptive phase
are not rejected. -/
def Allowed (w : Sys P) (op : Op P) : Prop :=
  match op with
  | .propose _ => w.inflight = []
  | .reject i => ∀ p, w.props[i]? = some p → p.kind = .init
  | _ => True

/-- The systems reachable with one worker, crashes and resumes included. -/
inductive OneWorker (cfg : Config P) : Sys P → Prop
  | create (o : Oracle P) : OneWorker cfg (Sys.create cfg o)
  | step {w w' : Sys P} (op : Op P) : OneWorker cfg w → Allowed w op → w.step cfg op = some w' → OneWorker cfg w'
  | resume {w : Sys P} : OneWorker cfg w → OneWorker cfg w.resumed

theorem OneWorker.reach {w : Sys P} (h : OneWorker cfg w) : Reach cfg w := by
  induction h with
  | create o => exact .create o
  | step op _ _ hs ih => exact ih.step op hs
  | resume _ ih => exact ih.resume

/-! ## The configurations agree where it matters -/

theorem failtol_modes (sc : SrbfCfg) : failtol cfg.asynchronousMode sc = failtol cfg.serialMode sc := by
  have h4 : ⌈(4 : ℚ)⌉ = 4 := by
    have := Int.ceil_intCast (R := ℚ) 4
    simpa using this
  simp [failtol, Config.asynchronousMode, Config.serialMode, h4]

theorem create_modes (o : Oracle P) : Sys.create cfg.asynchronousMode o = Sys.create cfg.serialMode o := rfl

theorem sampleRestart_modes (o : Oracle P) (s : State P) :
    s.sampleRestart cfg.asynchronousMode o = s.sampleRestart cfg.serialMode o := rfl

theorem generateEvals_modes (o : Oracle P) (n : Nat) (s : State P) :
    s.generateEvals cfg.asynchronousMode o n = s.generateEvals cfg.serialMode o n := rfl

theorem generateEvals_pending {o : Oracle P} {n : Nat} {s s' : State P} (h : s.generateEvals cfg o n = some s') :
    s'.pendingEvals = s.pendingEvals ∧ s'.phase = s.phase ∧
      (s'.batchQueue = s.batchQueue ∨ s'.batchQueue = s.batchQueue ++ (List.range n).map o.pts) := by
  unfold State.generateEvals at h
  split at h
  · split at h
    · simp at h
    · simp only [Option.some.injEq] at h; subst h; exact ⟨rfl, rfl, .inr rfl⟩
  · split at h
    · simp only [Option.some.injEq] at h; subst h; exact ⟨rfl, rfl, .inl rfl⟩
    · simp only [Option.some.injEq] at h; subst h; exact ⟨rfl, rfl, .inr rfl⟩

theorem afterGenerate_modes (o : Oracle P) (s : State P) (hp : s.pendingEvals = 0) :
    s.afterGenerate cfg.asynchronousMode o = s.afterGenerate cfg.serialMode o := by
  unfold State.afterGenerate
  simp only [hp, Config.asynchronousMode, Config.serialMode, Bool.true_or, Bool.false_or, beq_self_eq_true]
  rfl

theorem adaptBranch_modes (o : Oracle P) (s : State P) (hp : s.pendingEvals = 0) :
    s.adaptBranch cfg.asynchronousMode o = s.adaptBranch cfg.serialMode o := by
  unfold State.adaptBranch
  have e : ∀ t : State P, t.pendingEvals = 0 →
      (match t.generateEvals cfg.asynchronousMode o 1 with
        | none => none
        | some s => s.afterGenerate cfg.asynchronousMode o) =
      (match t.generateEvals cfg.serialMode o 1 with
        | none => none
        | some s => s.afterGenerate cfg.serialMode o) := by
    intro t ht
    rw [generateEvals_modes]
    split
    · rfl
    · rename_i s' hs'
      exact afterGenerate_modes o s' (by rw [(generateEvals_pending hs').1]; exact ht)
  simp only [hp, beq_self_eq_true, if_true]
  rw [if_pos (show cfg.asynchronousMode.asynchronous = true from rfl),
    if_neg (show ¬ cfg.serialMode.asynchronous = true by simp [Config.serialMode])]
  exact e _ rfl

theorem proposeAction_modes (o : Oracle P) (s : State P) (hp : s.pendingEvals = 0) :
    s.proposeAction cfg.asynchronousMode o = s.proposeAction cfg.serialMode o := by
  by_cases ht : s.terminate = true ∨ cfg.maxEvals ≤ s.numEvals + s.pendingEvals
  · rw [proposeAction_terminate (cfg := cfg.asynchronousMode) ht, proposeAction_terminate (cfg := cfg.serialMode) ht]
  · simp only [not_or, not_le] at ht
    rw [proposeAction_going (cfg := cfg.asynchronousMode) (by simpa using ht.1) ht.2,
      proposeAction_going (cfg := cfg.serialMode) (by simpa using ht.1) ht.2, adaptBranch_modes o s hp, sampleRestart_modes]
    simp only [hp, beq_self_eq_true, Bool.or_true]
    rfl

/-! ## The invariant -/

/-- At most one point in flight; in the adaptive phase the queue is empty and what is in flight is adaptive; in the initial
phase it is from the design. -/
structure Single (w : Sys P) : Prop where
  one : w.inflight.length ≤ 1
  queue : w.st.phase = .adaptive → w.st.batchQueue = []
  kindP : ∀ p ∈ w.props, p.kind = .adapt → w.st.phase = .adaptive
  kindR : ∀ r ∈ w.recs, r.kind = .adapt → w.st.phase = .adaptive
  kindP' : ∀ p ∈ w.props, p.kind = .init → w.st.phase = .initial
  kindR' : ∀ r ∈ w.recs, r.kind = .init → w.st.phase = .initial

/-- What one call of `propose_action` does when nothing is pending. -/
theorem proposeAction_single (hc : cfg.asynchronous = true ∨ cfg.batchSize = 1) {o : Oracle P} {s s' : State P} {a : Action P}
    (hp : s.pendingEvals = 0) (hq : s.phase = .adaptive → s.batchQueue = []) (h : s.proposeAction cfg o = some (a, s')) :
    (s'.phase = .adaptive → s'.batchQueue = []) ∧
      ∀ x k, a = .eval x k → (k = .adapt → s'.phase = .adaptive) ∧ (k = .init → s'.phase = .initial) := by
  have hrest : ∀ t : State P, (t.sampleRestart cfg o).initProposal = some (a, s') →
      s'.phase = .initial ∧ ∀ x k, a = .eval x k → k = .init := by
    intro t ht
    unfold State.initProposal at ht
    split at ht
    · simp at ht
    · simp only [Option.some.injEq, Prod.mk.injEq] at ht
      obtain ⟨rfl, rfl⟩ := ht
      refine ⟨?_, fun x k h => by cases h; rfl⟩
      simp [State.makeProposal, sampleRestart_eq]
  have hag : ∀ t : State P, t.pendingEvals = 0 → t.phase = .adaptive → t.batchQueue.length ≤ 1 →
      t.afterGenerate cfg o = some (a, s') → (s'.phase = .adaptive → s'.batchQueue = []) ∧
      ∀ x k, a = .eval x k → (k = .adapt → s'.phase = .adaptive) ∧ (k = .init → s'.phase = .initial) := by
    intro t htp hph hlen ht
    unfold State.afterGenerate at ht
    split at ht
    · simp only [htp, beq_self_eq_true, Bool.or_true, if_true] at ht
      obtain ⟨h1, h2⟩ := hrest t ht
      refine ⟨by rw [h1]; simp, fun x k hk => ⟨fun h3 => ?_, fun _ => h1⟩⟩
      rw [h2 x k hk] at h3; simp at h3
    · simp only [Option.some.injEq] at ht
      unfold State.adaptProposal at ht
      split at ht
      · rename_i hpop
        simp only [Prod.mk.injEq] at ht
        obtain ⟨rfl, rfl⟩ := ht
        exact ⟨fun _ => popLast_none hpop, fun x k h => by simp at h⟩
      · rename_i x q hpop
        simp only [Prod.mk.injEq] at ht
        obtain ⟨rfl, rfl⟩ := ht
        have hl := congrArg List.length (popLast_some hpop)
        simp only [List.length_append, List.length_singleton] at hl
        refine ⟨fun _ => ?_, fun y k h => ?_⟩
        · simp only [State.makeProposal]
          exact List.eq_nil_of_length_eq_zero (by omega)
        · simp only [Action.eval.injEq] at h
          obtain ⟨_, rfl⟩ := h
          exact ⟨fun _ => hph, by simp⟩
  by_cases ht : s.terminate = true ∨ cfg.maxEvals ≤ s.numEvals + s.pendingEvals
  · rw [proposeAction_terminate ht] at h
    simp only [hp, if_true, Option.some.injEq, Prod.mk.injEq] at h
    obtain ⟨rfl, rfl⟩ := h
    exact ⟨hq, fun x k h => by simp at h⟩
  · simp only [not_or, not_le] at ht
    rw [proposeAction_going (by simpa using ht.1) ht.2] at h
    simp only [hp, beq_self_eq_true, Bool.or_true, if_true] at h
    split at h
    · split at h
      · obtain ⟨h1, h2⟩ := hrest s h
        refine ⟨by rw [h1]; simp, fun x k hk => ⟨fun h3 => ?_, fun _ => h1⟩⟩
        rw [h2 x k hk] at h3; simp at h3
      · simp only [Option.some.injEq, Prod.mk.injEq] at h
        obtain ⟨rfl, rfl⟩ := h
        exact ⟨hq, fun x k h => by simp at h⟩
    · split at h
      · rename_i hemp
        have hemp : s.batchQueue = [] := by simpa using hemp
        unfold State.adaptBranch at h
        simp only [hp, beq_self_eq_true, if_true] at h
        have key : ∀ (t₀ : State P) (n : Nat), t₀.pendingEvals = 0 → t₀.phase = .adaptive → t₀.batchQueue = [] → n ≤ 1 →
            (match t₀.generateEvals cfg o n with
            | none => none
            | some s => s.afterGenerate cfg o) = some (a, s') → (s'.phase = .adaptive → s'.batchQueue = []) ∧
            ∀ x k, a = .eval x k → (k = .adapt → s'.phase = .adaptive) ∧ (k = .init → s'.phase = .initial) := by
          intro t₀ n e1 e2 e3 hn hh
          split at hh
          · simp at hh
          · rename_i t hgen
            obtain ⟨g1, g2, g3⟩ := generateEvals_pending hgen
            refine hag t (by rw [g1]; exact e1) (by rw [g2]; exact e2) ?_ hh
            rcases g3 with g3 | g3 <;> rw [g3] <;> simp [e3]
            exact hn
        split at h
        · exact key { s with phase := .adaptive, pendingEvals := 0 } 1 rfl rfl hemp le_rfl h
        · rename_i hna
          rcases hc with hc | hc
          · exact absurd hc hna
          · exact key { s with phase := .adaptive, pendingEvals := 0 } cfg.batchSize rfl rfl hemp (by omega) h
      · rename_i hne
        split at h
        · rename_i hph
          unfold State.initProposal at h
          split at h
          · simp at h
          · simp only [Option.some.injEq, Prod.mk.injEq] at h
            obtain ⟨rfl, rfl⟩ := h
            have h1 : ∀ t : State P, ∀ y, (State.makeProposal t y).phase = t.phase := fun _ _ => rfl
            refine ⟨fun h3 => ?_, fun x k hk => ⟨fun h3 => ?_, fun _ => ?_⟩⟩
            · rw [h1] at h3; simp only [hph] at h3; simp at h3
            · simp only [Action.eval.injEq] at hk
              rw [← hk.2] at h3; simp at h3
            · rw [h1]; exact hph
        · rename_i hph
          exact absurd (by simpa using hq hph) hne

theorem mem_eraseIdx_of {α : Type} {l : List α} {i : Nat} {a : α} (h : a ∈ l.eraseIdx i) : a ∈ l :=
  List.mem_of_mem_eraseIdx h

theorem adjustStep_phase (sc : SrbfCfg) (z : Srbf) (v : Val) (s : State P) :
    (s.adjustStep cfg sc z v).phase = s.phase ∧ (s.adjustStep cfg sc z v).batchQueue = s.batchQueue := by
  unfold State.adjustStep
  simp only
  split <;> split <;> exact ⟨rfl, rfl⟩

theorem onCompleted_phase (s : State P) (x : P) (k : Kind) (v : Val) (ev : Nat) :
    (s.onCompleted cfg x k v ev).phase = s.phase ∧ (s.onCompleted cfg x k v ev).batchQueue = s.batchQueue := by
  have h1 : (s.recordCompleted x v ev).phase = s.phase ∧ (s.recordCompleted x v ev).batchQueue = s.batchQueue := by
    unfold State.recordCompleted State.removePending
    simp only
    split <;> exact ⟨rfl, rfl⟩
  unfold State.onCompleted
  simp only
  split
  · exact h1
  · split
    · unfold State.srbfCompleted
      split
      · split
        · rename_i sc z _ _ _ _
          obtain ⟨a, b⟩ := adjustStep_phase (cfg := cfg) sc z (minValue z.recordQueue v) (s.recordCompleted x v ev)
          exact ⟨a.trans h1.1, b.trans h1.2⟩
        · exact h1
      · exact h1
    · exact h1

theorem OneWorker.single (hc : cfg.asynchronous = true ∨ cfg.batchSize = 1) {w : Sys P} (h : OneWorker cfg w) : Single w := by
  induction h with
  | create o =>
    refine ⟨by simp [Sys.create, Sys.inflight], ?_, by simp [Sys.create], by simp [Sys.create], by simp [Sys.create],
      by simp [Sys.create]⟩
    intro hph
    have : (Sys.create cfg o).st.phase = .initial := by
      simp [Sys.create, create_eq, State.blank]
    rw [this] at hph
    simp at hph
  | @resume w h ih =>
    refine ⟨by simp [Sys.resumed, Sys.inflight], ?_, by simp [Sys.resumed], by simp [Sys.resumed], by simp [Sys.resumed],
      by simp [Sys.resumed]⟩
    intro hph
    simp only [Sys.resumed, State.resume, State.note] at hph ⊢
    rw [hph]
    simpa using ih.queue hph
  | @step w w' op h hal hs ih =>
    have hpend : w.st.pendingEvals = w.inflight.length := by
      have h2 := h.reach.book.pending
      simp only [Sys.inflight, List.length_append, List.length_map]
      omega
    have hone := ih.one
    simp only [Sys.inflight, List.length_append, List.length_map] at hone
    cases op with
    | propose o =>
      have hal : w.inflight = [] := hal
      have hp0 : w.st.pendingEvals = 0 := by rw [hpend, hal]; rfl
      have hpr : w.props = [] ∧ w.recs = [] := by
        simpa [Sys.inflight] using hal
      simp only [Sys.step] at hs
      split at hs
      · simp at hs
      · rename_i x k s hpa
        simp only [Option.some.injEq] at hs
        subst hs
        obtain ⟨h1, h2⟩ := proposeAction_single hc hp0 ih.queue hpa
        obtain ⟨h3, h4⟩ := h2 x k rfl
        refine ⟨by simp [Sys.inflight, hpr], h1, ?_, by simp [hpr], ?_, by simp [hpr]⟩
        · intro p hp hk
          simp only [hpr, List.nil_append, List.mem_singleton] at hp
          subst hp
          exact h3 hk
        · intro p hp hk
          simp only [hpr, List.nil_append, List.mem_singleton] at hp
          subst hp
          exact h4 hk
      · rename_i s hpa
        simp only [Option.some.injEq] at hs
        subst hs
        exact ⟨by simp [Sys.inflight, hpr], (proposeAction_single hc hp0 ih.queue hpa).1, by simp [hpr], by simp [hpr],
          by simp [hpr], by simp [hpr]⟩
      · rename_i s hpa
        simp only [Option.some.injEq] at hs
        subst hs
        exact ⟨by simp [Sys.inflight, hpr], (proposeAction_single hc hp0 ih.queue hpa).1, by simp [hpr], by simp [hpr],
          by simp [hpr], by simp [hpr]⟩
    | accept i =>
      simp only [Sys.step] at hs
      split at hs
      · simp at hs
      · rename_i p hp
        have hmem := List.mem_of_getElem? hp
        simp only [Option.some.injEq] at hs
        subst hs
        refine ⟨?_, ih.queue, fun q hq => ih.kindP q (List.mem_of_mem_eraseIdx hq), ?_,
          fun q hq => ih.kindP' q (List.mem_of_mem_eraseIdx hq), ?_⟩
        · have hi : i < w.props.length := by
            rw [List.getElem?_eq_some_iff] at hp
            exact hp.1
          simp only [Sys.inflight, List.length_append, List.length_map, List.length_eraseIdx, hi, if_true, List.length_singleton]
          omega
        · intro r hr hk
          rcases List.mem_append.mp hr with hr | hr
          · exact ih.kindR r hr hk
          · simp only [List.mem_singleton] at hr
            subst hr
            exact ih.kindP p hmem hk
        · intro r hr hk
          rcases List.mem_append.mp hr with hr | hr
          · exact ih.kindR' r hr hk
          · simp only [List.mem_singleton] at hr
            subst hr
            exact ih.kindP' p hmem hk
    | reject i =>
      simp only [Sys.step] at hs
      split at hs
      · simp at hs
      · rename_i p hp
        have hk : p.kind = .init := hal p hp
        have hph := ih.kindP' p (List.mem_of_getElem? hp) hk
        simp only [Option.some.injEq, hk] at hs
        subst hs
        have e : (((w.st.note (.rejected p.x .init)).onInitialRejected p.x)).phase = w.st.phase := rfl
        refine ⟨?_, fun h3 => ?_, fun q hq => ih.kindP q (List.mem_of_mem_eraseIdx hq), ih.kindR,
          fun q hq => ih.kindP' q (List.mem_of_mem_eraseIdx hq), ih.kindR'⟩
        · simp only [Sys.inflight, List.length_append, List.length_map, List.length_eraseIdx]
          split <;> omega
        · rw [e, hph] at h3
          simp at h3
    | complete i v =>
      simp only [Sys.step] at hs
      split at hs
      · simp at hs
      · rename_i r hr
        simp only [Option.some.injEq] at hs
        subst hs
        obtain ⟨e1, e2⟩ := onCompleted_phase (cfg := cfg) (w.st.note (.completed r.x r.kind v r.accAt)) r.x r.kind v r.evId
        refine ⟨?_, fun h3 => ?_, fun q hq hk => ?_, fun q hq hk => ?_, fun q hq hk => ?_, fun q hq hk => ?_⟩
        · simp only [Sys.inflight, List.length_append, List.length_map, List.length_eraseIdx]
          split <;> omega
        · rw [e2]; rw [e1] at h3; exact ih.queue h3
        · rw [e1]; exact ih.kindP q hq hk
        · rw [e1]; exact ih.kindR q (List.mem_of_mem_eraseIdx hq) hk
        · rw [e1]; exact ih.kindP' q hq hk
        · rw [e1]; exact ih.kindR' q (List.mem_of_mem_eraseIdx hq) hk
    | abort i =>
      simp only [Sys.step] at hs
      split at hs
      · simp at hs
      · rename_i r hr
        simp only [Option.some.injEq] at hs
        subst hs
        have e1 : ((w.st.note (.aborted r.x r.kind)).onAborted r.x r.kind r.evId).phase = w.st.phase := by
          unfold State.onAborted State.removePending
          cases r.kind <;> rfl
        have e2 : r.kind = .adapt →
            ((w.st.note (.aborted r.x r.kind)).onAborted r.x r.kind r.evId).batchQueue = w.st.batchQueue := by
          intro hk
          rw [hk]
          rfl
        have hmem := List.mem_of_getElem? hr
        refine ⟨?_, fun h3 => ?_, fun q hq hk => ?_, fun q hq hk => ?_, fun q hq hk => ?_, fun q hq hk => ?_⟩
        · simp only [Sys.inflight, List.length_append, List.length_map, List.length_eraseIdx]
          split <;> omega
        · rw [e1] at h3
          rcases hk : r.kind with _ | _
          · have := ih.kindR' r hmem hk
            rw [this] at h3; simp at h3
          · rw [← hk, e2 hk]; exact ih.queue h3
        · rw [e1]; exact ih.kindP q hq hk
        · rw [e1]; exact ih.kindR q (List.mem_of_mem_eraseIdx hq) hk
        · rw [e1]; exact ih.kindP' q hq hk
        · rw [e1]; exact ih.kindR' q (List.mem_of_mem_eraseIdx hq) hk
    | update i =>
      simp only [Sys.step] at hs
      split at hs
      · simp at hs
      · simp only [Option.some.injEq] at hs
        subst hs
        exact ih

/-! ## One step in both modes -/

theorem step_modes {w : Sys P} (hw : Single w) (hpend : w.st.pendingEvals = w.inflight.length) (op : Op P)
    (hal : Allowed w op) : w.step cfg.asynchronousMode op = w.step cfg.serialMode op := by
  cases op with
  | propose o =>
    have hal : w.inflight = [] := hal
    have hp0 : w.st.pendingEvals = 0 := by rw [hpend, hal]; rfl
    simp only [Sys.step]
    rw [proposeAction_modes o w.st hp0]
  | accept i => rfl
  | reject i =>
    simp only [Sys.step]
    split
    · rfl
    · rename_i p hp
      rw [hal p hp]
  | complete i v =>
    simp only [Sys.step]
    split
    · rfl
    · rename_i r hr
      congr 2
      have hmem := List.mem_of_getElem? hr
      have hlen : w.inflight.length = 1 := by
        have h1 := hw.one
        have : 0 < w.recs.length := List.length_pos_of_mem hmem
        simp only [Sys.inflight, List.length_append, List.length_map] at h1 ⊢
        omega
      unfold State.onCompleted
      rcases hk : r.kind with _ | _
      · rfl
      · have hq := hw.queue (hw.kindR r hmem hk)
        simp only
        have hsr : cfg.asynchronousMode.srbf = cfg.srbf ∧ cfg.serialMode.srbf = cfg.srbf := ⟨rfl, rfl⟩
        rw [hsr.1, hsr.2]
        split
        · rename_i sc z h1 h2
          unfold State.srbfCompleted
          split
          · have e1 : (State.recordCompleted (w.st.note (.completed r.x .adapt v r.accAt)) r.x v r.evId).batchQueue = [] := by
              unfold State.recordCompleted State.removePending
              simp only
              split <;> exact hq
            have e2 : (State.recordCompleted (w.st.note (.completed r.x .adapt v r.accAt)) r.x v r.evId).pendingEvals = 0 := by
              have : w.st.pendingEvals - 1 = 0 := by rw [hpend, hlen]; rfl
              unfold State.recordCompleted State.removePending
              simp only
              split <;> exact this
            simp only [e1, e2, Config.asynchronousMode, Config.serialMode, Bool.true_or, List.isEmpty_nil, beq_self_eq_true,
              Bool.and_self, Bool.or_true, if_true]
            unfold State.adjustStep maxfailtol
            have := failtol_modes (cfg := cfg) sc
            unfold Config.asynchronousMode Config.serialMode at this
            rw [this]
          · rfl
        · rfl
  | abort i => rfl
  | update i => rfl

end Verif.Strategy
