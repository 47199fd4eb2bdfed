import Verif.Props.Strategy

/-! # Exact forms of properties C05, C09, C17 and C20

The full statements of these properties are false of the code; here is what holds instead, without exceptions. -/

namespace Verif.Props

open Verif.Strategy Verif.Spec

variable {P : Type} [DecidableEq P] {cfg : Config P}

/-- Does this event end an evaluation of (or the waiting for) the point `x`? -/
def ends (x : P) : Event P → Bool
  | .rejected y _ => decide (y = x)
  | .completed y _ _ _ => decide (y = x)
  | .aborted y _ => decide (y = x)
  | .crashed _ => true
  | _ => false

/-- Was `x` proposed in this event? -/
def proposes (x : P) : Event P → Bool
  | .proposed y _ => decide (y = x)
  | _ => false

/-- How often `x` was proposed since an evaluation of the same point ended last. -/
def openSince (x : P) (log : List (Event P)) : Nat := (log.reverse.takeWhile fun e => !ends x e).countP (proposes x)

theorem openSince_nil (x : P) : openSince x [] = 0 := rfl

theorem openSince_snoc (x : P) (log : List (Event P)) (e : Event P) :
    openSince x (log ++ [e]) = if ends x e then 0 else openSince x log + if proposes x e then 1 else 0 := by
  unfold openSince
  rw [List.reverse_append, List.reverse_singleton, List.singleton_append, List.takeWhile_cons]
  cases ends x e <;> simp [List.countP_cons]

theorem count_filter_ne (l : List P) (x y : P) :
    (l.filter fun z => decide (z ≠ y)).count x = if y = x then 0 else l.count x := by
  by_cases h : y = x
  · subst h
    rw [if_pos rfl, List.count_eq_zero]
    simp
  · rw [if_neg h, List.count_filter (by simpa using fun h' => h h'.symm)]

theorem openSince_preserved (cfg : Config P) (x : P) : Preserved cfg fun w => w.st.Xpend.count x = openSince x w.st.log where
  create o := by simp [Sys.create, create_eq, State.blank, openSince, ends, proposes]
  setTerm w h _ := h
  setPhase w h _ _ _ := h
  gen w o n s' h a b c d e hg := by
    rcases generateEvals_cases hg with ⟨ws, z, rfl, hz⟩ | ⟨_, rfl, _⟩
    · simp only [openSince_snoc, ends, proposes]; simpa using h
    · exact h
  restart w o h a b c d := by rw [sampleRestart_eq]; simp only [openSince_snoc, ends, proposes]; simpa using h
  term w h _ _ := by simp only [State.note, openSince_snoc, ends, proposes]; simpa using h
  pop w y q k h _ _ _ _ := by
    simp only [State.note, State.makeProposal, openSince_snoc, ends, proposes, List.count_append, List.count_singleton, h]
    simp
  accept w i p h hp := by simp only [State.note, State.onAccept, openSince_snoc, ends, proposes]; simpa using h
  rejectInit w i p h hp hk := by
    rw [onInitialRejected_eq]
    simp only [State.note, openSince_snoc, ends, proposes, count_filter_ne, h, decide_eq_true_eq]
    simp
  rejectAdapt w i p h hp hk := by
    rw [onAdaptReject_eq]
    simp only [State.note, openSince_snoc, ends, proposes, count_filter_ne, h, decide_eq_true_eq]
    simp
  completed w i r v h hr := by
    rw [recordCompleted_eq]
    simp only [State.note, openSince_snoc, ends, proposes, count_filter_ne, h, decide_eq_true_eq]
    simp
  adjusted w sc' z v h hsc' hz hc hv := by
    rw [adjustStep_eq]
    simp only
    rw [← List.append_assoc]
    split
    · rw [openSince_snoc, openSince_snoc]; simpa [ends, proposes] using h
    · rw [List.append_nil, openSince_snoc]; simpa [ends, proposes] using h
  queued w z v h hz _ _ := h
  aborted w i r h hr := by
    rw [onAborted_eq]
    simp only [State.note, openSince_snoc, ends, proposes, count_filter_ne, h, decide_eq_true_eq]
    simp
  resume w h := by
    simp only [Sys.resumed, resume_eq, State.note, openSince_snoc, ends, proposes]
    simp

/-- Exactly how often a point is in `Xpend`: as often as it was proposed since an evaluation of the same point ended last. -/
theorem C05_count {w : Sys P} (h : Reach cfg w) (x : P) : w.st.Xpend.count x = openSince x w.st.log :=
  (openSince_preserved cfg x).reach h

/-- A run in which a point is in flight twice, and one in which a finished copy has taken another one along. -/
example : ∃ w, Reach { demo with extras := [(1, none)] } w ∧
    (decide (openSince 1 w.st.log = 2) && decide (w.inflight = [1, 1])) = true :=
  exists_reach (orc 0) [pr 100, .accept 0, pr 100, .accept 0] _ (by decide +kernel)

example : ∃ w, Reach { demo with extras := [(1, none)] } w ∧
    (decide (openSince 1 w.st.log = 0) && decide (w.inflight = [1])) = true :=
  exists_reach (orc 0) [pr 100, .accept 0, pr 100, .accept 0, .complete 0 3] _ (by decide +kernel)

/-- Exactly what `resume` puts back in the queue, in the initial phase: each point as often as it was proposed since an
evaluation of the same point ended last.  In the adaptive phase nothing. -/
theorem C17_requeued {w : Sys P} (h : Reach cfg w) : ∃ back : List P,
    w.resumed.st.batchQueue = w.st.batchQueue ++ back ∧
    ∀ x, back.count x = if w.st.phase = .initial then openSince x w.st.log else 0 := by
  refine ⟨if w.st.phase = .initial then w.st.Xpend else [], ?_, fun x => ?_⟩
  · simp [Sys.resumed, resume_eq, State.note]
  · split
    · exact C05_count h x
    · rfl

/-! ## C09 -/

/-- The number of evaluations lost in an event. -/
def lossesOf : Event P → Nat
  | .rejected _ _ => 1
  | .aborted _ _ => 1
  | .crashed l => l.length
  | _ => 0

/-- The number of evaluations lost in a part of a history: rejected, killed, or outstanding in a crash. -/
def losses (log : List (Event P)) : Nat := (log.map lossesOf).sum

omit [DecidableEq P] in
theorem losses_append (l m : List (Event P)) : losses (l ++ m) = losses l + losses m := by simp [losses]

omit [DecidableEq P] in
theorem losses_one (e : Event P) : losses [e] = lossesOf e := by simp [losses]

theorem losses_closed (cfg : Config P) (K : Int) : Closed cfg fun w => w.st.terminate = true ∧
    w.st.pendingEvals = (w.inflight.length : Int) ∧ w.st.numEvals + w.st.pendingEvals + (losses w.st.log : Int) = K where
  setTerm w h _ := ⟨rfl, h.2⟩
  setPhase w h hg _ _ := by have := hg.1; rw [h.1] at this; cases this
  gen w o n s' h hg _ _ _ _ _ := by have := hg.1; rw [h.1] at this; cases this
  restart w o h hg _ _ _ := by have := hg.1; rw [h.1] at this; cases this
  term w h _ _ := ⟨h.1, h.2.1, by simpa [State.note, losses_append, losses_one, lossesOf] using h.2.2⟩
  pop w y q k h hg _ _ _ := by have := hg.1; rw [h.1] at this; cases this
  accept w i p h hp := by
    have hi : i < w.props.length := (List.getElem?_eq_some_iff.mp hp).1
    refine ⟨h.1, ?_, by simpa [State.note, State.onAccept, losses_append, losses_one, lossesOf] using h.2.2⟩
    have := h.2.1
    simp only [State.note, State.onAccept, Sys.inflight, List.length_append, List.length_map, List.length_eraseIdx_of_lt hi,
      List.length_singleton] at this ⊢
    omega
  rejectInit w i p h hp hk := by
    have hi : i < w.props.length := (List.getElem?_eq_some_iff.mp hp).1
    rw [onInitialRejected_eq]
    have h1 := h.2.1
    have h2 := h.2.2
    simp only [State.note, Sys.inflight, List.length_append, List.length_map, List.length_eraseIdx_of_lt hi, losses_append,
      losses_one, lossesOf] at h1 h2 ⊢
    refine ⟨h.1, ?_, ?_⟩ <;> omega
  rejectAdapt w i p h hp hk := by
    have hi : i < w.props.length := (List.getElem?_eq_some_iff.mp hp).1
    rw [onAdaptReject_eq]
    have h1 := h.2.1
    have h2 := h.2.2
    simp only [State.note, Sys.inflight, List.length_append, List.length_map, List.length_eraseIdx_of_lt hi, losses_append,
      losses_one, lossesOf] at h1 h2 ⊢
    refine ⟨h.1, ?_, ?_⟩ <;> omega
  completed w i r v h hr := by
    have hi : i < w.recs.length := (List.getElem?_eq_some_iff.mp hr).1
    rw [recordCompleted_eq]
    have h1 := h.2.1
    have h2 := h.2.2
    simp only [State.note, Sys.inflight, List.length_append, List.length_map, List.length_eraseIdx_of_lt hi, losses_append,
      losses_one, lossesOf] at h1 h2 ⊢
    refine ⟨h.1, ?_, ?_⟩ <;> omega
  adjusted w sc' z v h hsc' hz hc hv := by
    rw [adjustStep_eq]
    refine ⟨h.1, h.2.1, ?_⟩
    simp only
    rw [losses_append]
    have : losses (([.adjusted (minValue z.recordQueue v)] : List (Event P)) ++
        if (z.adjust (failtol cfg sc') (maxfailtol cfg sc') (minValue z.recordQueue v)).2.1 then [.stepChange] else []) = 0 := by
      split <;> rfl
    rw [this]
    exact h.2.2
  queued w z v h hz _ _ := h
  aborted w i r h hr := by
    have hi : i < w.recs.length := (List.getElem?_eq_some_iff.mp hr).1
    rw [onAborted_eq]
    have h1 := h.2.1
    have h2 := h.2.2
    simp only [State.note, Sys.inflight, List.length_append, List.length_map, List.length_eraseIdx_of_lt hi, losses_append,
      losses_one, lossesOf] at h1 h2 ⊢
    refine ⟨h.1, ?_, ?_⟩ <;> omega
  resume w h := by
    have h1 := h.2.1
    have h2 := h.2.2
    simp only [Sys.resumed, resume_eq, State.note, losses_append, losses_one, lossesOf] at h2 ⊢
    refine ⟨h.1, rfl, ?_⟩
    omega

/-- A call of `propose_action` sets the flag only if the budget is charged completely. -/
theorem going_terminate {w w1 : Sys P} {o : Oracle P} (hs : w.step cfg (.propose o) = some w1) (h0 : w.st.terminate = false)
    (hlt : w.st.numEvals + w.st.pendingEvals < cfg.maxEvals) : w1.st.terminate = false := by
  have key : ∀ a s', w.st.proposeAction cfg o = some (a, s') → s'.terminate = false := by
    intro a s' h
    rw [proposeAction_going h0 hlt] at h
    have hi : ∀ t : State P, t.terminate = false → t.initProposal = some (a, s') → s'.terminate = false := by
      intro t ht hh
      unfold State.initProposal at hh
      split at hh
      · cases hh
      · simp only [Option.some.injEq, Prod.mk.injEq] at hh; rw [← hh.2]; exact ht
    have had : ∀ t : State P, t.terminate = false → t.adaptProposal = (a, s') → s'.terminate = false := by
      intro t ht hh
      unfold State.adaptProposal at hh
      split at hh
      · simp only [Prod.mk.injEq] at hh; rw [← hh.2]; exact ht
      · simp only [Prod.mk.injEq] at hh; rw [← hh.2]; exact ht
    have hag : ∀ t : State P, t.terminate = false → t.afterGenerate cfg o = some (a, s') → s'.terminate = false := by
      intro t ht hh
      unfold State.afterGenerate at hh
      split at hh
      · split at hh
        · exact hi _ (by simpa using ht) hh
        · simp only [Option.some.injEq, Prod.mk.injEq] at hh; rw [← hh.2]; exact ht
      · exact had t ht (by simpa using hh)
    have hgen : ∀ n s1, State.generateEvals cfg o n { w.st with phase := .adaptive } = some s1 → s1.terminate = false := by
      intro n s1 hg
      rcases generateEvals_cases hg with ⟨ws, z, rfl, _⟩ | ⟨_, rfl, _⟩ <;> exact h0
    split at h
    · split at h
      · split at h
        · exact hi _ (by simpa using h0) h
        · simp only [Option.some.injEq, Prod.mk.injEq] at h; rw [← h.2]; exact h0
      · simp only [Option.some.injEq, Prod.mk.injEq] at h; rw [← h.2]; exact h0
    · split at h
      · unfold State.adaptBranch at h
        simp only at h
        split at h
        · split at h
          · cases h
          · rename_i s1 hg; exact hag _ (hgen _ _ hg) h
        · split at h
          · split at h
            · cases h
            · rename_i s1 hg; exact hag _ (hgen _ _ hg) h
          · exact hag { w.st with phase := .adaptive } h0 h
      · split at h
        · exact hi _ h0 h
        · exact had _ h0 (by simpa using h)
  simp only [Sys.step] at hs
  split at hs
  · cases hs
  all_goals
    rename_i heq
    simp only [Option.some.injEq] at hs
    subst hs
    have := key _ _ heq
    exact this

/-- The exact number of evaluations of a terminated run.  Let the call of `propose_action` at `w0` be the one that sets the
attribute `terminate`, and let the strategy propose to terminate later (at `w`).  Then `max_evals` minus the number of evaluations
that were lost in between (rejected, killed, or outstanding in a crash) have been completed. -/
theorem C09_count {w0 w1 w : Sys P} (h : Reach cfg w0) (hm : 0 ≤ cfg.maxEvals) (h0 : w0.st.terminate = false) {o0 : Oracle P}
    (hs : w0.step cfg (.propose o0) = some w1) (h1 : w1.st.terminate = true) (hl : Later cfg w1 w) {o : Oracle P} {s' : State P}
    (hp : w.st.proposeAction cfg o = some (.terminate, s')) :
    (completions w.st.log).length + (losses (w.st.log.drop w1.st.log.length) : Int) = cfg.maxEvals := by
  have hr1 : Reach cfg w1 := .step _ h hs
  have hr := hr1.later hl
  have hfull : cfg.maxEvals ≤ w0.st.numEvals + w0.st.pendingEvals := by
    by_contra hlt
    push Not at hlt
    have hg := going_terminate hs h0 hlt
    rw [hg] at h1
    cases h1
  have h01 : w1.st.numEvals = w0.st.numEvals ∧ w1.st.pendingEvals = w0.st.pendingEvals := by
    simp only [Sys.step] at hs
    rw [proposeAction_terminate (.inr hfull)] at hs
    split_ifs at hs <;> simp only [Option.some.injEq] at hs <;> subst hs <;> exact ⟨rfl, rfl⟩
  have hb := C01_budget hr1
  obtain ⟨_, e2, e3⟩ := (losses_closed cfg _).later hl ⟨h1, C02_pending_exact hr1, rfl⟩
  obtain ⟨m, hm'⟩ := hl.log
  have hd : w.st.log.drop w1.st.log.length = m := by rw [← hm', List.drop_left]
  rw [hd]
  rw [← hm', losses_append] at e3
  have h3 := hr1.book.num
  have h4 := C02_pending_exact hr1
  have h5 := hr.book.num
  have h6 := (proposeAction_terminate_iff hp).2
  omega

/-- One evaluation is killed after the flag was set: two of three are completed. -/
example : ∃ (w0 w1 w : Sys Nat), Reach { demo with maxEvals := 3 } w0 ∧ w0.st.terminate = false ∧
    w0.step { demo with maxEvals := 3 } (pr 100) = some w1 ∧ w1.st.terminate = true ∧
    w1.step { demo with maxEvals := 3 } (.abort 0) = some w ∧
    (w.st.proposeAction { demo with maxEvals := 3 } (orc 0)).map Prod.fst = some .terminate ∧
    losses (w.st.log.drop w1.st.log.length) = 1 ∧ (completions w.st.log).length = 2 := by
  obtain ⟨w0, h1, h2⟩ := exists_reach (cfg := { demo with maxEvals := 3 }) (orc 0)
    [pr 100, .accept 0, .complete 0 1, pr 100, .accept 0, .complete 0 1, pr 100, .accept 0]
    (fun w => decide (w.st.terminate = false) && ((w.step { demo with maxEvals := 3 } (pr 100)).any fun w1 =>
      decide (w1.st.terminate = true) && ((w1.step { demo with maxEvals := 3 } (.abort 0)).any fun w =>
        decide ((w.st.proposeAction { demo with maxEvals := 3 } (orc 0)).map Prod.fst = some .terminate) &&
        decide (losses (w.st.log.drop w1.st.log.length) = 1) && decide ((completions w.st.log).length = 2))))
    (by decide +kernel)
  simp only [Bool.and_eq_true, decide_eq_true_eq, Option.any_eq_true] at h2
  obtain ⟨a, w1, hs, b, w, hs', ⟨c, d⟩, e⟩ := h2
  exact ⟨w0, w1, w, h1, a, hs, b, hs', c, d, e⟩

/-! ## C20 -/

/-- Exactly when a resumed snapshot goes on: iff the attribute `terminate` was not set in it and fewer than `max_evals`
evaluations are completed. -/
theorem C20_iff (hs : Sane cfg) {w : Sys P} (h : Reach cfg w) (o : Oracle P)
    (hr : cfg.useRestarts = true ∨ (w.st.converged = false ∧ (cfg.srbf.isSome = true ∨ o.giveUp = false))) :
    (∃ x k s', w.resumed.st.proposeAction cfg o = some (.eval x k, s')) ↔
      w.st.terminate = false ∧ ((completions w.st.log).length : Int) < cfg.maxEvals := by
  have hn := h.book.num
  constructor
  · rintro ⟨x, k, s', hp⟩
    by_contra hc
    rw [proposeAction_terminate (by
      cases ht : w.st.terminate with
      | true => left; simpa [Sys.resumed, resume_eq, State.note] using ht
      | false =>
        right
        simp only [ht, true_and, not_lt] at hc
        simp only [Sys.resumed, resume_eq, State.note]
        omega)] at hp
    simp only [Option.some.injEq, Prod.mk.injEq] at hp
    have := hp.1
    split_ifs at this
  · rintro ⟨ht, hlt⟩
    refine proposeAction_eval hs (.resume h) o (by simpa [Sys.resumed, resume_eq, State.note] using ht) ?_ (.inr ?_) ?_
    · simp only [Sys.resumed, resume_eq, State.note]
      omega
    · simp [Sys.resumed, resume_eq, State.note]
    · simpa [Sys.resumed, resume_eq, State.note] using hr

/-- A crash with the budget charged, but before the flag was set: the resumed run goes on. -/
example : ∃ w, Reach { demo with maxEvals := 3 } w ∧ (decide (w.st.terminate = false) &&
    decide (charged w.st.log = 3) && decide ((completions w.st.log).length = 1)) = true :=
  exists_reach (orc 0) [pr 100, .accept 0, .complete 0 1, pr 100, .accept 0, pr 100, .accept 0] _ (by decide +kernel)

/-! ## C11: exactly when the strategy has nothing to propose -/

/-- The budget is used: by completed and outstanding evaluations, or it was so in an earlier call (attribute `terminate`). -/
def Closing (cfg : Config P) (w : Sys P) : Prop :=
  w.st.terminate = true ∨ cfg.maxEvals ≤ (((completions w.st.log).length + w.inflight.length : Nat) : Int)

/-- No evaluation can be proposed although the budget is not used: a batch is being finished (synchronous mode), or the run
is over and must not be restarted. -/
def Stalled (cfg : Config P) (w : Sys P) (o : Oracle P) : Prop :=
  (cfg.asynchronous = false ∧ w.inflight ≠ [] ∧ (w.st.converged = true ∨ w.st.batchQueue = [])) ∨
  (cfg.useRestarts = false ∧ (w.st.converged = true ∨
    (w.st.batchQueue = [] ∧ cfg.srbf = none ∧ o.giveUp = true ∧ (cfg.asynchronous = true ∨ w.inflight = []))))

/-- The answer of `propose_action` in every reachable state: it terminates iff the budget is used and nothing is outstanding; it
has nothing to propose iff the budget is used and something is outstanding, a synchronous batch is being finished, or the run is
over and restarts are disabled; otherwise it proposes an evaluation.  It never raises an exception. -/
theorem C11_answer (hs : Sane cfg) {w : Sys P} (h : Reach cfg w) (o : Oracle P) :
    ∃ a s', w.st.proposeAction cfg o = some (a, s') ∧
      (a = .terminate ↔ Closing cfg w ∧ w.inflight = []) ∧
      (a = .nothing ↔ (Closing cfg w ∧ w.inflight ≠ []) ∨ (¬ Closing cfg w ∧ Stalled cfg w o)) := by
  have hp := C02_pending_exact h
  have hn := (C03_history h).2.2
  have hp0 : w.st.pendingEvals = 0 ↔ w.inflight = [] := by
    rw [hp]; simp
  have hcl : Closing cfg w ↔ (w.st.terminate = true ∨ cfg.maxEvals ≤ w.st.numEvals + w.st.pendingEvals) := by
    unfold Closing; rw [hn, hp]; push_cast; rfl
  by_cases ht : Closing cfg w
  · rw [proposeAction_terminate (hcl.1 ht)]
    refine ⟨_, _, rfl, ?_, ?_⟩
    · by_cases hi : w.inflight = []
      · rw [if_pos (hp0.2 hi)]; simp [ht, hi]
      · rw [if_neg (fun hh => hi (hp0.1 hh))]; simp [hi]
    · by_cases hi : w.inflight = []
      · rw [if_pos (hp0.2 hi)]; simp [ht, hi]
      · rw [if_neg (fun hh => hi (hp0.1 hh))]; simp [ht, hi]
  · have ht' : ¬ (w.st.terminate = true ∨ cfg.maxEvals ≤ w.st.numEvals + w.st.pendingEvals) := fun hh => ht (hcl.2 hh)
    simp only [not_or, not_le] at ht'
    have hone : ∀ {x : P} {k : Kind} {s' : State P}, w.st.proposeAction cfg o = some (.eval x k, s') → ¬ Stalled cfg w o →
        ∃ a s', w.st.proposeAction cfg o = some (a, s') ∧ (a = .terminate ↔ Closing cfg w ∧ w.inflight = []) ∧
          (a = .nothing ↔ (Closing cfg w ∧ w.inflight ≠ []) ∨ (¬ Closing cfg w ∧ Stalled cfg w o)) :=
      fun hh hst => ⟨_, _, hh, by simp [ht], by simp [ht, hst]⟩
    have htwo : ∀ {s' : State P}, w.st.proposeAction cfg o = some (.nothing, s') → Stalled cfg w o →
        ∃ a s', w.st.proposeAction cfg o = some (a, s') ∧ (a = .terminate ↔ Closing cfg w ∧ w.inflight = []) ∧
          (a = .nothing ↔ (Closing cfg w ∧ w.inflight ≠ []) ∨ (¬ Closing cfg w ∧ Stalled cfg w o)) :=
      fun hh hst => ⟨_, _, hh, by simp [ht], by simp [ht, hst]⟩
    by_cases hst : Stalled cfg w o
    · have hg := proposeAction_going (o := o) (by simpa using ht'.1) ht'.2
      rcases hst with ⟨ha, hi, hq⟩ | ⟨hr, hq⟩
      · have hpe : (cfg.asynchronous || w.st.pendingEvals == 0) = false := by
          rw [ha, Bool.false_or, beq_eq_false_iff_ne]; exact fun hh => hi (hp0.1 hh)
        have hpe' : (w.st.pendingEvals == 0) = false := by simpa [ha] using hpe
        cases hcv : w.st.converged with
        | true =>
          cases hur : cfg.useRestarts with
          | true => exact htwo (by rw [hg]; simp [hcv, hur, hpe]; rfl) (.inl ⟨ha, hi, hq⟩)
          | false => exact htwo (by rw [hg]; simp [hcv, hur]; rfl) (.inl ⟨ha, hi, hq⟩)
        | false =>
          have hq' : w.st.batchQueue = [] := by simpa [hcv] using hq
          refine htwo (s' := { w.st with phase := .adaptive }) ?_ (.inl ⟨ha, hi, hq⟩)
          rw [hg]
          simp [hcv, hq', State.adaptBranch, ha, hpe', State.afterGenerate, State.adaptProposal, popLast]
      · cases hcv : w.st.converged with
        | true => exact htwo (by rw [hg]; simp [hcv, hr]; rfl) (.inr ⟨hr, hq⟩)
        | false =>
          obtain ⟨hq', hsr, hgu, hai⟩ : w.st.batchQueue = [] ∧ cfg.srbf = none ∧ o.giveUp = true ∧
            (cfg.asynchronous = true ∨ w.inflight = []) := by simpa [hcv] using hq
          refine htwo (s' := { w.st with phase := .adaptive, converged := true }) ?_ (.inr ⟨hr, hq⟩)
          rw [hg]
          cases ha : cfg.asynchronous with
          | true =>
            simp [hcv, hq', State.adaptBranch, ha, State.generateEvals, hsr, hgu, State.afterGenerate, hr, State.adaptProposal, popLast]
          | false =>
            have hi : w.st.pendingEvals = 0 := hp0.2 (by simpa [ha] using hai)
            simp [hcv, hq', State.adaptBranch, ha, hi, State.generateEvals, hsr, hgu, State.afterGenerate, hr, State.adaptProposal,
              popLast]
    · by_cases hai : cfg.asynchronous = true ∨ w.inflight = []
      · have hr : cfg.useRestarts = true ∨ w.st.converged = false ∧ (cfg.srbf.isSome = true ∨ o.giveUp = false ∨ w.st.batchQueue ≠ []) := by
          by_contra hc
          apply hst
          right
          simp only [not_or, not_and, Bool.not_eq_true, Option.isSome_eq_false_iff, Option.isNone_iff_eq_none, ne_eq, not_not,
            Bool.not_eq_false] at hc
          refine ⟨hc.1, ?_⟩
          cases hcv : w.st.converged with
          | true => exact .inl rfl
          | false => obtain ⟨a, b, c⟩ := hc.2 hcv; exact .inr ⟨c, a, b, hai⟩
        by_cases hq : w.st.batchQueue = []
        · obtain ⟨x, k, s', h1⟩ := proposeAction_eval hs h o (by simpa using ht'.1) ht'.2 (hai.imp id hp0.2) (by
            simpa [hq] using hr)
          exact hone h1 hst
        · cases hcv : w.st.converged with
          | true =>
            have hr' : cfg.useRestarts = true := by simpa [hcv] using hr
            obtain ⟨x, k, s', h1⟩ := proposeAction_eval hs h o (by simpa using ht'.1) ht'.2 (hai.imp id hp0.2) (.inl hr')
            exact hone h1 hst
          | false =>
            have hg := proposeAction_going (o := o) (by simpa using ht'.1) ht'.2
            cases hph : w.st.phase with
            | initial =>
              obtain ⟨x, s', h1⟩ := initProposal_eval hq
              exact hone (by rw [hg]; simp [hcv, hq, hph]; exact h1) hst
            | adaptive =>
              obtain ⟨x, s', h1⟩ := adaptProposal_eval hq
              exact hone (by rw [hg]; simp [hcv, hq, hph]; exact h1) hst
      · simp only [not_or, Bool.not_eq_true] at hai
        have hcq : w.st.converged = false ∧ w.st.batchQueue ≠ [] := by
          by_contra hc
          apply hst
          left
          refine ⟨hai.1, hai.2, ?_⟩
          cases hcv : w.st.converged with
          | true => exact .inl rfl
          | false => right; by_contra hq; exact hc ⟨hcv, hq⟩
        have hg := proposeAction_going (o := o) (by simpa using ht'.1) ht'.2
        cases hph : w.st.phase with
        | initial =>
          obtain ⟨x, s', h1⟩ := initProposal_eval hcq.2
          exact hone (by rw [hg]; simp [hcq, hph]; exact h1) hst
        | adaptive =>
          obtain ⟨x, s', h1⟩ := adaptProposal_eval hcq.2
          exact hone (by rw [hg]; simp [hcq, hph]; exact h1) hst

end Verif.Props
