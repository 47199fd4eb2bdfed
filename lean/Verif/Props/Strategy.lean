import Verif.Strategy.Serial
import Verif.Strategy.Inv8

/-!
# Properties C01–C17, C20–C24, C62, C63 of the surrogate strategies

Vocabulary: `Reach cfg w` – `w` is a state of the strategy together with the outstanding proposals and running
records, after any finite sequence of environment events, crashes and resumes; `w.inflight` – the points that are
proposed or running; `w.st.log` – the history, recorded by the environment; the functions of a history are in
`Verif/Strategy/Spec.lean`.
-/

namespace Verif.Props

open Verif.Strategy Verif.Spec

variable {P : Type} [DecidableEq P] {cfg : Config P}

/-- A concrete run reaches a state with the property `p`. -/
theorem exists_reach (o : Oracle P) (ops : List (Op P)) (p : Sys P → Bool)
    (h : ((Sys.create cfg o).steps cfg ops).any p = true) : ∃ w, Reach cfg w ∧ p w = true := by
  cases hw : (Sys.create cfg o).steps cfg ops with
  | none => rw [hw] at h; simp at h
  | some w => rw [hw] at h; exact ⟨w, (Reach.create o).steps hw, by simpa using h⟩

omit [DecidableEq P] in
theorem known_eq : knownExtras cfg = known cfg.extras := by
  unfold knownExtras known
  congr 1
  funext e
  cases e.2 <;> rfl

omit [DecidableEq P] in
theorem unknown_eq : unknownExtras cfg = unknown cfg.extras := by
  unfold unknownExtras unknown
  induction cfg.extras with
  | nil => rfl
  | cons e l ih =>
    rw [List.filterMap_cons, List.filter_cons]
    cases h : e.2 <;> simp [ih]

/-! ## Concrete runs used as witnesses -/

/-- Asynchronous EI/LCB-like strategy on points named by numbers, two design points, one known and one unknown
extra point, budget 6. -/
def demo : Config Nat where
  asynchronous := true
  batchSize := 2
  maxEvals := 6
  useRestarts := true
  numPts := 2
  extras := [(10, some 5), (11, none)]
  srbf := none

/-- Oracle: design points 0, 1, …; adaptive points `n`, `n+1`, …. -/
def orc (n : Nat) (g : Bool := false) : Oracle Nat where
  design i := i
  pts i := n + i
  giveUp := g

def pr (n : Nat) : Op Nat := .propose (orc n)

/-- Three initial evaluations, then adaptive ones, a rejection, an abortion, a restart. -/
def demoOps : List (Op Nat) :=
  [pr 100, .accept 0, pr 100, .accept 0, .complete 0 3, pr 100, .accept 0, .complete 0 7, .complete 0 1,
   pr 101, .accept 0, pr 102, .reject 0, pr 103, .accept 0, .abort 0, .propose (orc 0 true), .accept 0,
   .complete 0 2]

example : ∃ w, Reach demo w ∧ (decide (w.st.X = [10, 11, 1, 0, 103]) && decide (w.inflight = [1])
    && decide (w.st.fevals.length = 5)) = true :=
  exists_reach (orc 0) demoOps _ (by decide +kernel)

/-! ## C01: the budget -/

/-- At every moment, completed plus proposed plus running evaluations are at most `max_evals`. -/
theorem C01_budget {w : Sys P} (h : Reach cfg w) :
    (((completions w.st.log).length + w.inflight.length : Nat) : Int) ≤ max cfg.maxEvals 0 ∧
    w.st.numEvals + w.st.pendingEvals ≤ max cfg.maxEvals 0 := by
  have hb := h.book
  have h1 := hb.num
  have h2 := hb.pending
  have h3 := hb.budget
  simp only [Sys.inflight, List.length_append, List.length_map]
  omega

/-! ## C02: the pending counter -/

theorem C02_pending_exact {w : Sys P} (h : Reach cfg w) : w.st.pendingEvals = w.inflight.length := by
  have h2 := h.book.pending
  simp only [Sys.inflight, List.length_append, List.length_map]
  omega

/-! ## C03: the history -/

/-- `X`, `fX` are the known extra points followed by the completed evaluations; `num_evals` counts the latter. -/
theorem C03_history {w : Sys P} (h : Reach cfg w) :
    w.st.X = (known cfg.extras ++ completions w.st.log).map Prod.fst ∧
    w.st.fX = (known cfg.extras ++ completions w.st.log).map Prod.snd ∧
    w.st.numEvals = (completions w.st.log).length := by
  have hb := h.book
  rw [← known_eq]
  exact ⟨by rw [hb.X, List.map_append], by rw [hb.fX, List.map_append], hb.num⟩

/-- Nothing is ever removed or altered: later values extend earlier ones. -/
theorem C03_append_only {w w' : Sys P} (h : Reach cfg w) (hl : Later cfg w w') :
    w.st.X <+: w'.st.X ∧ w.st.fX <+: w'.st.fX ∧ w.st.fevals.map (fun f => (f.x, f.value)) <+:
      w'.st.fevals.map (fun f => (f.x, f.value)) := by
  obtain ⟨m, hm⟩ := hl.log
  have hb := h.book
  have hb' := (h.later hl).book
  rw [hb.X, hb'.X, hb.fX, hb'.fX, hb.fevals, hb'.fevals, ← hm, completions_append, finished_append]
  simp only [List.map_append, ← List.append_assoc]
  exact ⟨List.prefix_append _ _, List.prefix_append _ _, List.prefix_append _ _⟩

/-! ## C04: the record log -/

theorem C04_record_log {w : Sys P} (h : Reach cfg w) :
    w.st.fevals.map (fun f => (f.x, f.value)) = finished w.st.log ∧
    (w.st.fevals.map Finished.evId).Nodup ∧
    w.st.acceptedCount = (acceptedIds w.st.log).length ∧
    w.st.rejectedCount = (rejections w.st.log).length :=
  ⟨h.book.fevals, (List.nodup_append.1 h.uniq.nodup).1, h.book.acc, h.book.rej⟩

/-! ## C05: `Xpend` -/

/-- Full statement: `Xpend` is a permutation of the in-flight points.  It is false in general (`C05_refuted`).
Proved: `Xpend` never contains a point more often than it is in flight, and it is exactly the list of in-flight
points as long as no point was ever in flight twice at the same time. -/
theorem C05_xpend_partial {w : Sys P} (h : Reach cfg w) :
    (∀ x, w.st.Xpend.count x ≤ w.inflight.count x) ∧
    ((∀ l, l <+: w.st.log → (openPoints l).Nodup) → w.st.Xpend.Perm w.inflight) := by
  refine ⟨h.xpend.le, fun hn => ?_⟩
  rw [List.perm_iff_count]
  intro x
  exact h.xpend.eq x fun l hl => List.nodup_iff_count.1 (hn l hl) x

example : ∃ w, Reach demo w ∧ (decide (w.st.Xpend = [11, 1]) && decide (w.inflight = [11, 1])
    && decide (∀ l ∈ w.st.log.inits, (openPoints l).Nodup)) = true :=
  exists_reach (orc 0) [pr 100, .accept 0, pr 100, .accept 0] _ (by decide +kernel)

/-- A design with a repeated point (also an extra point equal to a design point): when one of the two
evaluations finishes, the other one disappears from `Xpend` (`remove_pending` deletes all equal rows). -/
theorem C05_refuted : ∃ (cfg : Config Nat) (w : Sys Nat), Reach cfg w ∧ ¬ w.st.Xpend.Perm w.inflight := by
  obtain ⟨w, h1, h2⟩ := exists_reach (cfg := { demo with extras := [(1, none)] }) (orc 0)
    [pr 100, .accept 0, pr 100, .accept 0, .complete 0 3]
    (fun w => decide (w.st.Xpend = []) && decide (w.inflight = [1])) (by decide +kernel)
  simp only [Bool.and_eq_true, decide_eq_true_eq] at h2
  exact ⟨_, w, h1, by rw [h2.1, h2.2]; simp⟩

/-! ## C06: conservation of work -/

theorem C06_conservation {w : Sys P} (h : Reach cfg w) :
    (queuedBy w.st.log).Perm (w.st.batchQueue ++ w.inflight ++ (completions w.st.log).map Prod.fst ++
      droppedBy cfg.asynchronous w.st.log ++ crashedBy w.st.log) := by
  rw [List.perm_iff_count]
  intro x
  have := h.ledger x
  simp only [Sys.inflight, List.count_append]
  omega

/-! ## C07: initial evaluations are retried -/

/-- A rejected initial proposal goes back to the queue. -/
theorem C07_rejected {w w' : Sys P} {i : Nat} {p : Proposal P} (hp : w.props[i]? = some p) (hk : p.kind = .init)
    (hs : w.step cfg (.reject i) = some w') : w'.st.batchQueue = w.st.batchQueue ++ [p.x] := by
  simp only [Sys.step, hp, hk, Option.some.injEq] at hs
  subst hs
  simp [onInitialRejected_eq, State.note]

/-- An aborted initial evaluation goes back to the queue. -/
theorem C07_aborted {w w' : Sys P} {i : Nat} {r : Rec P} (hr : w.recs[i]? = some r) (hk : r.kind = .init)
    (hs : w.step cfg (.abort i) = some w') : w'.st.batchQueue = w.st.batchQueue ++ [r.x] := by
  simp only [Sys.step, hr, hk, Option.some.injEq] at hs
  subst hs
  simp [onAborted_eq, State.note]

/-- Full statement: no point of an initial design is ever dropped before it has been evaluated.  It is false
(`C07_refuted`).  Proved: while the first run is in its initial phase nothing at all is dropped, so every design
point is queued, in flight, completed, or was in flight when the process died. -/
theorem C07_initial_partial {w : Sys P} (h : Reach cfg w) (hp : w.st.phase = .initial)
    (hr : restarted w.st.log = false) :
    droppedBy cfg.asynchronous w.st.log = [] ∧
    (queuedBy w.st.log).Perm (w.st.batchQueue ++ w.inflight ++ (completions w.st.log).map Prod.fst ++
      crashedBy w.st.log) := by
  have hk := h.kinds
  have hd : droppedBy cfg.asynchronous w.st.log = [] := by
    unfold droppedBy
    rw [List.filterMap_eq_nil_iff]
    intro e he
    cases e with
    | rejected x k =>
      cases k with
      | init => rfl
      | adapt => exact absurd (hk.rejected x _ he) (hk.initial hp hr x)
    | aborted x k =>
      cases k with
      | init => rfl
      | adapt => exact absurd (hk.aborted x _ he) (hk.initial hp hr x)
    | _ => rfl
  refine ⟨hd, ?_⟩
  have := C06_conservation h
  rw [hd] at this
  simpa using this

example : ∃ w, Reach demo w ∧ (decide (w.st.phase = .initial) && !restarted w.st.log &&
    decide (w.st.batchQueue = [0, 1, 11])) = true :=
  exists_reach (orc 0) [pr 100, .accept 0, pr 100, .reject 0, .abort 0] _ (by decide +kernel)

/-- The last design point is aborted after the queue ran empty (the phase is then already "adaptive"), is proposed
again as an adaptive point, aborted again, and is lost without ever being evaluated. -/
theorem C07_refuted : ∃ (cfg : Config Nat) (w : Sys Nat) (x : Nat), Reach cfg w ∧
    (∃ q, w.st.log.head? = some (.start q) ∧ x ∈ q) ∧ x ∉ w.st.batchQueue ∧ x ∉ w.inflight ∧
    x ∉ (completions w.st.log).map Prod.fst ∧ crashedBy w.st.log = [] := by
  obtain ⟨w, h1, h2⟩ := exists_reach (cfg := { demo with extras := [] }) (orc 0)
    [pr 100, .accept 0, pr 100, .accept 0, .complete 0 3, pr 100, .accept 0, .complete 1 4, .abort 0, pr 100,
      .accept 0, .abort 0]
    (fun w => decide (w.st.log.head? = some (.start [0, 1])) && decide (0 ∉ w.st.batchQueue) &&
      decide (0 ∉ w.inflight) && decide (0 ∉ (completions w.st.log).map Prod.fst) &&
      decide (crashedBy w.st.log = [])) (by decide +kernel)
  simp only [Bool.and_eq_true, decide_eq_true_eq] at h2
  obtain ⟨⟨⟨⟨a, b⟩, c⟩, d⟩, e⟩ := h2
  exact ⟨_, w, 0, h1, ⟨_, a, by simp⟩, b, c, d, e⟩

/-! ## C08: termination protocol -/

/-- Termination is proposed only when nothing is outstanding and the whole budget had been charged (by completed
and outstanding evaluations) at some moment. -/
theorem C08_terminate_only_if {w : Sys P} (h : Reach cfg w) {o : Oracle P} {s' : State P}
    (hp : w.st.proposeAction cfg o = some (.terminate, s')) :
    w.inflight = [] ∧ ∃ l, l <+: w.st.log ∧ cfg.maxEvals ≤ (charged l : Int) := by
  obtain ⟨h1, h2⟩ := proposeAction_terminate_iff hp
  have h3 := C02_pending_exact h
  rw [h2] at h3
  refine ⟨by simpa using h3.symm, ?_⟩
  rcases h1 with h1 | h1
  · exact h.term.reached h1
  · exact ⟨w.st.log, List.prefix_refl _, by rw [h.book.charged]; exact h1⟩

/-- When `propose_action` is called while the budget is charged completely, then from then on (also after failures,
crashes and resumes) no evaluation is ever proposed again, and every call with nothing outstanding terminates. -/
theorem C08_terminates {w w1 w' : Sys P} (h : Reach cfg w)
    (hb : cfg.maxEvals ≤ (((completions w.st.log).length + w.inflight.length : Nat) : Int))
    {o0 : Oracle P} (hs : w.step cfg (.propose o0) = some w1) (hl : Later cfg w1 w') (o : Oracle P) :
    ∃ s', w'.st.proposeAction cfg o =
      some (if w'.inflight = [] then .terminate else .nothing, s') := by
  have hc : cfg.maxEvals ≤ w.st.numEvals + w.st.pendingEvals := by
    rw [C02_pending_exact h, (C03_history h).2.2]; exact_mod_cast hb
  have ht1 : w1.st.terminate = true := by
    simp only [Sys.step, proposeAction_terminate (o := o0) (.inr hc : w.st.terminate = true ∨ _)] at hs
    split at hs <;> simp_all
    all_goals (subst hs; simp_all [State.note])
    all_goals grind
  have ht : w'.st.terminate = true := (terminate_closed cfg).later hl ht1
  refine ⟨{ w'.st with terminate := true }, ?_⟩
  rw [proposeAction_terminate (.inl ht)]
  have h1 : Reach cfg w' := ((Reach.step _ h hs).later hl)
  have h2 := C02_pending_exact h1
  by_cases hi : w'.inflight = []
  · rw [if_pos (by rw [h2, hi]; rfl), if_pos hi]
  · rw [if_neg (by rw [h2]; simpa using hi), if_neg hi]

/-- The hypotheses are met by a run in which three evaluations are running when the budget is used up; two of them finish later. -/
example : ∃ w, Reach demo w ∧ (decide (demo.maxEvals ≤ (((completions w.st.log).length + w.inflight.length : Nat) : Int)) &&
    decide (w.inflight.length = 3) && decide (((((w.step demo (.propose (orc 0))).bind fun w => w.step demo (.complete 0 1)).bind
      fun w => w.step demo (.complete 0 1)).map fun w => w.inflight.length) = some 1)) = true :=
  exists_reach (orc 0) [pr 100, .accept 0, .complete 0 1, pr 100, .accept 0, .complete 0 1, pr 100, .accept 0,
    .complete 0 1, pr 100, .accept 0, pr 101, .accept 0, pr 102, .accept 0] _ (by decide +kernel)

/-! ## C09: a terminated run has used its budget -/

/-- Full statement: at termination exactly `max_evals` evaluations are completed.  It is false (`C09_refuted`).
Proved: it holds if no proposal is rejected, no evaluation aborted and no process killed after the budget was
completely charged (in particular if nothing ever fails). -/
theorem C09_exact_partial {w : Sys P} (h : Reach cfg w) (hm : 0 ≤ cfg.maxEvals) {o : Oracle P} {s' : State P}
    (hp : w.st.proposeAction cfg o = some (.terminate, s'))
    (hn : ∀ l m, w.st.log = l ++ m → cfg.maxEvals ≤ (charged l : Int) → ∀ e ∈ m, isLoss e = false) :
    ((completions w.st.log).length : Int) = cfg.maxEvals := by
  obtain ⟨hi, l, ⟨m, hlm⟩, hc⟩ := C08_terminate_only_if h hp
  have hmono := charged_mono l m (hn l m hlm.symm hc) (by
    intro k x kd v a h1 h2 h3
    exact h.completedOpen k x kd v a (by rw [← hlm]; exact h3))
  rw [hlm] at hmono
  have h1 := C01_budget h
  have h2 := h.book.charged
  rw [hi] at h1
  have h3 := h.book.num
  have h4 := C02_pending_exact h
  rw [hi] at h4
  simp only [List.length_nil, Nat.add_zero] at h1 h4
  omega

example : ∃ w, Reach demo w ∧ (decide ((w.st.proposeAction demo (orc 0)).map Prod.fst = some .terminate) &&
    decide (∀ e ∈ w.st.log, isLoss e = false) && decide ((completions w.st.log).length = 6)) = true :=
  exists_reach (orc 0) [pr 100, .accept 0, .complete 0 1, pr 100, .accept 0, .complete 0 1, pr 100, .accept 0,
    .complete 0 1, pr 100, .accept 0, pr 101, .accept 0, pr 102, .accept 0, pr 103, .complete 0 1, .complete 0 1,
    .complete 0 1] _ (by decide +kernel)

/-- The last evaluation fails after the budget was charged: the run terminates with one evaluation missing. -/
theorem C09_refuted : ∃ (cfg : Config Nat) (w : Sys Nat) (o : Oracle Nat) (s' : State Nat), Reach cfg w ∧
    w.st.proposeAction cfg o = some (.terminate, s') ∧ ((completions w.st.log).length : Int) < cfg.maxEvals := by
  obtain ⟨w, h1, h2⟩ := exists_reach (cfg := { demo with maxEvals := 3 }) (orc 0)
    [pr 100, .accept 0, .complete 0 1, pr 100, .accept 0, .complete 0 1, pr 100, .accept 0, pr 100, .abort 0]
    (fun w => decide ((w.st.proposeAction { demo with maxEvals := 3 } (orc 0)).map Prod.fst = some .terminate) &&
      decide ((completions w.st.log).length = 2)) (by decide +kernel)
  simp only [Bool.and_eq_true, decide_eq_true_eq, Option.map_eq_some_iff] at h2
  obtain ⟨⟨⟨a, s'⟩, h3, rfl⟩, h4⟩ := h2
  exact ⟨_, w, orc 0, s', h1, h3, by rw [h4]; decide⟩

/-! ## C10: the batch barrier -/

/-- In synchronous mode adaptive points are only generated by a call of `propose_action` with nothing queued and
nothing in flight, and then exactly `batch_size` of them. -/
theorem C10_barrier (hs : cfg.asynchronous = false) {w w' : Sys P} (h : Reach cfg w) {o : Oracle P}
    (hst : w.step cfg (.propose o) = some w') :
    adaptivePoints w'.st.log = adaptivePoints w.st.log ∨
    (w.st.batchQueue = [] ∧ w.inflight = [] ∧
      ∃ new, adaptivePoints w'.st.log = adaptivePoints w.st.log ++ new ∧ new.length = cfg.batchSize) := by
  simp only [Sys.step] at hst
  split at hst
  · simp at hst
  all_goals
    rename_i s' he
    simp only [Option.some.injEq] at hst; subst hst
    have hA : ∀ e : Event P, (∀ q ws, e ≠ .generated q ws) →
        adaptivePoints (s'.log ++ [e]) = adaptivePoints s'.log := by
      intro e hne
      rw [adaptivePoints_append]
      cases e with
      | generated q ws => exact absurd rfl (hne q ws)
      | _ => simp [adaptivePoints]
    simp only [State.note]
    try rw [hA _ (by simp)]
    rcases proposeAction_adaptive he with h1 | ⟨h1, _, h2⟩
    · exact .inl h1
    · rcases h2 with ⟨h2, _⟩ | ⟨_, h2, h3⟩
      · rw [hs] at h2; cases h2
      · refine .inr ⟨h1, ?_, _, h3, by simp⟩
        have := C02_pending_exact h
        rw [h2] at this; simpa using this.symm

/-- Between an adaptive generation and the next restart, queue and in-flight points together never exceed
`batch_size`. -/
theorem C10_bound (hs : cfg.asynchronous = false) {w : Sys P} (h : Reach cfg w)
    (ha : lastSourceAdaptive w.st.log = true) : w.st.batchQueue.length + w.inflight.length ≤ cfg.batchSize := by
  have := h.batch.bound hs ha
  simp only [Sys.inflight, List.length_append, List.length_map]
  omega

def demoSync : Config Nat := { demo with asynchronous := false, extras := [] }

example : ∃ w, Reach demoSync w ∧ (lastSourceAdaptive w.st.log && decide (w.st.batchQueue = [100]) &&
    decide (w.inflight = [101])) = true :=
  exists_reach (orc 0) [pr 100, .accept 0, .complete 0 1, pr 100, .accept 0, .complete 0 1, pr 100] _ (by decide +kernel)

/-! ## C11, C12: no deadlock -/

/-- Full statement: whenever nothing is outstanding `propose_action` returns a proposal.  False for
`use_restarts = False` (`C11_refuted`).  Proved with restarts, or as long as the run has not converged. `Sane` asks
for a nonempty design, a positive batch size and a nonempty list of weights. -/
theorem C11_progress_partial (hs : Sane cfg) {w : Sys P} (h : Reach cfg w) (hi : w.inflight = []) (o : Oracle P)
    (hr : cfg.useRestarts = true ∨ (w.st.converged = false ∧ (cfg.srbf.isSome = true ∨ o.giveUp = false))) :
    ∃ a s', w.st.proposeAction cfg o = some (a, s') ∧ a ≠ .nothing := by
  have hp := C02_pending_exact h
  rw [hi] at hp
  by_cases ht : w.st.terminate = true ∨ cfg.maxEvals ≤ w.st.numEvals + w.st.pendingEvals
  · rw [proposeAction_terminate ht, if_pos (by simpa using hp)]
    exact ⟨_, _, rfl, by simp⟩
  · simp only [not_or, not_le] at ht
    obtain ⟨x, k, s', h1⟩ := proposeAction_eval hs h o (by simpa using ht.1) ht.2 (.inr (by simpa using hp)) hr
    exact ⟨_, s', h1, by simp⟩

example : Sane demo ∧ Sane demoSync := by
  refine ⟨⟨by decide, .inl rfl, by simp [demo]⟩, ⟨by decide, .inr (by decide), by simp [demoSync, demo]⟩⟩

/-- Without restarts a converged strategy answers `None` although nothing is outstanding and budget is left. -/
theorem C11_refuted : ∃ (cfg : Config Nat) (w : Sys Nat), Sane cfg ∧ Reach cfg w ∧ w.inflight = [] ∧
    ((completions w.st.log).length : Int) < cfg.maxEvals ∧
    ∀ o, (w.st.proposeAction cfg o).map Prod.fst = some .nothing := by
  obtain ⟨w, h1, h2⟩ := exists_reach (cfg := { demoSync with useRestarts := false }) (orc 0)
    [pr 100, .accept 0, .complete 0 1, pr 100, .accept 0, .complete 0 1, .propose (orc 0 true)]
    (fun w => w.st.converged && !w.st.terminate && decide (w.inflight = []) && decide (w.st.pendingEvals = 0) &&
      decide (w.st.numEvals = 2) && decide ((completions w.st.log).length = 2)) (by decide +kernel)
  simp only [Bool.and_eq_true, decide_eq_true_eq, Bool.not_eq_true'] at h2
  obtain ⟨⟨⟨⟨⟨a, b⟩, c⟩, d⟩, e⟩, f⟩ := h2
  refine ⟨_, w, ⟨by decide, .inr (by decide), by simp [demoSync, demo]⟩, h1, c, by rw [f]; decide, fun o => ?_⟩
  rw [proposeAction_going b (by rw [d, e]; decide), a]
  rfl

/-- Asynchronous mode: as long as the budget has never been charged completely, an evaluation is always proposed. -/
theorem C12_no_idle (hs : Sane cfg) (ha : cfg.asynchronous = true) {w : Sys P} (h : Reach cfg w)
    (hb : ∀ l, l <+: w.st.log → (charged l : Int) < cfg.maxEvals) (o : Oracle P)
    (hr : cfg.useRestarts = true ∨ (w.st.converged = false ∧ (cfg.srbf.isSome = true ∨ o.giveUp = false))) :
    ∃ x k s', w.st.proposeAction cfg o = some (.eval x k, s') := by
  refine proposeAction_eval hs h o ?_ ?_ (.inl ha) hr
  · cases ht : w.st.terminate with
    | false => rfl
    | true =>
      obtain ⟨l, h1, h2⟩ := h.term.reached ht
      have := hb l h1
      omega
  · rw [← h.book.charged]; exact hb _ (List.prefix_refl _)

example : ∃ w, Reach demo w ∧ (decide (∀ l ∈ w.st.log.inits, (charged l : Int) < demo.maxEvals) &&
    decide (w.inflight = [0, 1])) = true :=
  exists_reach (orc 0) [pr 100, .accept 0, .complete 0 1, pr 100, .accept 0, pr 100] _ (by decide +kernel)

/-! ## C13, C14: data of the current run -/

/-- The data of the current run and of the surrogate come from evaluations accepted after the last restart (the
surrogate also holds the known extra points until the first restart). -/
theorem C13_isolation {w : Sys P} (h : Reach cfg w) :
    ∃ cur, cur.Sublist (currentRun w.st.log) ∧ w.st.curX = cur.map Prod.fst ∧ w.st.curFX = cur.map Prod.snd ∧
      w.st.surr = (if restarted w.st.log then [] else known cfg.extras) ++ cur := by
  obtain ⟨cur, h1, h2, h3, h4, _⟩ := h.cur.data
  exact ⟨cur, h4, h1, h2, by rw [h3, known_eq]⟩

/-- Full statement: the current-run data are exactly the evaluations accepted after the last restart and completed
since.  False for asynchronous SRBF/DYCORS (`C14_refuted`).  Proved: exact in synchronous mode, for strategies
without step control, and as long as the sampling radius never changed; always at least the evaluations accepted since the last
restart or radius change. -/
theorem C14_complete_partial {w : Sys P} (h : Reach cfg w) :
    ∃ cur, w.st.curX = cur.map Prod.fst ∧ w.st.curFX = cur.map Prod.snd ∧
      w.st.surr = (if restarted w.st.log then [] else known cfg.extras) ++ cur ∧
      (sinceChange w.st.log).Sublist cur ∧
      (cfg.asynchronous = false ∨ cfg.srbf = none ∨ radiusChanged w.st.log = false → cur = currentRun w.st.log) := by
  obtain ⟨cur, h1, h2, h3, h4, h5, h6⟩ := h.cur.data
  refine ⟨cur, h1, h2, by rw [h3, known_eq], h5, ?_⟩
  rintro (hh | hh | hh)
  · exact h6 (.inl hh)
  · exact h6 (.inr (h.cur.noSrbf hh))
  · exact h6 (.inr hh)

/-- Asynchronous SRBF in one dimension. -/
def demoSrbf : Config Nat where
  asynchronous := true
  batchSize := 1
  maxEvals := 60
  useRestarts := true
  numPts := 2
  extras := []
  srbf := some { dim := 1, weights := [3 / 10, 1 / 2, 8 / 10, 95 / 100] }

/-- Non-vacuity for C13/C14: a run with a restart and evaluations of the old run that finish late. -/
example : ∃ w, Reach demo w ∧ (restarted w.st.log && decide (w.st.curX = [1]) && decide (w.st.X = [10, 11, 1, 0, 1]) &&
    decide (currentRun w.st.log = [(1, 2)])) = true :=
  exists_reach (orc 0) [pr 100, .accept 0, pr 100, .accept 0, .complete 0 3, .complete 0 7, pr 100, .accept 0,
    .propose (orc 0 true), .accept 0, .complete 0 4, .complete 0 2] _ (by decide +kernel)

/-- Three improvements in a row change the radius; the evaluation that was running at that moment belongs to the run
but never reaches the surrogate. -/
theorem C14_refuted : ∃ (cfg : Config Nat) (w : Sys Nat), Reach cfg w ∧
    w.st.curX ≠ (currentRun w.st.log).map Prod.fst ∧ restarted w.st.log = false := by
  obtain ⟨w, h1, h2⟩ := exists_reach (cfg := demoSrbf) (orc 0)
    [pr 100, .accept 0, .complete 0 3, pr 100, .accept 0, .complete 0 3,
     pr 100, .accept 0, pr 101, .accept 0, pr 102, .accept 0, pr 103, .accept 0,
     .complete 0 3, .complete 0 2, .complete 0 1, .complete 0 5]
    (fun w => decide (w.st.curX = [1, 0, 100, 101, 102]) && !restarted w.st.log &&
      decide ((currentRun w.st.log).map Prod.fst = [1, 0, 100, 101, 102, 103])) (by decide +kernel)
  simp only [Bool.and_eq_true, decide_eq_true_eq, Bool.not_eq_true'] at h2
  exact ⟨_, w, h1, by rw [h2.1.1, h2.2]; decide, h2.1.2⟩

/-! ## C15: event identifiers -/

/-- Identifiers increase strictly in the order of acceptance, no marker (past or present) equals an identifier, and
comparing the identifier of a running record with the marker decides whether it was accepted after the last restart
or radius change. -/
theorem C15_ids {w w' : Sys P} (h : Reach cfg w) (hl : Later cfg w w') :
    (acceptedIds w'.st.log).Pairwise (· < ·) ∧ (∀ i ∈ acceptedIds w'.st.log, i ≠ w.st.evLast) ∧
    (∀ r ∈ w'.recs, r.evId ∈ acceptedIds w'.st.log) ∧
    (∀ r ∈ w'.recs, (r.evId > w'.st.evLast ↔ lastChange w'.st.log ≤ r.accAt) ∧
      (r.evId > w'.st.evLast ↔ r.evId ≥ w'.st.evLast)) := by
  have h' := h.later hl
  refine ⟨h'.ids.ids, marker_ne h hl, h'.ids.recMem, fun r hr => ⟨h'.ids.recIff r hr, ?_⟩⟩
  have := h'.ids.idsNe _ (h'.ids.recMem r hr)
  omega

/-! ## C16: extra points -/

/-- A new strategy: the known extra points are in `X`, `fX` and the surrogate, nothing is charged, and the queue holds
the design followed by the extra points without value. -/
theorem C16_start (o : Oracle P) :
    (Sys.create cfg o).st.X.zip (Sys.create cfg o).st.fX = known cfg.extras ∧
    (Sys.create cfg o).st.surr = known cfg.extras ∧ (Sys.create cfg o).st.numEvals = 0 ∧
    (Sys.create cfg o).st.batchQueue = (List.range cfg.numPts).map o.design ++ unknown cfg.extras := by
  simp only [Sys.create, create_eq, known_eq, unknown_eq]
  refine ⟨?_, trivial, rfl, trivial⟩
  induction known cfg.extras with
  | nil => rfl
  | cons a l ih => simp [ih]

/-- Every other queueing of initial points (a restart) queues `num_pts` design points only, if anything was evaluated or
known before – which is always so for SRBF and DYCORS, and for EI and LCB because their auxiliary problem needs data. -/
theorem C16_restart {w : Sys P} (h : Reach cfg w) {l : List (Event P)} {q : List P}
    (hl : l ++ [.restart q] <+: w.st.log)
    (hx : cfg.srbf.isSome = true ∨ known cfg.extras ≠ [] ∨ completions l ≠ []) :
    ∃ d : Nat → P, q = (List.range cfg.numPts).map d := by
  apply h.extras.restart l q hl
  rcases hx with hx | hx | hx
  · obtain ⟨sc, hsc⟩ := Option.isSome_iff_exists.1 hx
    exact .inr ((h.restartData hsc).restart l q hl)
  · exact .inl (by rwa [known_eq])
  · exact .inr hx

/-- The extra points without value are queued exactly once, at the start. -/
theorem C16_once {w : Sys P} (h : Reach cfg w) :
    (∃ d : Nat → P, w.st.log.head? = some (.start ((List.range cfg.numPts).map d ++ unknown cfg.extras))) ∧
    ∀ q, Event.start q ∉ w.st.log.tail := by
  refine ⟨?_, h.extras.starts⟩
  rw [← unknown_eq]; exact h.extras.start

example : ∃ w, Reach demo w ∧ decide ((Event.restart [0, 1]) ∈ w.st.log) = true :=
  exists_reach (orc 0) demoOps _ (by decide +kernel)

/-! ## C17, C20: resuming -/

/-- Full statement: in the initial phase every outstanding point is put back.  False when the same point is
outstanding twice (`C17_refuted`).  Proved: nothing is pending after `resume`, all data and the queue are kept, and
in the initial phase exactly the outstanding points are put back if no point was ever outstanding twice. -/
theorem C17_resume_partial {w : Sys P} (h : Reach cfg w) :
    w.resumed.inflight = [] ∧ w.resumed.st.pendingEvals = 0 ∧ w.resumed.st.Xpend = [] ∧
    w.resumed.st.X = w.st.X ∧ w.resumed.st.fX = w.st.fX ∧ w.resumed.st.numEvals = w.st.numEvals ∧
    w.resumed.st.curX = w.st.curX ∧ w.resumed.st.curFX = w.st.curFX ∧ w.resumed.st.surr = w.st.surr ∧
    w.resumed.st.fevals = w.st.fevals ∧ w.st.batchQueue <+: w.resumed.st.batchQueue ∧
    (w.st.phase = .adaptive → w.resumed.st.batchQueue = w.st.batchQueue) ∧
    (w.st.phase = .initial → (∀ l, l <+: w.st.log → (openPoints l).Nodup) →
      w.resumed.st.batchQueue.Perm (w.st.batchQueue ++ w.inflight)) := by
  have hx := (C05_xpend_partial h).2
  simp only [Sys.resumed, resume_eq, State.note, Sys.inflight]
  refine ⟨rfl, by simp, by simp, by simp, by simp, by simp, by simp, by simp, by simp, by simp, by simp, ?_, ?_⟩
  · intro hp; simp [hp]
  · intro hp hn
    simp only [hp, if_true]
    exact (hx hn).append_left _

theorem C17_refuted : ∃ (cfg : Config Nat) (w : Sys Nat), Reach cfg w ∧ w.st.phase = .initial ∧
    ¬ w.resumed.st.batchQueue.Perm (w.st.batchQueue ++ w.inflight) := by
  obtain ⟨w, h1, h2⟩ := exists_reach (cfg := { demo with extras := [(1, none)] }) (orc 0)
    [pr 100, .accept 0, pr 100, .accept 0, .complete 0 3]
    (fun w => decide (w.st.phase = .initial) && decide (w.st.Xpend = []) && decide (w.inflight = [1]) &&
      decide (w.st.batchQueue = [0])) (by decide +kernel)
  simp only [Bool.and_eq_true, decide_eq_true_eq] at h2
  obtain ⟨⟨⟨a, b⟩, c⟩, d⟩ := h2
  refine ⟨_, w, h1, a, ?_⟩
  intro hp
  have := hp.length_eq
  simp [Sys.resumed, resume_eq, State.note, a, b, c, d] at this

/-- Full statement: a resumed snapshot with unused budget goes on proposing evaluations.  False if the budget had
been charged by evaluations that were lost (`C20_refuted`: the termination flag is saved).  Proved: it holds if the
budget had never been charged completely. -/
theorem C20_goes_on_partial (hs : Sane cfg) {w : Sys P} (h : Reach cfg w)
    (hb : ∀ l, l <+: w.st.log → (charged l : Int) < cfg.maxEvals) (o : Oracle P)
    (hr : cfg.useRestarts = true ∨ (w.st.converged = false ∧ (cfg.srbf.isSome = true ∨ o.giveUp = false))) :
    ∃ x k s', w.resumed.st.proposeAction cfg o = some (.eval x k, s') := by
  have hr' := Reach.resume h
  refine proposeAction_eval hs hr' o ?_ ?_ (.inr ?_) ?_
  · cases ht : w.st.terminate with
    | false => simp [Sys.resumed, resume_eq, State.note, ht]
    | true =>
      obtain ⟨l, h1, h2⟩ := h.term.reached ht
      have := hb l h1
      omega
  · have h1 := hb _ (List.prefix_refl _)
    rw [h.book.charged] at h1
    have h2 := C02_pending_exact h
    simp only [Sys.resumed, resume_eq, State.note]
    omega
  · simp [Sys.resumed, resume_eq, State.note]
  · simpa [Sys.resumed, resume_eq, State.note] using hr

theorem C20_refuted : ∃ (cfg : Config Nat) (w : Sys Nat), Sane cfg ∧ Reach cfg w ∧
    ((completions w.st.log).length : Int) < cfg.maxEvals ∧
    ∀ o, (w.resumed.st.proposeAction cfg o).map Prod.fst = some .terminate := by
  obtain ⟨w, h1, h2⟩ := exists_reach (cfg := { demo with maxEvals := 3 }) (orc 0)
    [pr 100, .accept 0, pr 100, .accept 0, pr 100, .accept 0, pr 100]
    (fun w => w.st.terminate && decide ((completions w.st.log).length = 0)) (by decide +kernel)
  simp only [Bool.and_eq_true, decide_eq_true_eq] at h2
  refine ⟨_, w, ⟨by decide, .inl rfl, by simp [demo]⟩, h1, by rw [h2.2]; decide, fun o => ?_⟩
  rw [proposeAction_terminate (.inl (by simp [Sys.resumed, resume_eq, State.note, h2.1]))]
  simp [Sys.resumed, resume_eq]

/-! ## C21–C24, C63: step control of SRBF and DYCORS -/

/-- Hypothesis of the step control theorems: asynchronous mode, or a positive batch size. -/
abbrev BatchOk (cfg : Config P) : Prop := cfg.asynchronous = true ∨ 0 < cfg.batchSize

/-- The failure tolerance of a strategy. -/
abbrev tol (cfg : Config P) (sc : SrbfCfg) : Nat := failureTolerance cfg.asynchronous cfg.batchSize sc.dim

theorem ceil_div_nat (a q : Nat) (hq : 0 < q) : ⌈(a : ℚ) / (q : ℚ)⌉ = ((a + (q - 1)) / q : Nat) := by
  have hq' : (0 : ℚ) < q := by exact_mod_cast hq
  rw [Int.ceil_eq_iff]
  have h1 := Nat.div_add_mod (a + (q - 1)) q
  have h2 := Nat.mod_lt (a + (q - 1)) hq
  set m := (a + (q - 1)) / q
  set r := (a + (q - 1)) % q
  constructor
  · rw [lt_div_iff₀ hq']
    have : q * m < a + q := by omega
    have : (q : ℚ) * m < a + q := by exact_mod_cast this
    push_cast
    nlinarith
  · rw [div_le_iff₀ hq']
    have : a ≤ q * m := by omega
    have : (a : ℚ) ≤ q * m := by exact_mod_cast this
    push_cast
    linarith

/-- The attribute `failtol` is the documented failure tolerance. -/
theorem C63_failtol {sc : SrbfCfg} (hbs : BatchOk cfg) : failtol cfg sc = tol cfg sc := by
  unfold failtol tol failureTolerance
  cases ha : cfg.asynchronous with
  | true => simp
  | false =>
    have hq : 0 < cfg.batchSize := by
      rcases hbs with h | h
      · rw [ha] at h; cases h
      · exact h
    have h4 := ceil_div_nat 4 cfg.batchSize hq
    push_cast at h4
    simp only [Bool.false_eq_true, if_false]
    rw [ceil_div_nat sc.dim cfg.batchSize hq, h4]
    push_cast
    rfl

/-- Full statement: the radius is always `0.2 / 2^k` with `k ≤ 6`.  False in general (`C21_refuted`).  Proved: it is
always `0.2 / 2^k`, and above the minimum radius unless the run has converged. -/
theorem C21_radius_partial {sc : SrbfCfg} (hsc : cfg.srbf = some sc) (hbs : BatchOk cfg) {w : Sys P}
    (h : Reach cfg w) : ∃ z k, w.st.srbf = some z ∧ z.radius = (2 / 10) / 2 ^ k ∧ z.radius ≤ 2 / 10 ∧
      (w.st.converged = false → k ≤ 5 ∧ (2 / 10) / 2 ^ 6 < z.radius) := by
  obtain ⟨z, hz, ⟨k, hk, hk5⟩, _⟩ := (h.stepInv hsc hbs).z
  refine ⟨z, k, hz, hk, ?_, fun hc => ⟨hk5 hc, ?_⟩⟩
  · rw [hk, radiusAt]
    exact div_le_self (by norm_num) (one_le_pow₀ (by norm_num))
  · have h1 := hk5 hc
    have h2 : ¬ radiusAt k ≤ radiusMin := by rw [radiusAt_le_min_iff]; omega
    have h3 : radiusMin = (2 / 10) / 2 ^ 6 := by unfold radiusMin; norm_num
    rw [← h3, hk]; exact not_le.1 h2

/-- With a controller that answers every proposal at once (as all POAP controllers do) the radius is always one of
`0.2, 0.1, …, 0.2/64`. -/
theorem C21_radius_serial {sc : SrbfCfg} (hsc : cfg.srbf = some sc) (hbs : BatchOk cfg) {w : Sys P}
    (h : ReachSerial cfg w) : ∃ z k, w.st.srbf = some z ∧ k ≤ 6 ∧ z.radius = (2 / 10) / 2 ^ k := by
  obtain ⟨z, hz, _⟩ := (h.reach.stepInv hsc hbs).z
  obtain ⟨k, h1, h2⟩ := (h.quiet hsc hbs).radius z hz
  exact ⟨z, k, hz, h1, h2⟩

/-- `n` proposals without answer, then one evaluation after the other, where the best value only improves every
eighth time. -/
def shrinkOps : List (Op Nat) :=
  [pr 100, .accept 0, .complete 0 0, pr 100, .accept 0, .complete 0 0] ++ (List.range 40).map (fun i => pr (100 + i)) ++
    (List.range 36).flatMap fun i => [.accept 0, .complete 0 (if i % 9 = 0 then -(i : ℚ) else 1)]

/-- When many proposals are left unanswered, evaluations accepted after convergence go on shrinking the radius. -/
theorem C21_refuted : ∃ (w : Sys Nat), Reach demoSrbf w ∧ ∃ z, w.st.srbf = some z ∧ z.radius < (2 / 10) / 2 ^ 6 := by
  obtain ⟨w, h1, h2⟩ := exists_reach (cfg := demoSrbf) (orc 0) shrinkOps
    (fun w : Sys Nat => w.st.srbf.any fun z : Srbf => decide (z.radius < (2 / 10) / 2 ^ 6)) (by decide +kernel)
  cases hz : w.st.srbf with
  | none => rw [hz] at h2; simp at h2
  | some z => rw [hz] at h2; exact ⟨w, h1, z, hz, by simpa using h2⟩

/-- A run is converged at the latest after `4 * failtol` consecutive steps without significant improvement. -/
theorem C22_at_latest {sc : SrbfCfg} (hsc : cfg.srbf = some sc) (hbs : BatchOk cfg) {w : Sys P} (h : Reach cfg w)
    (hf : 4 * tol cfg sc ≤ (progress w.st.log).2) : w.st.converged = true := by
  obtain ⟨z, hz, _, _, _, hfc, hlt, _⟩ := (h.stepInv hsc hbs).z
  cases hc : w.st.converged with
  | true => rfl
  | false =>
    have := hlt hc
    have ht := C63_failtol (sc := sc) hbs
    rw [hfc] at this
    unfold maxfailtol at this; omega

/-- A run is declared converged only by `4 * failtol` consecutive failures or by reaching the minimum radius. -/
theorem C22_only_if {sc : SrbfCfg} (hsc : cfg.srbf = some sc) (hbs : BatchOk cfg) {w w' : Sys P} (h : Reach cfg w)
    {op : Op P} (hst : w.step cfg op = some w') (h0 : w.st.converged = false) (h1 : w'.st.converged = true) :
    ∃ z, w'.st.srbf = some z ∧
      (4 * tol cfg sc ≤ (progress w'.st.log).2 ∨ z.radius ≤ (2 / 10) / 2 ^ 6) := by
  obtain ⟨z, hz, _⟩ := (h.stepInv hsc hbs).z
  obtain ⟨z', hz', hh⟩ := step_srbf hsc hz hst
  obtain ⟨z2, hz2, _, _, _, hfc, _⟩ := ((Reach.step op h hst).stepInv hsc hbs).z
  rw [hz'] at hz2; cases hz2
  refine ⟨z', hz', ?_⟩
  rcases hh with ⟨_, hh⟩ | ⟨f, hf, hc⟩
  · rw [hh h1] at h0; cases h0
  · rw [h0, h1, Bool.false_or] at hc
    have hm : radiusMin = (2 / 10) / 2 ^ 6 := by unfold radiusMin; norm_num
    rw [← hm]
    refine ((adjust_spec _ _ z f).conv.1 hc.symm).imp (fun hh => ?_) fun hh => by rw [hf]; exact hh
    rw [← hf, hfc] at hh
    have ht := C63_failtol (sc := sc) hbs
    unfold maxfailtol at hh; omega

/-- Non-vacuity of the step control theorems: sixteen failures in a row in one dimension. -/
def failOps : List (Op Nat) :=
  [pr 100, .accept 0, .complete 0 0, pr 100, .accept 0, .complete 0 0] ++
    (List.range 17).flatMap fun i => [pr (100 + i), .accept 0, .complete 0 (i : ℚ)]

example : ∃ w, Reach demoSrbf w ∧ (w.st.converged && decide ((progress w.st.log).2 = 16) &&
    (w.st.srbf.any fun z : Srbf => decide (z.radius = (2 / 10) / 2 ^ 4))) = true :=
  exists_reach (orc 0) failOps _ (by decide +kernel)

/-- The reference value is the one of the documented rule, it is a value of the current run, and the status counter stays
strictly between its thresholds. -/
theorem C23_best {sc : SrbfCfg} (hsc : cfg.srbf = some sc) (hbs : BatchOk cfg) {w : Sys P} (h : Reach cfg w) :
    ∃ z, w.st.srbf = some z ∧ z.fbest = (progress w.st.log).1 ∧ (∀ b, z.fbest = some b → b ∈ w.st.curFX) ∧
      -(tol cfg sc : Int) < z.status ∧ z.status < 3 := by
  obtain ⟨z, hz, _, hst, hfb, _, _, hcur, _⟩ := (h.stepInv hsc hbs).z
  exact ⟨z, hz, hfb, hcur, by rw [← C63_failtol hbs]; exact hst.1, hst.2⟩

theorem progress_mono (l m : List (Event P)) (hm : ∀ e ∈ m, (∀ q, e ≠ .start q) ∧ ∀ q, e ≠ .restart q)
    {b : Val} (hb : (progress l).1 = some b) :
    ∃ b', (progress (l ++ m)).1 = some b' ∧ (b' = b ∨ b' < b - (1 / 1000) * |b|) := by
  induction m using List.reverseRecOn with
  | nil => exact ⟨b, by simpa using hb, .inl rfl⟩
  | append_singleton m e ih =>
    obtain ⟨b', h1, h2⟩ := ih (fun e he => hm e (by simp [he]))
    rw [← List.append_assoc, progress_concat]
    have he := hm e (by simp)
    cases e with
    | start q => exact absurd rfl (he.1 q)
    | restart q => exact absurd rfl (he.2 q)
    | adjusted f =>
      simp only
      split
      · rename_i hs
        rw [h1] at hs
        refine ⟨f, rfl, .inr ?_⟩
        have hs : f < b' - (1 / 1000) * |b'| := hs
        have hpos : 0 ≤ (1 / 1000 : ℚ) * |b'| := by positivity
        rcases h2 with rfl | h2
        · exact hs
        · linarith
      · exact ⟨b', h1, h2⟩
    | _ => exact ⟨b', h1, h2⟩

/-- During a run the reference value never increases, and whenever it changes the improvement is significant. -/
theorem C23_monotone {sc : SrbfCfg} (hsc : cfg.srbf = some sc) (hbs : BatchOk cfg) {w w' : Sys P} (h : Reach cfg w)
    (hl : Later cfg w w') (hr : ∀ m, w'.st.log = w.st.log ++ m → ∀ q, Event.restart q ∉ m)
    {z : Srbf} (hz : w.st.srbf = some z) {b : Val} (hb : z.fbest = some b) :
    ∃ z' b', w'.st.srbf = some z' ∧ z'.fbest = some b' ∧ (b' = b ∨ b' < b - (1 / 1000) * |b|) := by
  obtain ⟨m, hm⟩ := hl.log
  obtain ⟨z1, h1, h2, _⟩ := C23_best hsc hbs h
  rw [hz] at h1; cases h1
  obtain ⟨z', h3, h4, _⟩ := C23_best hsc hbs (h.later hl)
  have hst := (h.later hl).extras.starts
  have hne : w.st.log ≠ [] := by
    obtain ⟨d, hd⟩ := h.extras.start
    intro hh; rw [hh] at hd; simp at hd
  obtain ⟨b', h5, h6⟩ := progress_mono w.st.log m (by
    intro e he
    refine ⟨?_, ?_⟩
    · rintro q rfl
      refine hst q ?_
      rw [← hm, List.tail_append_of_ne_nil hne]
      simp [he]
    · rintro q rfl
      exact hr m hm.symm q he) (by rw [← h2]; exact hb)
  rw [hm] at h5
  exact ⟨z', b', h3, by rw [h4]; exact h5, h6⟩

/-- The `k`-th adaptive point ever generated uses the weight number `k` modulo the number of weights. -/
theorem C24_weights {sc : SrbfCfg} (hsc : cfg.srbf = some sc) {w : Sys P} (h : Reach cfg w) :
    (usedWeights w.st.log).length = (adaptivePoints w.st.log).length ∧
    ∀ k < (adaptivePoints w.st.log).length,
      (usedWeights w.st.log)[k]? = sc.weights[k % sc.weights.length]? := by
  obtain ⟨_, h2, h3⟩ := h.weights hsc
  exact ⟨h2, by rw [← h2]; exact h3⟩

example : ∃ w, Reach demoSrbf w ∧ decide (usedWeights w.st.log =
    [3 / 10, 1 / 2, 8 / 10, 95 / 100, 3 / 10, 1 / 2]) = true :=
  exists_reach (orc 0) [pr 100, .accept 0, .complete 0 0, pr 100, .accept 0, .complete 0 0, pr 100, pr 100, pr 100,
    .reject 0, pr 100, pr 100, pr 100] _ (by decide +kernel)

/-- The step control attributes are those of the documented rule replayed on the history: reference value, radius,
status (successes minus failures since the last radius change) and consecutive failures. -/
theorem C63_step_control {sc : SrbfCfg} (hsc : cfg.srbf = some sc) (hbs : BatchOk cfg) {w : Sys P} (h : Reach cfg w) :
    ∃ z, w.st.srbf = some z ∧ z.fbest = (control (tol cfg sc) w.st.log).best ∧
      z.radius = (control (tol cfg sc) w.st.log).radius ∧
      z.status = ((control (tol cfg sc) w.st.log).wins : Int) - (control (tol cfg sc) w.st.log).losses ∧
      z.failcount = (control (tol cfg sc) w.st.log).fails := by
  obtain ⟨z, h1, h2⟩ := (h.ctrl hsc hbs).z
  rw [← C63_failtol hbs]
  exact ⟨z, h1, h2.best, h2.radius, h2.status, h2.fails⟩

/-- Asynchronous mode: each completed adaptive evaluation that was accepted after the last restart or radius change is
one step of the control, with its value. -/
theorem C63_async_value {sc : SrbfCfg} (hsc : cfg.srbf = some sc) (ha : cfg.asynchronous = true) {w w' : Sys P}
    (h : Reach cfg w) {i : Nat} {r : Rec P} {v : Val} (hr : w.recs[i]? = some r) (hk : r.kind = .adapt)
    (hn : lastChange w.st.log ≤ r.accAt) (hst : w.step cfg (.complete i v) = some w') :
    ∃ m, w'.st.log = w.st.log ++ [.completed r.x .adapt v r.accAt, .adjusted v] ++ m ∧
      (m = [] ∨ m = [.stepChange]) := by
  obtain ⟨z, hz, _, _, _, _, _, _, _, _, hq⟩ := (h.stepInv hsc (.inl ha)).z
  have := complete_adjusted hsc hz hr hk ((h.ids.recIff r (List.mem_of_getElem? hr)).2 hn) (.inl ha) hst
  rw [hq ha] at this
  exact this

/-- Synchronous mode: the last evaluation of a batch runs one step of the control with the smallest value of the batch
(of all adaptive values since the last step). -/
theorem C63_sync_value {sc : SrbfCfg} (hsc : cfg.srbf = some sc) (hs : cfg.asynchronous = false)
    (hb : 0 < cfg.batchSize) {w w' : Sys P}
    (h : Reach cfg w) {i : Nat} {r : Rec P} {v : Val} (hr : w.recs[i]? = some r) (hk : r.kind = .adapt)
    (hq : w.st.batchQueue = []) (hi : w.inflight.length = 1) (hst : w.step cfg (.complete i v) = some w') :
    ∃ f m, w'.st.log = w.st.log ++ [.completed r.x .adapt v r.accAt, .adjusted f] ++ m ∧
      (m = [] ∨ m = [.stepChange]) ∧ f ∈ v :: batchValues w.st.log ∧ ∀ u ∈ v :: batchValues w.st.log, f ≤ u := by
  obtain ⟨z, hz, hrq⟩ := h.batchQueue hsc hs hb
  obtain ⟨m, h1, h2⟩ := complete_adjusted hsc hz hr hk ((h.allNew hs).new r (List.mem_of_getElem? hr))
    (.inr ⟨hq, by rw [C02_pending_exact h, hi]; rfl⟩) hst
  refine ⟨_, m, h1, h2, ?_, ?_⟩
  · rw [← hrq, List.mem_cons]; exact minValue_mem _ _
  · rw [← hrq]; exact minValue_le _ _

def demoSyncSrbf : Config Nat := { demoSrbf with asynchronous := false, batchSize := 2 }

example : ∃ w, Reach demoSyncSrbf w ∧ (decide (Event.adjusted 3 ∈ w.st.log) && decide (w.inflight = []) &&
    (w.st.srbf.any fun z : Srbf => decide (z.fbest = some 3))) = true :=
  exists_reach (orc 0) [pr 100, .accept 0, .complete 0 0, pr 100, .accept 0, .complete 0 0, pr 100, .accept 0, pr 100,
    .accept 0, .complete 0 4, .complete 0 3] _ (by decide +kernel)

/-! ## C62: feasibility -/

/-- If designs, extra points and adaptive points have the property `F` (bounds, integrality), so has every point that is
ever queued, proposed, running, pending or recorded. -/
theorem C62_feasible {F : P → Prop} (hx : ∀ e ∈ cfg.extras, F e.1) {w : Sys P} (h : ReachF cfg F w) :
    (∀ x ∈ w.st.batchQueue, F x) ∧ (∀ x ∈ proposals w.st.log, F x) ∧ (∀ x ∈ w.inflight, F x) ∧
    (∀ x ∈ w.st.Xpend, F x) ∧ (∀ x ∈ w.st.X, F x) := by
  have hr := h.reach
  obtain ⟨h1, h2⟩ := h.sources hx
  have hs := hr.sourced
  refine ⟨fun x hh => h1 x (hs.queue x hh), fun x hh => h1 x (hs.proposals x hh), fun x hh => h1 x (hs.inflight x hh),
    h2, ?_⟩
  intro x hh
  rw [(C03_history hr).1, List.map_append, List.mem_append] at hh
  rcases hh with hh | hh
  · obtain ⟨e, he, rfl⟩ := List.mem_map.1 hh
    obtain ⟨e', he', h3⟩ := List.mem_filterMap.1 he
    cases hv : e'.2 with
    | none => rw [hv] at h3; simp at h3
    | some v => rw [hv] at h3; simp at h3; rw [← h3]; exact hx e' he'
  · refine h1 x (hs.completions x ?_)
    obtain ⟨e, he, rfl⟩ := List.mem_map.1 hh
    obtain ⟨ev, h3, h4⟩ := List.mem_filterMap.1 he
    refine List.mem_map.2 ⟨(e.1, some e.2), List.mem_filterMap.2 ⟨ev, h3, ?_⟩, rfl⟩
    cases ev with
    | completed y k v t =>
      simp only [Option.some.injEq] at h4
      simp [← h4]
    | _ => simp at h4

/-- Oracle with feasible points only. -/
def orcF : Oracle Nat := { design := fun i => i % 2, pts := fun _ => 100, giveUp := false }

example : ∃ w, ReachF demo (fun x => x < 200) w ∧ w.inflight = [11] ∧ w.st.batchQueue = [0, 1] := by
  have hd : ∀ i, orcF.design i < 200 := by intro i; show i % 2 < 200; omega
  refine ⟨_, .propose orcF hd (fun _ => show 100 < 200 by decide) (.create orcF hd) rfl, rfl, rfl⟩

end Verif.Props
