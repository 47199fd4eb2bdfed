import Verif.Strategy.Tally
import Verif.Props.Strategy

/-! # Property C80: a run does a bounded amount of work and ends -/

namespace Verif.Props

open Verif.Strategy Verif.Spec

variable {P : Type} [DecidableEq P] {cfg : Config P}

/-- Every proposed evaluation is completed, in flight or lost, and the number of evaluations ever proposed is at most
`max_evals` plus the number of losses (rejected proposals, aborted evaluations, evaluations in flight at a crash); for all
histories. -/
theorem C80_bounded_work {w : Sys P} (h : Reach cfg w) :
    (proposals w.st.log).length = (completions w.st.log).length + w.inflight.length + (losses w.st.log).length ∧
    ((proposals w.st.log).length : Int) ≤ max cfg.maxEvals 0 + (losses w.st.log).length := by
  have h1 := h.tally
  have h2 := (C01_budget h).1
  unfold Tally at h1
  simp only [Sys.inflight, List.length_append, List.length_map] at h2 ⊢
  omega

/-- Any number of workers and any order of completion, as long as nothing fails: a controller that has no evaluation in
flight gets a new evaluation as long as fewer than `max_evals` are completed, and "terminate" when `max_evals` are
completed. -/
theorem C80_next (hs : Sane cfg) (hr : cfg.useRestarts = true) (hm : 0 ≤ cfg.maxEvals) {w : Sys P} (h : Reach cfg w)
    (hl : ∀ e ∈ w.st.log, isLoss e = false) (hi : w.inflight = []) (o : Oracle P) :
    ∃ a s', w.st.proposeAction cfg o = some (a, s') ∧
      (((completions w.st.log).length : Int) < cfg.maxEvals → ∃ x k, a = .eval x k) ∧
      (cfg.maxEvals ≤ ((completions w.st.log).length : Int) → a = .terminate) := by
  obtain ⟨a, s', ha, hne⟩ := C11_progress_partial hs h hi o (.inl hr)
  refine ⟨a, s', ha, fun hlt => ?_, fun hge => ?_⟩
  · cases a with
    | nothing => exact absurd rfl hne
    | terminate =>
      have := C09_exact_partial h hm ha fun l m hlm _ e he => hl e (by rw [hlm]; simp [he])
      omega
    | eval x k => exact ⟨x, k, rfl⟩
  · have h3 := (C03_history h).2.2
    have h2 := C02_pending_exact h
    rw [hi] at h2
    simp only [List.length_nil, Nat.cast_zero] at h2
    rw [proposeAction_terminate (.inr (by omega))] at ha
    simp only [h2, beq_self_eq_true, if_true, Option.some.injEq, Prod.mk.injEq] at ha
    exact ha.1.symm

/-- POAP's `SerialController.run`: ask for a proposal, evaluate, report the value, until "terminate" (flag `true`).  The
list holds the random outcomes of the single calls; `none`: the strategy raised or had no proposal. -/
def serialRun (cfg : Config P) (f : P → Val) : List (Oracle P) → Sys P → Option (Sys P × Bool)
  | [], w => some (w, false)
  | o :: os, w => match w.st.proposeAction cfg o with
    | some (.terminate, _) => (w.step cfg (.propose o)).map fun w' => (w', true)
    | some (.eval x _, _) =>
      (w.steps cfg [.propose o, .accept 0, .complete 0 (f x)]).bind (serialRun cfg f os)
    | _ => none

/-- State of the serial loop between two rounds, after `n` evaluations. -/
structure AtRound (cfg : Config P) (f : P → Val) (n : Nat) (w : Sys P) : Prop where
  reach : Reach cfg w
  props : w.props = []
  recs : w.recs = []
  clean : ∀ e ∈ w.st.log, isLoss e = false
  count : (completions w.st.log).length = n
  values : ∀ q ∈ completions w.st.log, q.2 = f q.1

theorem isLoss_concat {l : List (Event P)} {e : Event P} (h : ∀ e ∈ l, isLoss e = false) (he : isLoss e = false) :
    ∀ e' ∈ l ++ [e], isLoss e' = false := by
  intro e' h'
  rcases List.mem_append.mp h' with h1 | h1
  · exact h e' h1
  · simp only [List.mem_singleton] at h1; rw [h1]; exact he

theorem AtRound.round {f : P → Val} {n : Nat} {w : Sys P} (h : AtRound cfg f n w) {o : Oracle P} {x : P} {k : Kind}
    {s : State P} (ha : w.st.proposeAction cfg o = some (.eval x k, s)) :
    ∃ w', w.steps cfg [.propose o, .accept 0, .complete 0 (f x)] = some w' ∧ AtRound cfg f (n + 1) w' := by
  have hc := proposeAction_ext ha
  have hst : ∃ w', w.steps cfg [.propose o, .accept 0, .complete 0 (f x)] = some w' ∧ w'.props = [] ∧ w'.recs = [] ∧
      (∀ e ∈ w'.st.log, isLoss e = false) ∧ completions w'.st.log = completions w.st.log ++ [(x, f x)] := by
    simp only [Sys.steps, Sys.step, ha, h.props, h.recs, List.nil_append, List.getElem?_cons_zero, List.eraseIdx_cons_zero,
      Option.some.injEq, exists_eq_left']
    refine ⟨trivial, trivial, ?_, ?_⟩
    · apply (onCompleted_ext _ _ _ _ _).isLoss
      simp only [State.note, State.onAccept]
      exact isLoss_concat (isLoss_concat (isLoss_concat (hc.isLoss h.clean) rfl) rfl) rfl
    · rw [(onCompleted_ext _ _ _ _ _).completions]
      simp only [State.note, State.onAccept, completions_append, hc.completions]
      simp [completions]
  obtain ⟨w', hw, hp, hr, hcl, hcomp⟩ := hst
  refine ⟨w', hw, h.reach.steps hw, hp, hr, hcl, ?_, ?_⟩
  · rw [hcomp]; simp [h.count]
  · rw [hcomp]
    intro q hq
    rcases List.mem_append.mp hq with h1 | h1
    · exact h.values q h1
    · simp only [List.mem_singleton] at h1; rw [h1]

theorem serialRun_from (hs : Sane cfg) (hr : cfg.useRestarts = true) {M : Nat} (hM : cfg.maxEvals = M) (f : P → Val)
    (os : List (Oracle P)) {n : Nat} {w : Sys P} (hn : n ≤ M) (h : AtRound cfg f n w) :
    ∃ w' b, serialRun cfg f os w = some (w', b) ∧ AtRound cfg f (min (n + os.length) M) w' ∧
      (b = true ↔ M < n + os.length) := by
  induction os generalizing n w with
  | nil =>
    refine ⟨w, false, rfl, ?_, ?_⟩
    · simpa [hn] using h
    · simpa using hn
  | cons o os ih =>
    have hi : w.inflight = [] := by simp [Sys.inflight, h.props, h.recs]
    obtain ⟨a, s', ha, h1, h2⟩ := C80_next hs hr (by omega) h.reach h.clean hi o
    rw [h.count] at h1 h2
    rcases Nat.lt_or_ge n M with hlt | hge
    · obtain ⟨x, k, rfl⟩ := h1 (by omega)
      obtain ⟨w1, hw1, hr1⟩ := h.round ha
      obtain ⟨w', b, hw', hA, hb⟩ := ih (by omega) hr1
      refine ⟨w', b, ?_, ?_, ?_⟩
      · simp only [serialRun, ha, hw1, Option.bind_some]; exact hw'
      · have : n + 1 + os.length = n + (o :: os).length := by simp; omega
        rw [← this]; exact hA
      · rw [hb]; simp; omega
    · have hnM : n = M := by omega
      obtain rfl := h2 (by omega)
      have hc := proposeAction_ext ha
      have hstep : w.step cfg (.propose o) = some { w with st := s'.note .terminated } := by simp only [Sys.step, ha]
      refine ⟨{ w with st := s'.note .terminated }, true, ?_, ?_, ?_⟩
      · simp only [serialRun, ha, hstep, Option.map_some]
      · have : min (n + (o :: os).length) M = n := by simp; omega
        rw [this]
        refine ⟨.step _ h.reach hstep, h.props, h.recs, ?_, ?_, ?_⟩
        · simp only [State.note]
          exact isLoss_concat (hc.isLoss h.clean) rfl
        · simp only [State.note, completions_append, hc.completions]
          simpa [completions] using h.count
        · simp only [State.note, completions_append, hc.completions]
          intro q hq
          exact h.values q (by simpa [completions] using hq)
      · simp [hnM]

/-- A serial run of a strategy with restarts, for any objective and all random outcomes: it never stalls or raises, it
evaluates exactly `max_evals` points, and then ends.  The `n`-th round evaluates the `n`-th point. -/
theorem C80_serial_run (hs : Sane cfg) (hr : cfg.useRestarts = true) {M : Nat} (hM : cfg.maxEvals = M) (f : P → Val)
    (o : Oracle P) (os : List (Oracle P)) :
    ∃ w b, serialRun cfg f os (Sys.create cfg o) = some (w, b) ∧ Reach cfg w ∧ w.inflight = [] ∧
      (completions w.st.log).length = min os.length M ∧ (∀ q ∈ completions w.st.log, q.2 = f q.1) ∧
      (b = true ↔ M < os.length) := by
  have h0 : AtRound cfg f 0 (Sys.create cfg o) := by
    refine ⟨.create o, rfl, rfl, ?_, ?_, ?_⟩ <;> simp [Sys.create, State.create, completions, isLoss]
  obtain ⟨w, b, h1, h2, h3⟩ := serialRun_from hs hr hM f os (Nat.zero_le _) h0
  simp only [Nat.zero_add] at h2 h3
  exact ⟨w, b, h1, h2.reach, by simp [Sys.inflight, h2.props, h2.recs], h2.count, h2.values, h3⟩

/-- The demo strategy (design, a known and an unknown extra point, budget 6) evaluates six points. -/
example : (serialRun demo (fun x => x) ((List.range 7).map fun i => orc (100 + i)) (Sys.create demo (orc 0))).any
    (fun r => r.2 && decide (completions r.1.st.log = [(11, 11), (1, 1), (0, 0), (103, 103), (104, 104), (105, 105)])) =
      true := by decide +kernel

end Verif.Props
