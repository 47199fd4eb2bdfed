import Verif.Props.Strategy
import Verif.Strategy.Tally

/-!
# The history as the controller sees it

The other properties refer to the history recorded in the ghost component `State.log`.  Here a run is described from outside, by
the calls the controller makes and the answers it gets, without reference to that component: `Session cfg tr w` – the calls and
answers `tr` lead to `w`.  `session_log` shows that the ghost history is what happened, and C01–C04 are restated in terms of `tr`.
-/

namespace Verif.Props

open Verif.Strategy Verif.Spec

variable {P : Type} [DecidableEq P] {cfg : Config P}

/-- Calls and answers. -/
inductive Seen (P : Type) where
  /-- `propose_action` was called and gave this answer -/
  | asked (a : Action P)
  /-- a proposal of `x` was accepted -/
  | accepted (x : P)
  /-- a proposal of `x` was rejected -/
  | rejected (x : P)
  /-- an evaluation of `x` gave `v` -/
  | completed (x : P) (v : Val)
  /-- an evaluation of `x` was killed or cancelled -/
  | aborted (x : P)
  /-- the process died, and the strategy was loaded again and resumed -/
  | crashed

/-- What is seen of one event. -/
def seen (cfg : Config P) (w : Sys P) : Op P → List (Seen P)
  | .propose o => ((w.st.proposeAction cfg o).map fun r => Seen.asked r.1).toList
  | .accept i => ((w.props[i]?).map fun p => Seen.accepted p.x).toList
  | .reject i => ((w.props[i]?).map fun p => Seen.rejected p.x).toList
  | .complete i v => ((w.recs[i]?).map fun r => Seen.completed r.x v).toList
  | .abort i => ((w.recs[i]?).map fun r => Seen.aborted r.x).toList
  | .update _ => []

/-- The calls and answers `tr` lead from the constructor to `w`. -/
inductive Session (cfg : Config P) : List (Seen P) → Sys P → Prop
  | create (o : Oracle P) : Session cfg [] (Sys.create cfg o)
  | step {tr : List (Seen P)} {w w' : Sys P} (op : Op P) : Session cfg tr w → w.step cfg op = some w' →
      Session cfg (tr ++ seen cfg w op) w'
  | resume {tr : List (Seen P)} {w : Sys P} : Session cfg tr w → Session cfg (tr ++ [.crashed]) w.resumed

/-- An answer that is a proposal or a termination. -/
def Seen.counts : Seen P → Bool
  | .asked .nothing => false
  | .asked .terminate => true
  | .asked (.eval _ _) => true
  | .accepted _ => true
  | .rejected _ => true
  | .completed _ _ => true
  | .aborted _ => true
  | .crashed => true

/-- What the controller saw of an entry of the history. -/
def external : Event P → Option (Seen P)
  | .proposed x k => some (.asked (.eval x k))
  | .accepted x _ _ => some (.accepted x)
  | .rejected x _ => some (.rejected x)
  | .completed x _ v _ => some (.completed x v)
  | .aborted x _ => some (.aborted x)
  | .terminated => some (.asked .terminate)
  | .crashed _ => some .crashed
  | _ => none

omit [DecidableEq P] in
theorem ext_external {l l' : List (Event P)} (h : Ext l l') : l'.filterMap external = l.filterMap external := by
  obtain ⟨m, rfl, hm⟩ := h
  have hn : m.filterMap external = [] := by
    rw [List.filterMap_eq_nil_iff]
    intro e he
    have := hm e he
    cases e <;> simp [internal] at this <;> rfl
  rw [List.filterMap_append, hn, List.append_nil]

theorem onAborted_log (s : State P) (x : P) (k : Kind) (e : Nat) : (s.onAborted x k e).log = s.log := by
  cases k <;> rfl

theorem onAdaptReject_log (s : State P) (x : P) : (s.onAdaptReject cfg x).log = s.log := by
  unfold State.onAdaptReject
  simp only
  split <;> rfl

/-- The ghost history is what the controller saw. -/
theorem session_log {tr : List (Seen P)} {w : Sys P} (h : Session cfg tr w) :
    w.st.log.filterMap external = tr.filter Seen.counts := by
  induction h with
  | create o => rw [show (Sys.create cfg o).st.log = [.start _] from rfl]; rfl
  | @resume tr w h ih =>
    simp only [Sys.resumed, State.resume, State.note, List.filterMap_append, List.filter_append, ih]
    simp [external, Seen.counts, List.filter_cons]
  | @step tr w w' op h hs ih =>
    rw [List.filter_append, ← ih]
    cases op with
    | propose o =>
      simp only [Sys.step] at hs
      simp only [seen]
      cases hp : w.st.proposeAction cfg o with
      | none => rw [hp] at hs; simp at hs
      | some r =>
        obtain ⟨a, s⟩ := r
        rw [hp] at hs
        have he := ext_external (proposeAction_ext hp)
        cases a <;> simp only [Option.some.injEq] at hs <;> subst hs <;>
          simp [State.note, List.filterMap_append, he, external, Seen.counts, List.filter_cons]
    | accept i =>
      simp only [Sys.step] at hs
      simp only [seen]
      cases hp : w.props[i]? with
      | none => rw [hp] at hs; simp at hs
      | some p =>
        rw [hp] at hs
        simp only [Option.some.injEq] at hs
        subst hs
        simp [State.note, State.onAccept, external, Seen.counts, List.filter_cons]
    | reject i =>
      simp only [Sys.step] at hs
      simp only [seen]
      cases hp : w.props[i]? with
      | none => rw [hp] at hs; simp at hs
      | some p =>
        rw [hp] at hs
        simp only [Option.some.injEq] at hs
        subst hs
        cases hk : p.kind
        · simp [State.note, State.onInitialRejected, State.removePending, external, Seen.counts, List.filter_cons]
        · simp [State.note, onAdaptReject_log, external, Seen.counts, List.filter_cons]
    | complete i v =>
      simp only [Sys.step] at hs
      simp only [seen]
      cases hp : w.recs[i]? with
      | none => rw [hp] at hs; simp at hs
      | some r =>
        rw [hp] at hs
        simp only [Option.some.injEq] at hs
        subst hs
        simp only [ext_external (onCompleted_ext _ _ _ _ _)]
        simp [State.note, external, Seen.counts, List.filter_cons]
    | abort i =>
      simp only [Sys.step] at hs
      simp only [seen]
      cases hp : w.recs[i]? with
      | none => rw [hp] at hs; simp at hs
      | some r =>
        rw [hp] at hs
        simp only [Option.some.injEq] at hs
        subst hs
        simp only [onAborted_log]
        simp [State.note, external, Seen.counts, List.filter_cons]
    | update i =>
      simp only [Sys.step] at hs
      cases hp : w.recs[i]? with
      | none => rw [hp] at hs; simp at hs
      | some r =>
        rw [hp] at hs
        simp only [Option.some.injEq] at hs
        subst hs
        simp [seen]

/-- Sessions are the runs of the other properties. -/
theorem Session.reach {tr : List (Seen P)} {w : Sys P} (h : Session cfg tr w) : Reach cfg w := by
  induction h with
  | create o => exact .create o
  | step op _ hs ih => exact .step op ih hs
  | resume _ ih => exact .resume ih

theorem _root_.Verif.Strategy.Reach.session {w : Sys P} (h : Reach cfg w) : ∃ tr, Session cfg tr w := by
  induction h with
  | create o => exact ⟨_, .create o⟩
  | step op _ hs ih => obtain ⟨tr, h⟩ := ih; exact ⟨_, .step op h hs⟩
  | resume _ ih => obtain ⟨tr, h⟩ := ih; exact ⟨_, .resume h⟩

/-! ## C01–C04 as seen by the controller -/

/-- The evaluations that gave a value, in order. -/
def results (tr : List (Seen P)) : List (P × Val) :=
  tr.filterMap fun e => match e with
    | .completed x v => some (x, v)
    | _ => none

/-- The evaluations that ended, in order. -/
def ended (tr : List (Seen P)) : List (P × Option Val) :=
  tr.filterMap fun e => match e with
    | .completed x v => some (x, some v)
    | .aborted x => some (x, none)
    | _ => none

/-- Effect of an event on the number of evaluations that are proposed or running. -/
def openCountStep (n : Int) : Seen P → Int
  | .asked (.eval _ _) => n + 1
  | .rejected _ => n - 1
  | .completed _ _ => n - 1
  | .aborted _ => n - 1
  | .crashed => 0
  | _ => n

/-- The number of evaluations that are proposed or running. -/
def openCount (tr : List (Seen P)) : Int := tr.foldl openCountStep 0

omit [DecidableEq P] in
theorem results_filter (tr : List (Seen P)) : results (tr.filter Seen.counts) = results tr := by
  unfold results
  rw [List.filterMap_filter]
  congr 1
  funext e
  cases e with
  | asked a => cases a <;> rfl
  | _ => rfl

omit [DecidableEq P] in
theorem ended_filter (tr : List (Seen P)) : ended (tr.filter Seen.counts) = ended tr := by
  unfold ended
  rw [List.filterMap_filter]
  congr 1
  funext e
  cases e with
  | asked a => cases a <;> rfl
  | _ => rfl

omit [DecidableEq P] in
theorem results_external (l : List (Event P)) : results (l.filterMap external) = completions l := by
  unfold results completions
  rw [List.filterMap_filterMap]
  congr 1
  funext e
  cases e <;> rfl

omit [DecidableEq P] in
theorem ended_external (l : List (Event P)) : ended (l.filterMap external) = finished l := by
  unfold ended finished
  rw [List.filterMap_filterMap]
  congr 1
  funext e
  cases e <;> rfl

theorem session_results {tr : List (Seen P)} {w : Sys P} (h : Session cfg tr w) : completions w.st.log = results tr := by
  rw [← results_external, session_log h, results_filter]

theorem session_ended {tr : List (Seen P)} {w : Sys P} (h : Session cfg tr w) : finished w.st.log = ended tr := by
  rw [← ended_external, session_log h, ended_filter]

/-- The outstanding proposals and records are those the controller counts. -/
theorem session_open {tr : List (Seen P)} {w : Sys P} (h : Session cfg tr w) : openCount tr = w.inflight.length := by
  induction h with
  | create o => rfl
  | resume _ _ => simp [openCount, openCountStep, Sys.resumed, Sys.inflight]
  | @step tr w w' op h hs ih =>
    have hf : openCount (tr ++ seen cfg w op) = (seen cfg w op).foldl openCountStep (openCount tr) := by
      unfold openCount; rw [List.foldl_append]
    rw [hf, ih]
    have hlen : ∀ w : Sys P, (w.inflight.length : Int) = w.props.length + w.recs.length := by
      intro w; simp [Sys.inflight]
    rw [hlen, hlen]
    cases op with
    | propose o =>
      simp only [Sys.step] at hs
      simp only [seen]
      cases hp : w.st.proposeAction cfg o with
      | none => rw [hp] at hs; simp at hs
      | some r =>
        obtain ⟨a, s⟩ := r
        rw [hp] at hs
        cases a <;> simp only [Option.some.injEq] at hs <;> subst hs <;> simp [openCountStep]
        ring
    | accept i =>
      simp only [Sys.step] at hs
      simp only [seen]
      cases hp : w.props[i]? with
      | none => rw [hp] at hs; simp at hs
      | some p =>
        rw [hp] at hs
        simp only [Option.some.injEq] at hs
        subst hs
        have hi := (List.getElem?_eq_some_iff.mp hp).1
        simp [openCountStep, List.length_eraseIdx, hi]
        omega
    | reject i =>
      simp only [Sys.step] at hs
      simp only [seen]
      cases hp : w.props[i]? with
      | none => rw [hp] at hs; simp at hs
      | some p =>
        rw [hp] at hs
        simp only [Option.some.injEq] at hs
        subst hs
        have hi := (List.getElem?_eq_some_iff.mp hp).1
        simp [openCountStep, List.length_eraseIdx, hi]
        omega
    | complete i v =>
      simp only [Sys.step] at hs
      simp only [seen]
      cases hp : w.recs[i]? with
      | none => rw [hp] at hs; simp at hs
      | some r =>
        rw [hp] at hs
        simp only [Option.some.injEq] at hs
        subst hs
        have hi := (List.getElem?_eq_some_iff.mp hp).1
        simp [openCountStep, List.length_eraseIdx, hi]
        omega
    | abort i =>
      simp only [Sys.step] at hs
      simp only [seen]
      cases hp : w.recs[i]? with
      | none => rw [hp] at hs; simp at hs
      | some r =>
        rw [hp] at hs
        simp only [Option.some.injEq] at hs
        subst hs
        have hi := (List.getElem?_eq_some_iff.mp hp).1
        simp [openCountStep, List.length_eraseIdx, hi]
        omega
    | update i =>
      simp only [Sys.step] at hs
      cases hp : w.recs[i]? with
      | none => rw [hp] at hs; simp at hs
      | some r =>
        rw [hp] at hs
        simp only [Option.some.injEq] at hs
        subst hs
        simp [seen]

/-- The budget, from outside: results received plus evaluations proposed or running are at most `max_evals`. -/
theorem C01_session {tr : List (Seen P)} {w : Sys P} (h : Session cfg tr w) :
    (results tr).length + openCount tr ≤ max cfg.maxEvals 0 := by
  rw [session_open h, ← session_results h]
  exact_mod_cast (C01_budget h.reach).1

/-- `pending_evals`, from outside. -/
theorem C02_session {tr : List (Seen P)} {w : Sys P} (h : Session cfg tr w) : w.st.pendingEvals = openCount tr := by
  rw [session_open h]; exact C02_pending_exact h.reach

/-- `X`, `fX`, `num_evals`, from outside. -/
theorem C03_session {tr : List (Seen P)} {w : Sys P} (h : Session cfg tr w) :
    w.st.X = (known cfg.extras ++ results tr).map Prod.fst ∧ w.st.fX = (known cfg.extras ++ results tr).map Prod.snd ∧
    w.st.numEvals = (results tr).length := by
  rw [← session_results h]; exact C03_history h.reach

/-- `fevals`, from outside. -/
theorem C04_session {tr : List (Seen P)} {w : Sys P} (h : Session cfg tr w) :
    w.st.fevals.map (fun f => (f.x, f.value)) = ended tr := by
  rw [← session_ended h]; exact (C04_record_log h.reach).1

/-- A session with a rejected proposal, a result, an aborted evaluation, and a crash. -/
example : ∃ w : Sys Nat, ∃ tr, Session (P := Nat) ⟨true, 1, 5, false, 2, [], none⟩ tr w ∧ results tr = [(1, 7)] ∧
    ended tr = [(1, some 7), (0, none)] ∧ openCount tr = 0 := by
  refine ⟨_, _, .resume (.step (.abort 0) (.step (.accept 0) (.step (.propose ⟨id, id, false⟩)
    (.step (.complete 0 7) (.step (.accept 0) (.step (.propose ⟨id, id, false⟩) (.step (.reject 0)
      (.step (.propose ⟨id, id, false⟩) (.create ⟨id, id, false⟩) rfl) rfl) rfl) rfl) rfl) rfl) rfl) rfl), ?_⟩
  decide +kernel

end Verif.Props
