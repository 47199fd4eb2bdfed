import Verif.Checkpoint.Again
import Verif.Checkpoint.Model
import Verif.Props.Budget

/-!
# Runs that are killed and resumed

One worker, an objective `F`, and an experimental design and auxiliary problem whose answers `O` depend on the finished
evaluations only.  The processes are killed and resumed from the checkpoint file any number of times.  The relation between
such a run and the run that is never killed.
-/

set_option linter.unusedSectionVars false

namespace Verif.Checkpoint

open Verif.Strategy Verif.Spec

variable {P : Type} [DecidableEq P] {cfg : Config P} {first : Bool} {F : P → Val} {O : List (P × Option Val) → Option Srbf → Oracle P}

/-- The finished evaluations `strategy.fevals` (ss.py:125-126): points and values, in order. -/
def past (w : Sys P) : List (P × Option Val) := w.st.fevals.map fun f => (f.x, f.value)

/-- What happens next with one worker and a controller that accepts every proposal: accept the outstanding proposal, finish the
running evaluation, or ask for a proposal. (POAP's serial controller, ss.py:249-439.) -/
def nextOp (F : P → Val) (O : List (P × Option Val) → Option Srbf → Oracle P) (w : Sys P) : Op P :=
  match w.props, w.recs with
  | _ :: _, _ => .accept 0
  | [], r :: _ => .complete 0 (F r.x)
  | [], [] => .propose (O (past w) w.st.srbf)

/-- The run without interruption after `n` events. (ss.py:82-439.) -/
def alone (cfg : Config P) (F : P → Val) (O : List (P × Option Val) → Option Srbf → Oracle P) : Nat → Option (Sys P)
  | 0 => some (Sys.create cfg (O [] none))
  | n + 1 => (alone cfg F O n).bind fun w => w.step cfg (nextOp F O w)

/-- Nothing was running when the snapshot was taken, or it was taken in the initial phase, or there is only one weight. -/
def Harmless (cfg : Config P) (d : Sys P) : Prop :=
  d.inflight = [] ∨ d.st.phase = .initial ∨ ∀ sc, cfg.srbf = some sc → sc.weights.length = 1

/-- The worlds of a run that is killed and resumed any number of times, where only snapshots with `Q` are resumed.
(controller.py:65-131, ss.py:166-191.) -/
inductive Killed (first : Bool) (cfg : Config P) (F : P → Val) (O : List (P × Option Val) → Option Srbf → Oracle P)
    (Q : Sys P → Prop) : World P → Prop
  | init : Killed first cfg F O Q { proc := none, disk := none, total := 0, resumes := 0 }
  | run {W W' : World P} : Killed first cfg F O Q W → W.step first cfg (.run (O [] none)) = some (.ok W') → Killed first cfg F O Q W'
  | crash {W W' : World P} : Killed first cfg F O Q W → W.step first cfg .crash = some (.ok W') → Killed first cfg F O Q W'
  | resume {W W' : World P} : Killed first cfg F O Q W → (∀ d, W.disk = some d → Q d) →
      W.step first cfg .resume = some (.ok W') → Killed first cfg F O Q W'
  | ev {W W' : World P} {w : Sys P} : Killed first cfg F O Q W → W.proc = some w →
      W.step first cfg (.ev (nextOp F O w)) = some (.ok W') → Killed first cfg F O Q W'

theorem nextOp_allowed (w : Sys P) : Allowed w (nextOp F O w) := by
  unfold nextOp
  split
  · trivial
  · trivial
  · rename_i h1 h2
    simp [Allowed, Sys.inflight, h1, h2]

theorem alone_oneWorker {n : Nat} {u : Sys P} (h : alone cfg F O n = some u) : OneWorker cfg u := by
  induction n generalizing u with
  | zero => simp only [alone, Option.some.injEq] at h; rw [← h]; exact .create _
  | succ n ih =>
    simp only [alone, Option.bind_eq_some_iff] at h
    obtain ⟨w, hw, hs⟩ := h
    exact (ih hw).step _ (nextOp_allowed w) hs

theorem alone_succ {n : Nat} {u u' : Sys P} (h : alone cfg F O n = some u) (hs : u.step cfg (nextOp F O u) = some u') :
    alone cfg F O (n + 1) = some u' := by
  simp [alone, h, hs]

/-- With one worker every running evaluation counts. -/
theorem OneWorker.fresh (hc : cfg.asynchronous = true ∨ cfg.batchSize = 1) {w : Sys P} (h : OneWorker cfg w) :
    ∀ r ∈ w.recs, w.st.evLast < r.evId := by
  induction h with
  | create o => simp [Sys.create]
  | resume _ _ => simp [Sys.resumed]
  | @step w w' op hw ha hs ih =>
    have hone := (hw.single hc).one
    simp only [Sys.inflight, List.length_append, List.length_map] at hone
    cases op with
    | propose o =>
      have hr : w.recs = [] := by
        simp only [Allowed, Sys.inflight, List.append_eq_nil_iff, List.map_eq_nil_iff] at ha
        exact ha.2
      simp only [Sys.step] at hs
      split at hs <;> simp only [reduceCtorEq, Option.some.injEq] at hs <;> rw [← hs] <;> simp [hr]
    | accept i =>
      simp only [Sys.step] at hs
      split at hs
      · simp at hs
      · rename_i p hp
        simp only [Option.some.injEq] at hs
        have hl : 0 < w.props.length := by
          obtain ⟨hi, -⟩ := List.getElem?_eq_some_iff.1 hp
          omega
        have hr : w.recs = [] := List.eq_nil_of_length_eq_zero (by omega)
        rw [← hs]
        simp only [hr, List.nil_append, List.mem_singleton, forall_eq]
        exact hw.reach.ids.lt
    | reject i =>
      simp only [Sys.step] at hs
      split at hs
      · simp at hs
      · rename_i p hp
        simp only [Option.some.injEq] at hs
        have hl : 0 < w.props.length := by
          obtain ⟨hi, -⟩ := List.getElem?_eq_some_iff.1 hp
          omega
        have hr : w.recs = [] := List.eq_nil_of_length_eq_zero (by omega)
        rw [← hs]; simp [hr]
    | complete i v =>
      simp only [Sys.step] at hs
      split at hs
      · simp at hs
      · rename_i r hr
        simp only [Option.some.injEq] at hs
        obtain ⟨hi, -⟩ := List.getElem?_eq_some_iff.1 hr
        have : w.recs.eraseIdx i = [] := List.eq_nil_of_length_eq_zero (by rw [List.length_eraseIdx_of_lt hi]; omega)
        rw [← hs]; simp [this]
    | abort i =>
      simp only [Sys.step] at hs
      split at hs
      · simp at hs
      · rename_i r hr
        simp only [Option.some.injEq] at hs
        obtain ⟨hi, -⟩ := List.getElem?_eq_some_iff.1 hr
        have : w.recs.eraseIdx i = [] := List.eq_nil_of_length_eq_zero (by rw [List.length_eraseIdx_of_lt hi]; omega)
        rw [← hs]; simp [this]
    | update i =>
      simp only [Sys.step] at hs
      split at hs
      · simp at hs
      · simp only [Option.some.injEq] at hs; rw [← hs]; exact ih

/-! ## The relation -/

/-- What is outstanding, no matter whether it has been accepted. -/
def flights (w : Sys P) : List (P × Kind) := w.props.map (fun p => (p.x, p.kind)) ++ w.recs.map fun r => (r.x, r.kind)

/-- The strategy of the killed run has seen the same as the one of the uninterrupted run. -/
structure Same (w u : Sys P) : Prop where
  bare : w.st.bare = u.st.bare
  props : u.props = []
  flights : flights w = flights u

/-- The killed run has lost the evaluation that is running in the uninterrupted run. -/
structure Lost (cfg : Config P) (w u : Sys P) : Prop where
  bare : w.st.bare = u.st.resume.bare
  props : u.props = []
  recs : u.recs ≠ []
  idle : w.props = [] ∧ w.recs = []
  harmless : Harmless cfg u

/-- Asking again after a resume repeats the running evaluation. -/
def Again (cfg : Config P) (O : List (P × Option Val) → Option Srbf → Oracle P) (u : Sys P) : Prop :=
  Harmless cfg u → ∀ r ∈ u.recs, erased (u.st.resume.proposeAction cfg (O (past u) u.st.srbf)) = some (.eval r.x r.kind, u.st.bare)

theorem past_bare {s t : State P} (h : s.bare = t.bare) :
    s.fevals.map (fun f => (f.x, f.value)) = t.fevals.map fun f => (f.x, f.value) := by
  have := congrArg (fun s => s.fevals.map fun f => (f.x, f.value)) h
  simpa [State.bare, Function.comp_def] using this

theorem note_bare (s : State P) (e : Event P) : (s.note e).bare = s.bare := by simp [State.note, State.bare]

theorem onAccept_bare (s : State P) : s.onAccept.bare = s.bare := by simp [State.onAccept, State.bare]

theorem resume_fevals (s : State P) : s.resume.fevals = s.fevals := by rw [resume_eq]

theorem nothing_pending {w : Sys P} (h : OneWorker cfg w) (hi : w.inflight = []) : w.st.pendingEvals = 0 ∧ w.st.Xpend = [] := by
  refine ⟨?_, ?_⟩
  · have h1 := h.reach.book.pending
    simp only [Sys.inflight, List.append_eq_nil_iff, List.map_eq_nil_iff] at hi
    rw [hi.1, hi.2] at h1
    simpa using h1
  · by_contra hne
    obtain ⟨y, l, hl⟩ := List.exists_cons_of_ne_nil hne
    have h1 := h.reach.xpend.le y
    rw [hi, hl] at h1
    simp at h1

theorem resume_idle {s : State P} (hp : s.pendingEvals = 0) (hX : s.Xpend = []) : s.resume.bare = s.bare := by
  simp only [resume_eq, State.bare, State.mk.injEq]
  simp [hp, hX]

/-- The call of the uninterrupted run that proposes and accepts. -/
theorem alone_ask (hc : cfg.asynchronous = true ∨ cfg.batchSize = 1) {n : Nat} {u : Sys P} (h : alone cfg F O n = some u)
    (hp : u.props = []) (hr : u.recs = []) {x : P} {k : Kind} {t : State P}
    (ha : u.st.proposeAction cfg (O (past u) u.st.srbf) = some (.eval x k, t)) :
    ∃ u', alone cfg F O (n + 2) = some u' ∧ u'.props = [] ∧ u'.st.bare = t.bare ∧ flights u' = [(x, k)] ∧ Again cfg O u' := by
  obtain ⟨st, props, recs⟩ := u
  simp only at hp hr ha
  subst hp hr
  have hop : nextOp F O (⟨st, [], []⟩ : Sys P) = .propose (O (past ⟨st, [], []⟩) st.srbf) := rfl
  let u1 : Sys P := { st := t.note (.proposed x k), props := [{ x := x, kind := k }], recs := [] }
  have hs1 : (⟨st, [], []⟩ : Sys P).step cfg (nextOp F O ⟨st, [], []⟩) = some u1 := by
    rw [hop]
    simp only [Sys.step, ha]
    rfl
  have h1 := alone_succ h hs1
  let u2 : Sys P := {
    st := (u1.st.note (.accepted x k u1.st.evNext)).onAccept
    props := []
    recs := [{ x := x, kind := k, evId := u1.st.evNext, accAt := u1.st.log.length }] }
  have hs2 : u1.step cfg (nextOp F O u1) = some u2 := rfl
  have hb : u2.st.bare = t.bare := by
    show ((u1.st.note (.accepted x k u1.st.evNext)).onAccept).bare = t.bare
    rw [onAccept_bare, note_bare]
    exact note_bare t _
  refine ⟨u2, alone_succ h1 hs2, rfl, hb, rfl, ?_⟩
  intro hh r hr
  obtain rfl : r = { x := x, kind := k, evId := u1.st.evNext, accAt := u1.st.log.length } := by simpa [u2] using hr
  have hone := alone_oneWorker h
  obtain ⟨i1, i2⟩ := nothing_pending hone rfl
  have hpast : past u2 = past (⟨st, [], []⟩ : Sys P) := by
    unfold past
    rw [past_bare hb, (Verif.Props.proposeAction_same ha).1]
  have hz : u2.st.bare.srbf = t.bare.srbf := by rw [hb]
  replace hz : u2.st.srbf = t.srbf := hz
  rw [hb, hpast, hz]
  rw [proposeAction_congr (resume_congr hb)]
  have hw1 : t.phase = .adaptive → ∀ sc, cfg.srbf = some sc → sc.weights.length = 1 := ?_
  · refine propose_again hc i1 i2 (hone.single hc).queue ha (fun hph => ?_) hw1
    rw [ask_srbf hc i1 ha (hw1 hph) hph]
    exact ⟨rfl, rfl⟩
  intro hph
  rcases hh with h0 | h0 | h0
  · simp [u2, Sys.inflight] at h0
  · have : u2.st.bare.phase = t.bare.phase := by rw [hb]
    rw [show u2.st.phase = t.phase from this, hph] at h0; simp at h0
  · exact h0

/-- The uninterrupted run gets to the same point. -/
def Tracks (cfg : Config P) (F : P → Val) (O : List (P × Option Val) → Option Srbf → Oracle P) (w : Sys P) : Prop :=
  ∃ n u, alone cfg F O n = some u ∧ Again cfg O u ∧ Same w u

/-- The uninterrupted run gets to the same point, or has one more evaluation running. -/
def Follows (cfg : Config P) (F : P → Val) (O : List (P × Option Val) → Option Srbf → Oracle P) (w : Sys P) : Prop :=
  ∃ n u, alone cfg F O n = some u ∧ Again cfg O u ∧ (Same w u ∨ Lost cfg w u)

theorem Tracks.follows {w : Sys P} (h : Tracks cfg F O w) : Follows cfg F O w := by
  obtain ⟨n, u, h1, h2, h3⟩ := h
  exact ⟨n, u, h1, h2, .inl h3⟩

theorem tracks_create : Tracks cfg F O (Sys.create cfg (O [] none)) :=
  ⟨0, _, rfl, fun _ r hr => by simp [Sys.create] at hr, rfl, rfl, rfl⟩

theorem Tracks.resumed {w : Sys P} (h : Tracks cfg F O w) (hw : OneWorker cfg w) (hp : w.props = []) (hh : Harmless cfg w) :
    Follows cfg F O w.resumed := by
  obtain ⟨n, u, h1, h2, h3⟩ := h
  refine ⟨n, u, h1, h2, ?_⟩
  have hfl := h3.flights
  simp only [flights, hp, h3.props, List.map_nil, List.nil_append] at hfl
  have hb : w.resumed.st.bare = u.st.resume.bare := by
    show ((w.st.note (.crashed w.inflight)).resume).bare = _
    exact resume_congr (by rw [note_bare, h3.bare])
  by_cases hr : w.recs = []
  · have hur : u.recs = [] := by simpa [hr] using hfl.symm
    refine .inl ⟨?_, h3.props, by simp [flights, Sys.resumed, h3.props, hur]⟩
    obtain ⟨i1, i2⟩ := nothing_pending (alone_oneWorker h1) (by simp [Sys.inflight, h3.props, hur])
    rw [hb, resume_idle i1 i2]
  · refine .inr ⟨hb, h3.props, ?_, ⟨rfl, rfl⟩, ?_⟩
    · intro hur; rw [hur] at hfl; exact hr (by simpa using hfl)
    · rcases hh with h0 | h0 | h0
      · simp [Sys.inflight, hr] at h0
      · refine .inr (.inl ?_)
        have : w.st.bare.phase = u.st.bare.phase := by rw [h3.bare]
        rw [← show w.st.phase = u.st.phase from this]; exact h0
      · exact .inr (.inr h0)

theorem Follows.agree {w : Sys P} (h : Follows cfg F O w) :
    ∃ n u, alone cfg F O n = some u ∧ past w = past u ∧ w.st.X = u.st.X ∧ w.st.fX = u.st.fX := by
  obtain ⟨n, u, h1, -, h3⟩ := h
  have key : ∀ {s t : State P}, s.bare = t.bare → s.X = t.X ∧ s.fX = t.fX := by
    intro s t h
    have a : s.bare.X = t.bare.X := by rw [h]
    have b : s.bare.fX = t.bare.fX := by rw [h]
    exact ⟨a, b⟩
  rcases h3 with h3 | h3
  · exact ⟨n, u, h1, past_bare h3.bare, key h3.bare⟩
  · refine ⟨n, u, h1, ?_, ?_⟩
    · unfold past
      rw [past_bare h3.bare, resume_fevals]
    · have := key h3.bare
      rw [resume_eq] at this
      exact this

/-- One event of the killed run. -/
theorem Follows.step (hc : cfg.asynchronous = true ∨ cfg.batchSize = 1) {w w' : Sys P} (hw : OneWorker cfg w)
    (h : Follows cfg F O w) (hs : w.step cfg (nextOp F O w) = some w') : Tracks cfg F O w' := by
  obtain ⟨n, u, h1, h2, h3⟩ := h
  have hu := alone_oneWorker h1
  obtain ⟨st, props, recs⟩ := w
  cases props with
  | cons p ps =>
    -- the proposal is accepted
    rcases h3 with h3 | h3
    · have hone := (hw.single hc).one
      simp only [Sys.inflight, List.map_cons, List.cons_append, List.length_cons, List.length_append, List.length_map] at hone
      have hps : ps = [] := List.eq_nil_of_length_eq_zero (by omega)
      have hrs : recs = [] := List.eq_nil_of_length_eq_zero (by omega)
      subst hps hrs
      have hs' : some _ = some w' := hs
      simp only [Option.some.injEq] at hs'
      refine ⟨n, u, h1, h2, ?_, h3.props, ?_⟩
      · rw [← hs', ← h3.bare]
        rw [onAccept_bare, note_bare]
      · rw [← h3.flights, ← hs']
        rfl
    · exact absurd h3.idle.1 (by simp)
  | nil =>
    cases recs with
    | cons r rs =>
      -- the evaluation is finished
      rcases h3 with h3 | h3
      · have hone := (hw.single hc).one
        simp only [Sys.inflight, List.map_nil, List.nil_append, List.map_cons, List.length_cons, List.length_map] at hone
        have hrs : rs = [] := List.eq_nil_of_length_eq_zero (by omega)
        subst hrs
        have hfl := h3.flights
        simp only [flights, h3.props, List.map_nil, List.nil_append, List.map_cons] at hfl
        obtain ⟨us, up, ur⟩ := u
        have hup : up = [] := h3.props
        subst hup
        obtain ⟨r', hr'⟩ : ∃ r', ur = [r'] := by
          have := congrArg List.length hfl
          simp only [List.length_cons, List.length_nil, List.length_map] at this
          exact List.length_eq_one_iff.1 this.symm
        subst hr'
        simp only [List.map_cons, List.map_nil, List.cons.injEq, Prod.mk.injEq, and_true] at hfl
        obtain ⟨hx, hk⟩ := hfl
        have e1 := OneWorker.fresh hc hw r (by simp)
        have e2 := OneWorker.fresh hc hu r' (by simp)
        simp only at e1 e2
        have hs' : some _ = some w' := hs
        simp only [Option.some.injEq] at hs'
        have hus : (⟨us, [], [r']⟩ : Sys P).step cfg (nextOp F O ⟨us, [], [r']⟩) = some {
          st := (us.note (.completed r'.x r'.kind (F r'.x) r'.accAt)).onCompleted cfg r'.x r'.kind (F r'.x) r'.evId
          props := []
          recs := [] } := rfl
        refine ⟨n + 1, _, alone_succ h1 hus, fun _ r hr => absurd hr (by simp), ?_, rfl, ?_⟩
        · rw [← hs']
          simp only [List.length_cons, List.length_nil]
          show (State.onCompleted cfg (st.note _) r.x r.kind (F r.x) r.evId).bare = _
          rw [← hx, ← hk]
          refine onCompleted_congr ?_ _ _ _ e1 e2
          rw [note_bare, note_bare]
          exact h3.bare
        · rw [← hs']
          rfl
      · exact absurd h3.idle.2 (by simp)
    | nil =>
      -- a proposal is requested
      simp only [nextOp, Sys.step] at hs
      rcases h3 with h3 | h3
      · have hfl := h3.flights
        simp only [flights, h3.props, List.map_nil, List.nil_append] at hfl
        have hur : u.recs = [] := by simpa using hfl.symm
        have hpast : past (⟨st, [], []⟩ : Sys P) = past u := past_bare h3.bare
        have hsz : st.bare.srbf = u.st.bare.srbf := by rw [h3.bare]
        replace hsz : st.srbf = u.st.srbf := hsz
        rw [hpast, hsz] at hs
        have hcg := proposeAction_congr (cfg := cfg) (o := O (past u) u.st.srbf) h3.bare
        simp only at hcg
        cases hpa : st.proposeAction cfg (O (past u) u.st.srbf) with
        | none => rw [hpa] at hs; simp at hs
        | some as =>
          obtain ⟨a, s1⟩ := as
          cases hpu : u.st.proposeAction cfg (O (past u) u.st.srbf) with
          | none => rw [hpa, hpu] at hcg; simp [erased] at hcg
          | some bt =>
            obtain ⟨b, t1⟩ := bt
            rw [hpa, hpu] at hcg
            simp only [erased, Option.map_some, Option.some.injEq, Prod.mk.injEq] at hcg
            obtain ⟨rfl, hb⟩ := hcg
            rw [hpa] at hs
            cases a with
            | eval x k =>
              obtain ⟨u', a1, a2, a3, a4, a5⟩ := alone_ask hc h1 h3.props hur hpu
              simp only [Option.some.injEq] at hs
              refine ⟨n + 2, u', a1, a5, ?_, a2, ?_⟩
              · rw [← hs, a3, ← hb]; exact note_bare _ _
              · rw [← hs, a4]; rfl
            | terminate =>
              simp only [Option.some.injEq] at hs
              have hus : u.step cfg (nextOp F O u) = some { u with st := t1.note .terminated } := by
                simp [nextOp, h3.props, hur, Sys.step, hpu]
              refine ⟨n + 1, _, alone_succ h1 hus, fun _ r hr => absurd hr (by simp [hur]), ?_, h3.props, ?_⟩
              · rw [← hs]; simp only [note_bare]; exact hb
              · rw [← hs]; simp [flights, h3.props, hur]
            | nothing =>
              simp only [Option.some.injEq] at hs
              have hus : u.step cfg (nextOp F O u) = some { u with st := t1 } := by
                simp [nextOp, h3.props, hur, Sys.step, hpu]
              refine ⟨n + 1, _, alone_succ h1 hus, fun _ r hr => absurd hr (by simp [hur]), ?_, h3.props, ?_⟩
              · rw [← hs]; exact hb
              · rw [← hs]; simp [flights, h3.props, hur]
      · -- the lost evaluation is proposed again
        have hpast : past (⟨st, [], []⟩ : Sys P) = past u := by
          unfold past
          rw [past_bare h3.bare, resume_fevals]
        have hsz : st.bare.srbf = u.st.resume.bare.srbf := by rw [h3.bare]
        replace hsz : st.srbf = u.st.srbf := hsz.trans (by rw [resume_eq]; rfl)
        rw [hpast, hsz] at hs
        obtain ⟨r, rs, hr⟩ := List.exists_cons_of_ne_nil h3.recs
        have hone := (hu.single hc).one
        simp only [Sys.inflight, h3.props, hr, List.map_nil, List.nil_append, List.map_cons, List.length_cons, List.length_map] at hone
        have hrs : rs = [] := List.eq_nil_of_length_eq_zero (by omega)
        subst hrs
        have hcg := proposeAction_congr (cfg := cfg) (o := O (past u) u.st.srbf) h3.bare
        rw [h2 h3.harmless r (by simp [hr])] at hcg
        simp only at hcg
        cases hpa : st.proposeAction cfg (O (past u) u.st.srbf) with
        | none => rw [hpa] at hs; simp at hs
        | some as =>
          obtain ⟨a, s1⟩ := as
          rw [hpa] at hcg hs
          simp only [erased, Option.map_some, Option.some.injEq, Prod.mk.injEq] at hcg
          obtain ⟨rfl, hb⟩ := hcg
          simp only [Option.some.injEq] at hs
          refine ⟨n, u, h1, h2, ?_, h3.props, ?_⟩
          · rw [← hs, ← hb]; exact note_bare _ _
          · rw [← hs]; simp [flights, h3.props, hr]

/-- The invariant of the worlds. -/
structure Good (first : Bool) (cfg : Config P) (F : P → Val) (O : List (P × Option Val) → Option Srbf → Oracle P) (W : World P) : Prop where
  proc : ∀ w, W.proc = some w → OneWorker cfg w ∧ Follows cfg F O w
  disk : ∀ d, W.disk = some d → OneWorker cfg d ∧ Tracks cfg F O d ∧ d.props = [] ∧ (first = false → d.recs = [])

theorem Killed.good {Q : Sys P → Prop} (hc : cfg.asynchronous = true ∨ cfg.batchSize = 1)
    (hQ : ∀ d, Q d → (first = false → d.inflight = []) → Harmless cfg d) {W : World P} (h : Killed first cfg F O Q W) :
    Good first cfg F O W := by
  induction h with
  | init => exact ⟨fun w h => by simp at h, fun d h => by simp at h⟩
  | @run W W' _ hs ih =>
    simp only [World.step] at hs
    split at hs
    · simp at hs
    · split at hs
      · simp at hs
      · simp only [Option.some.injEq, Res.ok.injEq] at hs
        rw [← hs]
        refine ⟨fun w hw => ?_, fun d hd => ih.disk d hd⟩
        simp only [Option.some.injEq] at hw
        rw [← hw]
        exact ⟨.create _, tracks_create.follows⟩
  | @crash W W' _ hs ih =>
    simp only [World.step] at hs
    split at hs
    · simp at hs
    · simp only [Option.some.injEq, Res.ok.injEq] at hs
      rw [← hs]
      exact ⟨fun w hw => by simp at hw, fun d hd => ih.disk d hd⟩
  | @resume W W' _ hh hs ih =>
    simp only [World.step] at hs
    split at hs
    · simp at hs
    · split at hs
      · simp at hs
      · rename_i d hd
        simp only [Option.some.injEq, Res.ok.injEq] at hs
        rw [← hs]
        refine ⟨fun w hw => ?_, fun d' hd' => ih.disk d' hd'⟩
        simp only [Option.some.injEq] at hw
        rw [← hw]
        obtain ⟨d1, d2, d3, d4⟩ := ih.disk d hd
        refine ⟨d1.resume, d2.resumed d1 d3 (hQ d (hh d hd) fun hf => ?_)⟩
        simp [Sys.inflight, d3, d4 hf]
  | @ev W W' w _ hw hs ih =>
    obtain ⟨w1, w2⟩ := ih.proc w hw
    simp only [World.step, hw] at hs
    split at hs
    · simp at hs
    · rename_i w' hst
      have n1 := w1.step _ (nextOp_allowed w) hst
      have n2 := w2.step hc w1 hst
      split at hs
      · rename_i hfin
        simp only [Option.some.injEq, Res.ok.injEq] at hs
        rw [← hs]
        -- a record is finished
        have hcase : w.props = [] ∧ w.recs ≠ [] ∧ w'.props = [] ∧ w'.recs = [] := by
          unfold nextOp at hfin hst
          split at hfin
          · simp [Op.finishes] at hfin
          · rename_i r rs hp hr
            rw [hp, hr] at hst
            simp only [Sys.step, hr, List.getElem?_cons_zero, Option.some.injEq] at hst
            have hone := (w1.single hc).one
            simp only [Sys.inflight, hp, hr, List.map_nil, List.nil_append, List.map_cons, List.length_cons, List.length_map] at hone
            have hrs : rs = [] := List.eq_nil_of_length_eq_zero (by omega)
            refine ⟨hp, by rw [hr]; simp, by rw [← hst]; exact hp, ?_⟩
            rw [← hst, hrs]; rfl
          · simp [Op.finishes] at hfin
        refine ⟨fun v hv => ?_, fun d hd => ?_⟩
        · simp only [Option.some.injEq] at hv
          rw [← hv]; exact ⟨n1, n2.follows⟩
        · simp only [Option.some.injEq] at hd
          rw [← hd]
          cases first
          · exact ⟨n1, n2, hcase.2.2.1, fun _ => hcase.2.2.2⟩
          · refine ⟨w1, ?_, hcase.1, fun h => by cases h⟩
            obtain ⟨n, u, h1, h2, h3 | h3⟩ := w2
            · exact ⟨n, u, h1, h2, h3⟩
            · exact absurd h3.idle.2 hcase.2.1
      · split at hs
        · rename_i hter
          simp only [Option.some.injEq, Res.ok.injEq] at hs
          rw [← hs]
          refine ⟨fun v hv => by simp at hv, fun d hd => ?_⟩
          simp only [Option.some.injEq] at hd
          rw [← hd]
          suffices hh : w'.props = [] ∧ w'.recs = [] from ⟨n1, n2, hh.1, fun _ => hh.2⟩
          unfold nextOp at hter hst
          split at hter
          · simp [terminates] at hter
          · simp [terminates] at hter
          · rename_i hp hr
            rw [hp, hr] at hst
            simp only [Sys.step] at hst
            simp only [terminates] at hter
            split at hter
            · rename_i t ht
              rw [ht] at hst
              simp only [Option.some.injEq] at hst
              rw [← hst]; exact ⟨hp, hr⟩
            · simp at hter
        · simp only [Option.some.injEq, Res.ok.injEq] at hs
          rw [← hs]
          refine ⟨fun v hv => ?_, fun d hd => ih.disk d hd⟩
          simp only [Option.some.injEq] at hv
          rw [← hv]; exact ⟨n1, n2.follows⟩

/-! ## The end of the run -/

/-- The controller is about to ask, and the answer is `Proposal("terminate")`. (ss.py:267-269.) -/
def Ended (cfg : Config P) (F : P → Val) (O : List (P × Option Val) → Option Srbf → Oracle P) (w : Sys P) : Prop :=
  terminates cfg w (nextOp F O w) = true

theorem Ended.iff {w : Sys P} : Ended cfg F O w ↔ w.props = [] ∧ w.recs = [] ∧
    ∃ s, w.st.proposeAction cfg (O (past w) w.st.srbf) = some (.terminate, s) := by
  obtain ⟨st, props, recs⟩ := w
  unfold Ended nextOp
  cases props with
  | cons p ps => simp [terminates]
  | nil =>
    cases recs with
    | cons r rs => simp [terminates]
    | nil =>
      simp only [terminates, true_and]
      constructor
      · intro h
        split at h
        · rename_i s hs; exact ⟨s, hs⟩
        · simp at h
      · rintro ⟨s, hs⟩
        rw [hs]

theorem Ended.step {u : Sys P} (h : Ended cfg F O u) : ∃ u', u.step cfg (nextOp F O u) = some u' ∧ Ended cfg F O u' ∧
    past u' = past u ∧ u'.st.X = u.st.X ∧ u'.st.fX = u.st.fX := by
  obtain ⟨h1, h2, s, hs⟩ := Ended.iff.1 h
  obtain ⟨ht, hp⟩ := proposeAction_terminate_iff hs
  rw [proposeAction_terminate ht, if_pos hp] at hs
  simp only [Option.some.injEq, Prod.mk.injEq, true_and] at hs
  obtain ⟨st, props, recs⟩ := u
  simp only at h1 h2 ht hp hs
  subst h1 h2
  refine ⟨⟨s.note .terminated, [], []⟩, ?_, ?_, ?_, ?_, ?_⟩
  · show Sys.step cfg ⟨st, [], []⟩ (.propose _) = _
    simp only [Sys.step]
    rw [proposeAction_terminate ht, if_pos hp]
    simp only [hs]
  · rw [Ended.iff]
    refine ⟨rfl, rfl, ?_⟩
    have ht' : (s.note .terminated).terminate = true := by rw [← hs]; rfl
    have hp' : (s.note .terminated).pendingEvals = 0 := by rw [← hs]; exact hp
    rw [proposeAction_terminate (.inl ht'), if_pos hp']
    exact ⟨_, rfl⟩
  · rw [← hs]; rfl
  · rw [← hs]; rfl
  · rw [← hs]; rfl

theorem Ended.stays {n : Nat} {u : Sys P} (h : alone cfg F O n = some u) (he : Ended cfg F O u) (j : Nat) :
    ∃ t, alone cfg F O (n + j) = some t ∧ Ended cfg F O t ∧ past t = past u ∧ t.st.X = u.st.X ∧ t.st.fX = u.st.fX := by
  induction j with
  | zero => exact ⟨u, h, he, rfl, rfl, rfl⟩
  | succ j ih =>
    obtain ⟨t, t1, t2, t3, t4, t5⟩ := ih
    obtain ⟨t', s1, s2, s3, s4, s5⟩ := t2.step
    exact ⟨t', alone_succ t1 s1, s2, s3.trans t3, s4.trans t4, s5.trans t5⟩

theorem ended_unique {n m : Nat} {u t : Sys P} (hu : alone cfg F O n = some u) (eu : Ended cfg F O u)
    (ht : alone cfg F O m = some t) (et : Ended cfg F O t) :
    past u = past t ∧ u.st.X = t.st.X ∧ u.st.fX = t.st.fX := by
  rcases le_total n m with hnm | hnm
  · obtain ⟨j, rfl⟩ := Nat.exists_eq_add_of_le hnm
    obtain ⟨t', h1, -, h3, h4, h5⟩ := Ended.stays hu eu j
    rw [ht] at h1
    obtain rfl := Option.some.inj h1
    exact ⟨h3.symm, h4.symm, h5.symm⟩
  · obtain ⟨j, rfl⟩ := Nat.exists_eq_add_of_le hnm
    obtain ⟨t', h1, -, h3, h4, h5⟩ := Ended.stays ht et j
    rw [hu] at h1
    obtain rfl := Option.some.inj h1
    exact ⟨h3, h4, h5⟩

theorem Follows.ended {w : Sys P} (h : Follows cfg F O w) (he : Ended cfg F O w) :
    ∃ n u, alone cfg F O n = some u ∧ Same w u ∧ Ended cfg F O u := by
  obtain ⟨h1, h2, s, hs⟩ := Ended.iff.1 he
  obtain ⟨n, u, u1, u2, h3 | h3⟩ := h
  · refine ⟨n, u, u1, h3, Ended.iff.2 ⟨h3.props, ?_, ?_⟩⟩
    · have hfl := h3.flights
      simp only [flights, h1, h2, h3.props, List.map_nil, List.nil_append] at hfl
      simpa using hfl.symm
    · have hz : w.st.bare.srbf = u.st.bare.srbf := by rw [h3.bare]
      replace hz : w.st.srbf = u.st.srbf := hz
      have hpast : past w = past u := past_bare h3.bare
      have hcg := proposeAction_congr (cfg := cfg) (o := O (past u) u.st.srbf) h3.bare
      rw [hpast, hz] at hs
      rw [hs] at hcg
      cases hpu : u.st.proposeAction cfg (O (past u) u.st.srbf) with
      | none => rw [hpu] at hcg; simp [erased] at hcg
      | some bt =>
        rw [hpu] at hcg
        simp only [erased, Option.map_some, Option.some.injEq, Prod.mk.injEq] at hcg
        exact ⟨bt.2, by rw [hcg.1]⟩
  · exfalso
    obtain ⟨r, rs, hr⟩ := List.exists_cons_of_ne_nil h3.recs
    have hz : w.st.bare.srbf = u.st.resume.bare.srbf := by rw [h3.bare]
    replace hz : w.st.srbf = u.st.srbf := hz.trans (by rw [resume_eq]; rfl)
    have hpast : past w = past u := by
      unfold past
      rw [past_bare h3.bare, resume_fevals]
    have hcg := proposeAction_congr (cfg := cfg) (o := O (past u) u.st.srbf) h3.bare
    rw [u2 h3.harmless r (by simp [hr]), ← hz, ← hpast, hs] at hcg
    simp [erased] at hcg

end Verif.Checkpoint
