import Verif.Sop.Dup
import Verif.Sop.Early
import Verif.Sop.Witness
import Verif.Props.Serial

/-! # Property C111: a serial run of SOP uses its budget and ends -/

namespace Verif.Props

open Verif.Num Verif.Utils Verif.Strategy Verif.Sop Verif.Spec

variable {d : ℕ} {c : Cfg d}

/-- Is the last event "terminate"? -/
def endsTerminated (log : List (Event (Pt d))) : Bool :=
  match log.getLast? with
  | some .terminated => true
  | _ => false

/-- POAP's `SerialController.run` with SOP: ask for a proposal, accept it, evaluate, report the value, until "terminate" (flag
`true`).  The list holds the random outcomes of the single calls; `none`: the strategy raised or had no proposal. -/
noncomputable def sopSerial (c : Cfg d) (f : Pt d → Val) : List (Oracle (Pt d)) → SopSys d → Option (SopSys d × Bool)
  | [], w => some (w, false)
  | o :: os, w => (w.step c (.propose o)).bind fun w1 =>
    match w1.sys.props with
    | p :: _ => ((w1.step c (.accept 0)).bind fun w2 => w2.step c (.complete 0 (f p.x))).bind (sopSerial c f os)
    | [] => if endsTerminated w1.sys.st.log then some (w1, true) else none

/-- State of the loop between two rounds, after `n` evaluations. -/
structure SopRound (c : Cfg d) (f : Pt d → Val) (start : List (Pt d)) (n : ℕ) (w : SopSys d) : Prop where
  calm : Calm c w
  props : w.sys.props = []
  recs : w.sys.recs = []
  clean : ∀ e ∈ w.sys.st.log, isLoss e = false
  first : Event.start start ∈ w.sys.st.log
  notTerm : w.sys.st.terminate = false
  count : (completions w.sys.st.log).length = n
  values : ∀ q ∈ completions w.sys.st.log, q.2 = f q.1

theorem SopRound.inflight {f : Pt d → Val} {start : List (Pt d)} {n : ℕ} {w : SopSys d} (h : SopRound c f start n w) :
    w.sys.inflight = [] := by simp [Sys.inflight, h.props, h.recs]

theorem no_dropped {l : List (Event (Pt d))} (h : ∀ e ∈ l, isLoss e = false) (b : Bool) :
    droppedBy b l = [] ∧ crashedBy l = [] := by
  constructor
  · unfold droppedBy
    rw [List.filterMap_eq_nil_iff]
    intro e he
    have := h e he
    cases e <;> simp_all [isLoss]
  · unfold crashedBy
    rw [List.flatMap_eq_nil_iff]
    intro e he
    have := h e he
    cases e <;> simp_all [isLoss]

/-- When the queue is empty, the whole initial design has been evaluated. -/
theorem SopRound.start_done {f : Pt d → Val} {start : List (Pt d)} {n : ℕ} {w : SopSys d} (h : SopRound c f start n w)
    (hq : w.sys.st.batchQueue = []) {x : Pt d} (hx : x ∈ start) : ∃ v, (x, v) ∈ completions w.sys.st.log := by
  have hp := C06_conservation h.calm.reach.base
  obtain ⟨h1, h2⟩ := no_dropped h.clean c.base.asynchronous
  rw [hq, h.inflight, h1, h2, List.nil_append, List.nil_append, List.append_nil, List.append_nil] at hp
  have hm : x ∈ queuedBy w.sys.st.log := by
    unfold queuedBy
    rw [List.mem_flatMap]
    exact ⟨_, h.first, hx⟩
  obtain ⟨⟨y, v⟩, hy, rfl⟩ := List.mem_map.mp (hp.mem_iff.mp hm)
  exact ⟨v, hy⟩

/-- What a serial run of SOP needs. -/
structure SerialOk (c : Cfg d) : Prop where
  plain : c.base.srbf = none
  design : 0 < c.base.numPts
  centers : 0 < c.ncenters
  batch : c.base.asynchronous = true ∨ c.base.batchSize = c.ncenters
  budget : c.base.maxEvals ≠ c.base.numPts

theorem SerialOk.gen (ok : SerialOk c) : 0 < genCount c.base ∧ genCount c.base ≤ c.ncenters := by
  have := ok.centers
  unfold genCount
  rcases ok.batch with h | h
  · rw [if_pos h]; omega
  · split <;> omega

theorem SopRound.allowed (ok : SerialOk c) {f : Pt d → Val} {start : List (Pt d)} {n : ℕ} {w : SopSys d}
    (h : SopRound c f start n w)
    (ht : ∃ x ∈ start, ∃ y ∈ start, toUnitBox x c.lb c.ub ≠ toUnitBox y c.lb c.ub) {o : Oracle (Pt d)}
    (ho : w.sys.st.batchQueue = [] → Going c.base w.sys.st → c.base.asynchronous = false →
      ((List.range c.base.batchSize).map o.pts).Nodup) :
    Allowed c w (.propose o) := by
  intro hq hg ha
  refine ⟨by rw [h.props]; simp, by rw [h.recs]; simp, ?_, ?_, ?_⟩
  · obtain ⟨x, hx, y, hy, hne⟩ := ht
    obtain ⟨u, hu⟩ := h.start_done hq hx
    obtain ⟨v, hv⟩ := h.start_done hq hy
    exact ⟨_, hu, _, hv, hne⟩
  · rw [h.inflight]; simpa using ok.gen.2
  · rw [h.inflight, List.append_nil]
    unfold genCount
    cases hb : c.base.asynchronous with
    | true => simp
    | false => simpa using ho hq hg hb

/-- Accepting and completing the only proposal. -/
theorem SopRound.finish (ok : SerialOk c) {f : Pt d → Val} {start : List (Pt d)} {n : ℕ} {w w1 : SopSys d}
    (h : SopRound c f start n w) (h1 : Calm c w1) {p : Proposal (Pt d)} (hp : w1.sys.props = [p]) (hr : w1.sys.recs = [])
    {m : List (Event (Pt d))} (hl : w1.sys.st.log = w.sys.st.log ++ m) (hm : ∀ e ∈ m, isLoss e = false)
    (hcm : completions m = []) (ht : w1.sys.st.terminate = false) :
    ∃ w2 w3, w1.step c (.accept 0) = some w2 ∧ w2.step c (.complete 0 (f p.x)) = some w3 ∧
      SopRound c f start (n + 1) w3 := by
  have ha : ∃ w2, w1.step c (.accept 0) = some w2 ∧ w2.sys =
      { st := (w1.sys.st.note (.accepted p.x p.kind w1.sys.st.evNext)).onAccept
        props := []
        recs := [{ x := p.x, kind := p.kind, evId := w1.sys.st.evNext, accAt := w1.sys.st.log.length }] } := by
    unfold SopSys.step
    simp only [Sys.step, hp, hr, List.getElem?_cons_zero, List.eraseIdx_cons_zero, List.nil_append, Option.map_some]
    exact ⟨_, rfl, rfl⟩
  obtain ⟨w2, hw2, hs2⟩ := ha
  have hc2 : Calm c w2 := h1.step (.accept 0) trivial hw2
  obtain ⟨w3, hw3⟩ := (hc2.live ok.plain ok.batch ok.budget).2 0 (f p.x) (by rw [hs2]; simp)
  refine ⟨w2, w3, hw2, hw3, ?_⟩
  have hc3 : Calm c w3 := hc2.step (.complete 0 (f p.x)) trivial hw3
  obtain ⟨r, hr2, hs3, _⟩ := step_complete ok.plain hw3
  rw [hs2] at hr2 hs3
  simp only [List.getElem?_cons_zero, Option.some.injEq] at hr2
  subst hr2
  simp only [recordCompleted_eq, List.eraseIdx_cons_zero, State.note, State.onAccept, hl] at hs3
  refine ⟨hc3, by rw [hs3], by rw [hs3], ?_, ?_, by rw [hs3]; exact ht, ?_, ?_⟩
  · rw [hs3]
    refine isLoss_concat (isLoss_concat ?_ rfl) rfl
    intro e he
    rcases List.mem_append.mp he with he | he
    · exact h.clean e he
    · exact hm e he
  · rw [hs3]
    simp only [List.mem_append]
    exact Or.inl (Or.inl (Or.inl h.first))
  · rw [hs3]
    simp only [Strategy.completions_append, List.length_append, h.count, hcm]
    simp [completions]
  · rw [hs3]
    simp only [Strategy.completions_append, hcm]
    intro q hq
    simp only [completions, List.mem_append, List.filterMap_cons, List.filterMap_nil, List.mem_singleton, List.not_mem_nil,
      or_false] at hq
    rcases hq with hq | hq
    · exact h.values q hq
    · rw [hq]

/-- One round. -/
theorem SopRound.round (ok : SerialOk c) {f : Pt d → Val} {start : List (Pt d)} {n : ℕ} {w : SopSys d}
    (h : SopRound c f start n w)
    (ht : ∃ x ∈ start, ∃ y ∈ start, toUnitBox x c.lb c.ub ≠ toUnitBox y c.lb c.ub) {o : Oracle (Pt d)}
    (ho : w.sys.st.batchQueue = [] → Going c.base w.sys.st → c.base.asynchronous = false →
      ((List.range c.base.batchSize).map o.pts).Nodup) :
    ∃ w1, w.step c (.propose o) = some w1 ∧
      (c.base.maxEvals ≤ n → w1.sys.props = [] ∧ w1.sys.recs = [] ∧ endsTerminated w1.sys.st.log = true ∧
        completions w1.sys.st.log = completions w.sys.st.log) ∧
      ((n : ℤ) < c.base.maxEvals → endsTerminated w1.sys.st.log = false ∧
        ∃ p w2 w3, w1.sys.props = [p] ∧ w1.sys.recs = [] ∧ w1.step c (.accept 0) = some w2 ∧
        w2.step c (.complete 0 (f p.x)) = some w3 ∧ SopRound c f start (n + 1) w3) := by
  have hal := h.allowed ok ht ho
  obtain ⟨w1, hw1⟩ := (h.calm.live ok.plain ok.batch ok.budget).1 o hal
  have hc1 : Calm c w1 := h.calm.step _ hal hw1
  have hnum := (C03_history h.calm.reach.base).2.2
  have hpend := C02_pending_exact h.calm.reach.base
  rw [h.inflight, List.length_nil] at hpend
  rw [h.count] at hnum
  refine ⟨w1, hw1, ?_⟩
  have hprop := step_propose ok.plain (h.calm.reach.inv ok.plain).conv hw1
  have hgo : Going c.base w.sys.st → ¬ c.base.maxEvals ≤ n := by
    intro hg
    have := hg.budget
    omega
  cases hprop with
  | term htt =>
    refine ⟨fun _ => ⟨h.props, h.recs, ?_, ?_⟩, fun hlt => ?_⟩
    · simp only [termState, hpend]
      simp [State.note, endsTerminated]
    · simp only [termState, hpend]
      simp [State.note, completions]
    · rw [h.notTerm] at htt
      simp only [Bool.false_eq_true, false_or] at htt
      omega
  | queue x q hq hg =>
    refine ⟨fun hle => absurd hle (hgo hg), fun _ => ?_⟩
    have hp1 : (proposeLast w.sys w.sys.st q x (kindOf w.sys.st.phase)).props = [⟨x, kindOf w.sys.st.phase⟩] := by
      simp [proposeLast, h.props]
    obtain ⟨w2, w3, h2, h3, h4⟩ := h.finish ok hc1 (m := [.proposed x (kindOf w.sys.st.phase)]) hp1
      (by simpa [proposeLast] using h.recs) (by simp [proposeLast, State.note, State.makeProposal]) (by simp [isLoss])
      (by simp [completions]) (by simpa [proposeLast, State.note, State.makeProposal] using h.notTerm)
    exact ⟨by simp [proposeLast, State.note, State.makeProposal, endsTerminated], _, w2, w3, hp1,
      by simpa [proposeLast] using h.recs, h2, h3, h4⟩
  | gen x q z hpts hq hg ha hz =>
    refine ⟨fun hle => absurd hle (hgo hg), fun _ => ?_⟩
    have hp1 : (proposeLast w.sys (genState w.sys.st (q ++ [x])) q x .adapt).props = [⟨x, .adapt⟩] := by
      simp [proposeLast, h.props]
    obtain ⟨w2, w3, h2, h3, h4⟩ := h.finish ok hc1 (m := [.generated (q ++ [x]) [], .proposed x .adapt]) hp1
      (by simpa [proposeLast] using h.recs) (by simp [proposeLast, State.note, State.makeProposal, genState])
      (by simp [isLoss]) (by simp [completions])
      (by simpa [proposeLast, State.note, State.makeProposal, genState] using h.notTerm)
    exact ⟨by simp [proposeLast, State.note, State.makeProposal, endsTerminated], _, w2, w3, hp1,
      by simpa [proposeLast] using h.recs, h2, h3, h4⟩
  | genNone z hn => have := ok.gen.1; omega
  | wait hq hg ha hp => exact absurd hpend hp

theorem sopSerial_from (ok : SerialOk c) {M : ℕ} (hM : c.base.maxEvals = M) (f : Pt d → Val) {start : List (Pt d)}
    (ht : ∃ x ∈ start, ∃ y ∈ start, toUnitBox x c.lb c.ub ≠ toUnitBox y c.lb c.ub) (os : List (Oracle (Pt d)))
    (ho : c.base.asynchronous = false → ∀ o ∈ os, ((List.range c.base.batchSize).map o.pts).Nodup) {n : ℕ} {w : SopSys d}
    (hn : n ≤ M) (h : SopRound c f start n w) :
    ∃ w' b, sopSerial c f os w = some (w', b) ∧ Sop.Reach c w' ∧ w'.sys.inflight = [] ∧
      (completions w'.sys.st.log).length = min (n + os.length) M ∧ (∀ q ∈ completions w'.sys.st.log, q.2 = f q.1) ∧
      (b = true ↔ M < n + os.length) := by
  induction os generalizing n w with
  | nil =>
    refine ⟨w, false, rfl, h.calm.reach, h.inflight, ?_, h.values, ?_⟩
    · rw [h.count]; simp [hn]
    · simpa using hn
  | cons o os ih =>
    obtain ⟨w1, hw1, hend, hgo⟩ := h.round ok ht (o := o) fun _ _ ha => ho ha o (by simp)
    rcases Nat.lt_or_ge n M with hlt | hge
    · obtain ⟨_, p, w2, w3, hp, _, h2, h3, h4⟩ := hgo (by omega)
      obtain ⟨w', b, hr, k1, k2, k3, k4, k5⟩ := ih (fun ha o' ho' => ho ha o' (by simp [ho'])) (by omega) h4
      refine ⟨w', b, ?_, k1, k2, ?_, k4, ?_⟩
      · simp only [sopSerial, hw1, Option.bind_some, hp, h2, h3, hr]
      · rw [k3]; congr 1; simp; omega
      · rw [k5]; simp; omega
    · obtain ⟨h1, h2, h3, h4⟩ := hend (by omega)
      refine ⟨w1, true, ?_, h.calm.reach.step _ hw1, by simp [Sys.inflight, h1, h2], ?_, ?_, ?_⟩
      · simp only [sopSerial, hw1, Option.bind_some, h1, h3, if_true]
      · rw [h4, h.count]; simp; omega
      · rw [h4]; exact h.values
      · simp; omega

/-- A serial run of SOP whose initial design has two points at different places of the box, for any objective and all random
outcomes (in synchronous mode: such that the points of a batch are different): it never stalls or raises, it evaluates exactly
`max_evals` points, and then ends.  The `n`-th round evaluates the `n`-th point. -/
theorem C111_serial_run_partial (ok : SerialOk c) {M : ℕ} (hM : c.base.maxEvals = M) (f : Pt d → Val)
    (o : Oracle (Pt d)) (ht : ∃ i < c.base.numPts, ∃ j < c.base.numPts,
      toUnitBox (o.design i) c.lb c.ub ≠ toUnitBox (o.design j) c.lb c.ub) (os : List (Oracle (Pt d)))
    (ho : c.base.asynchronous = false → ∀ o ∈ os, ((List.range c.base.batchSize).map o.pts).Nodup) :
    ∃ w b, sopSerial c f os (SopSys.create c o) = some (w, b) ∧ Sop.Reach c w ∧ w.sys.inflight = [] ∧
      (completions w.sys.st.log).length = min os.length M ∧ (∀ q ∈ completions w.sys.st.log, q.2 = f q.1) ∧
      (b = true ↔ M < os.length) := by
  obtain ⟨i, hi, j, hj, hne⟩ := ht
  have h0 : SopRound c f ((List.range c.base.numPts).map o.design ++ unknownExtras c.base) 0 (SopSys.create c o) := by
    refine ⟨.create o, rfl, rfl, ?_, ?_, ?_, ?_, ?_⟩ <;>
      simp [SopSys.create, Sys.create, create_eq, completions, isLoss, State.blank]
  have h := sopSerial_from ok hM f ⟨o.design i, by simp only [List.mem_append, List.mem_map, List.mem_range]; exact Or.inl ⟨i, hi, rfl⟩,
    o.design j, by simp only [List.mem_append, List.mem_map, List.mem_range]; exact Or.inl ⟨j, hj, rfl⟩, hne⟩ os ho (Nat.zero_le _) h0
  simpa only [Nat.zero_add] using h

/-! ## The initial design -/

/-- The points that are evaluated first: the design, then the extra points without values (the queue is used from its end). -/
def firstPts (c : Cfg d) (o : Oracle (Pt d)) : List (Pt d) := (List.range c.base.numPts).map o.design ++ unknownExtras c.base

/-- After `n` evaluations of points of the design. -/
structure DesignRound (c : Cfg d) (f : Pt d → Val) (start : List (Pt d)) (n : ℕ) (w : SopSys d) : Prop where
  reach : Sop.Reach c w
  props : w.sys.props = []
  recs : w.sys.recs = []
  phase : w.sys.st.phase = .initial
  queue : w.sys.st.batchQueue = start.take (start.length - n)
  notTerm : w.sys.st.terminate = false
  gen : generatedPts w.sys.st.log = []
  done : completions w.sys.st.log = (start.reverse.take n).map fun x => (x, f x)

theorem DesignRound.nums {f : Pt d → Val} {start : List (Pt d)} {n : ℕ} {w : SopSys d} (h : DesignRound c f start n w)
    (hn : n ≤ start.length) : w.sys.st.numEvals = n ∧ w.sys.st.pendingEvals = 0 := by
  have hnum := (C03_history h.reach.base).2.2
  have hpend := C02_pending_exact h.reach.base
  rw [h.done] at hnum
  rw [show w.sys.inflight = [] by simp [Sys.inflight, h.props, h.recs]] at hpend
  simp only [List.length_map, List.length_take, List.length_reverse, Nat.min_eq_left hn] at hnum
  exact ⟨hnum, by simpa using hpend⟩

theorem DesignRound.round (hs : c.base.srbf = none) {f : Pt d → Val} {start : List (Pt d)} {n : ℕ} {w : SopSys d}
    (h : DesignRound c f start n w) (hn : n < start.length) (hM : (n : ℤ) < c.base.maxEvals) (o : Oracle (Pt d)) :
    ∃ p w1 w2 w3, w.step c (.propose o) = some w1 ∧ w1.sys.props = [p] ∧ w1.step c (.accept 0) = some w2 ∧
        w2.step c (.complete 0 (f p.x)) = some w3 ∧ DesignRound c f start (n + 1) w3 := by
  obtain ⟨h1, h2⟩ := h.nums hn.le
  have hg : Going c.base w.sys.st := ⟨h.notTerm, by rw [h1, h2]; simpa using hM⟩
  have hlt : start.length - (n + 1) < start.length := by omega
  have hq : w.sys.st.batchQueue = start.take (start.length - (n + 1)) ++ [start[start.length - (n + 1)]] := by
    rw [h.queue, show start.length - n = start.length - (n + 1) + 1 by omega, List.take_succ_eq_append_getElem]
  set x := start[start.length - (n + 1)] with hx
  have hw1 := step_propose_queue hs w (h.reach.inv hs).conv o hg hq
  set w1 : SopSys d := ⟨proposeLast w.sys w.sys.st (start.take (start.length - (n + 1))) x (kindOf w.sys.st.phase), w.sop⟩
    with hw1d
  have hp1 : w1.sys.props = [⟨x, .init⟩] := by rw [hw1d]; simp [proposeLast, h.props, h.phase, kindOf]
  have hr1 : w1.sys.recs = [] := by rw [hw1d]; simp [proposeLast, h.recs]
  have ha : ∃ w2, w1.step c (.accept 0) = some w2 ∧ w2.sys =
      { st := (w1.sys.st.note (.accepted x .init w1.sys.st.evNext)).onAccept
        props := []
        recs := [{ x := x, kind := .init, evId := w1.sys.st.evNext, accAt := w1.sys.st.log.length }] } := by
    unfold SopSys.step
    simp only [Sys.step, hp1, hr1, List.getElem?_cons_zero, List.eraseIdx_cons_zero, List.nil_append, Option.map_some]
    exact ⟨_, rfl, rfl⟩
  obtain ⟨w2, hw2, hs2⟩ := ha
  have hc : ∃ w3, w2.step c (.complete 0 (f x)) = some w3 := by
    unfold SopSys.step
    simp only [Sys.step, hs2, List.getElem?_cons_zero]
    exact ⟨_, rfl⟩
  obtain ⟨w3, hw3⟩ := hc
  refine ⟨_, w1, w2, w3, hw1, hp1, hw2, hw3, ?_⟩
  obtain ⟨r, hr2, hs3, _⟩ := step_complete hs hw3
  rw [hs2] at hr2 hs3
  simp only [List.getElem?_cons_zero, Option.some.injEq] at hr2
  subst hr2
  simp only [recordCompleted_eq, List.eraseIdx_cons_zero, State.note, State.onAccept] at hs3
  have hlog : w1.sys.st.log = w.sys.st.log ++ [.proposed x .init] := by
    rw [hw1d]; simp [proposeLast, State.note, State.makeProposal, h.phase, kindOf]
  refine ⟨((h.reach.step _ hw1).step _ hw2).step _ hw3, by rw [hs3], by rw [hs3], ?_, ?_, ?_, ?_, ?_⟩
  · rw [hs3]; exact h.phase
  · rw [hs3]; rfl
  · rw [hs3]; exact h.notTerm
  · rw [hs3]
    simp only [hlog, generatedPts_append, h.gen]
    simp [generatedPts]
  · rw [hs3]
    simp only [hlog, Strategy.completions_append, h.done]
    have : start.reverse.take (n + 1) = start.reverse.take n ++ [x] := by
      rw [List.take_succ_eq_append_getElem (by simpa using hn)]
      congr 2
      rw [List.getElem_reverse, hx]
      congr 1
      omega
    rw [this]
    simp [completions]

theorem designRounds (hs : c.base.srbf = none) {f : Pt d → Val} {start : List (Pt d)} (os : List (Oracle (Pt d)))
    (rest : List (Oracle (Pt d))) {n : ℕ} {w : SopSys d} (h : DesignRound c f start n w) (hn : n + os.length ≤ start.length)
    (hM : ((n + os.length : ℕ) : ℤ) ≤ c.base.maxEvals) :
    ∃ w', sopSerial c f (os ++ rest) w = sopSerial c f rest w' ∧ DesignRound c f start (n + os.length) w' := by
  induction os generalizing n w with
  | nil => exact ⟨w, rfl, h⟩
  | cons o os ih =>
    simp only [List.length_cons] at hn hM
    obtain ⟨p, w1, w2, w3, h1, hp, h2, h3, h4⟩ := h.round hs (by omega) (by omega) o
    obtain ⟨w', k1, k2⟩ := ih h4 (by omega) (by omega)
    refine ⟨w', ?_, ?_⟩
    · simp only [List.cons_append, sopSerial, h1, Option.bind_some, hp, h2, h3, k1]
    · rw [show n + (o :: os).length = n + 1 + os.length by simp; omega]; exact k2

theorem designRound_create (f : Pt d → Val) (o : Oracle (Pt d)) :
    DesignRound c f (firstPts c o) 0 (SopSys.create c o) := by
  refine ⟨.create o, rfl, rfl, ?_, ?_, ?_, ?_, ?_⟩ <;>
    simp [SopSys.create, Sys.create, create_eq, completions, State.blank, firstPts, generatedPts]

/-- The first rounds evaluate the extra points without values and the initial design, from the last to the first, whatever the
design is; if the budget is not larger than that, the run then ends. -/
theorem C111_design_partial (hs : c.base.srbf = none) {M : ℕ} (hM : c.base.maxEvals = M) (f : Pt d → Val) (o : Oracle (Pt d))
    (os : List (Oracle (Pt d))) (hl : min os.length M ≤ c.base.numPts + (unknownExtras c.base).length) :
    ∃ w b, sopSerial c f os (SopSys.create c o) = some (w, b) ∧ Sop.Reach c w ∧ w.sys.inflight = [] ∧
      completions w.sys.st.log = (((List.range c.base.numPts).map o.design ++ unknownExtras c.base).reverse.take
        (min os.length M)).map (fun x => (x, f x)) ∧
      (b = true ↔ M < os.length) := by
  have hlen : (firstPts c o).length = c.base.numPts + (unknownExtras c.base).length := by simp [firstPts]
  have h0 := designRound_create (c := c) f o
  rcases Nat.lt_or_ge M os.length with hlt | hge
  · rw [Nat.min_eq_right hlt.le] at hl ⊢
    have htl : (os.take M).length = M := by simp; omega
    obtain ⟨w, h1, h2⟩ := designRounds hs (os.take M) (os.drop M) h0 (by rw [htl]; omega) (by rw [htl]; omega)
    rw [List.take_append_drop] at h1
    rw [htl, Nat.zero_add] at h2
    obtain ⟨k1, k2⟩ := h2.nums (by omega)
    obtain ⟨o', rest, hd⟩ : ∃ o' rest, os.drop M = o' :: rest := by
      cases hd : os.drop M with
      | nil => have := congrArg List.length hd; simp at this; omega
      | cons a l => exact ⟨a, l, rfl⟩
    have hstep : ∃ w1, w.step c (.propose o') = some w1 ∧ w1.sys = { w.sys with st := termState w.sys.st } := by
      have hc : w.sys.st.terminate = true ∨ c.base.maxEvals ≤ w.sys.st.numEvals + w.sys.st.pendingEvals := by
        right; rw [k1, k2, hM]; simp
      have hn : generatedNow w.sys.st.log (termState w.sys.st).log = none := by
        unfold termState
        rw [if_pos k2]
        exact generatedNow_append _ _ []
      unfold SopSys.step
      simp only [base_propose c.base hs w.sys (h2.reach.inv hs).conv { o' with giveUp := false } rfl, if_pos hc, hn]
      exact ⟨_, rfl, rfl⟩
    obtain ⟨w1, hw1, hs1⟩ := hstep
    have hend : endsTerminated w1.sys.st.log = true := by
      rw [hs1]; simp only [termState, k2]; simp [State.note, endsTerminated]
    refine ⟨w1, true, ?_, h2.reach.step _ hw1, ?_, ?_, ?_⟩
    · rw [h1, hd]
      simp only [sopSerial, hw1, Option.bind_some, hs1, h2.props]
      rw [hs1] at hend
      simp only at hend
      rw [hend]
      simp only [if_true, Option.some.injEq, Prod.mk.injEq, and_true]
    · rw [hs1]; simp [Sys.inflight, h2.props, h2.recs]
    · rw [hs1]
      simp only [termState, k2, if_true, State.note, Strategy.completions_append, h2.done]
      simp [completions, firstPts]
    · simp [hlt]
  · rw [Nat.min_eq_left hge] at hl ⊢
    obtain ⟨w, h1, h2⟩ := designRounds hs os [] h0 (by omega) (by omega)
    rw [List.append_nil] at h1
    refine ⟨w, false, h1, h2.reach, by simp [Sys.inflight, h2.props, h2.recs], ?_, by simp; omega⟩
    rw [h2.done, Nat.zero_add]; rfl

/-- If all initial points lie at the same place of the box (for example a design of a single point), a serial run with a larger
budget raises as soon as they are evaluated, for every objective and all random outcomes. -/
theorem C111_refuted (ok : SerialOk c) (f : Pt d → Val) (o : Oracle (Pt d)) {u : Pt d}
    (hu : ∀ x ∈ (List.range c.base.numPts).map o.design ++ unknownExtras c.base, toUnitBox x c.lb c.ub = u)
    (hM : ((c.base.numPts + (unknownExtras c.base).length : ℕ) : ℤ) < c.base.maxEvals) (os : List (Oracle (Pt d)))
    (hl : c.base.numPts + (unknownExtras c.base).length < os.length) :
    sopSerial c f os (SopSys.create c o) = none := by
  have hlen : (firstPts c o).length = c.base.numPts + (unknownExtras c.base).length := by simp [firstPts]
  have h0 := designRound_create (c := c) f o
  set N := c.base.numPts + (unknownExtras c.base).length with hN
  have htl : (os.take N).length = N := by simp; omega
  obtain ⟨w, h1, h2⟩ := designRounds ok.plain (os.take N) (os.drop N) h0 (by rw [htl]; omega) (by rw [htl]; omega)
  rw [List.take_append_drop] at h1
  rw [htl, Nat.zero_add] at h2
  obtain ⟨k1, k2⟩ := h2.nums (by omega)
  obtain ⟨o', rest, hd⟩ : ∃ o' rest, os.drop N = o' :: rest := by
    cases hd : os.drop N with
    | nil => have := congrArg List.length hd; simp at this; omega
    | cons a l => exact ⟨a, l, rfl⟩
  have hq : w.sys.st.batchQueue = [] := by rw [h2.queue, hlen]; simp
  have hno : w.step c (.propose o') = none := by
    rw [← Option.not_isSome_iff_eq_none, Option.isSome_iff_exists,
      first_generation ok.plain ok.gen.1 ok.gen.2 ok.budget h2.reach h2.gen hq ⟨h2.notTerm, by rw [k1, k2]; simpa using hM⟩
        (Or.inr k2) o']
    rintro ⟨p, hp, q, hq', hne⟩
    rw [h2.done] at hp hq'
    obtain ⟨x, hx, rfl⟩ := List.mem_map.mp hp
    obtain ⟨y, hy, rfl⟩ := List.mem_map.mp hq'
    have hx' := hu x (by have := List.mem_of_mem_take hx; rwa [List.mem_reverse] at this)
    have hy' := hu y (by have := List.mem_of_mem_take hy; rwa [List.mem_reverse] at this)
    exact hne (hx'.trans hy'.symm)
  rw [h1, hd]
  simp only [sopSerial, hno, Option.bind_none]

/-- Two design points, budget 20, asynchronous: twenty points are evaluated. -/
example (f : Pt 1 → Val) (xs : List (Pt 1)) (hx : 20 < xs.length) :
    ∃ w, sopSerial (wcfg true 1 1) f (xs.map worc) (SopSys.create (wcfg true 1 1) (worc (pt 0))) = some (w, true) ∧
      (completions w.sys.st.log).length = 20 := by
  obtain ⟨w, b, h1, _, _, h2, _, h3⟩ := C111_serial_run_partial (c := wcfg true 1 1) (M := 20)
    ⟨rfl, by simp [wcfg], by simp [wcfg], Or.inl rfl, by simp [wcfg]⟩ rfl f (worc (pt 0))
    ⟨0, by simp [wcfg], 1, by simp [wcfg], by
      rw [show ∀ x : Pt 1, toUnitBox x (wcfg true 1 1).lb (wcfg true 1 1).ub = x from fun x => by funext i; simp [toUnitBox, wcfg, pt], show ∀ x : Pt 1, toUnitBox x (wcfg true 1 1).lb (wcfg true 1 1).ub = x from fun x => by funext i; simp [toUnitBox, wcfg, pt]]
      intro he
      have := congrFun he 0
      simp [worc, pt] at this⟩ (xs.map worc) (by simp [wcfg])
  have hb : b = true := h3.mpr (by simpa using hx)
  rw [hb] at h1
  refine ⟨w, h1, ?_⟩
  rw [h2]; simp; omega

/-- One design point, budget 20: the second round raises. -/
example (f : Pt 1 → Val) (x y : Pt 1) :
    sopSerial { wcfg true 1 1 with base := { (wcfg true 1 1).base with numPts := 1 } } f [worc x, worc y]
      (SopSys.create { wcfg true 1 1 with base := { (wcfg true 1 1).base with numPts := 1 } } (worc (pt 0))) = none := by
  refine C111_refuted (u := pt 0) ⟨rfl, by simp, by simp [wcfg], Or.inl rfl, by simp [wcfg]⟩ f (worc (pt 0)) ?_ (by decide) _
    (by simp [unknownExtras, wcfg])
  intro z hz
  have : z = pt 0 := by simpa [unknownExtras, wcfg, worc] using hz
  rw [this]
  exact unit_pt true 1 1 0

end Verif.Props
