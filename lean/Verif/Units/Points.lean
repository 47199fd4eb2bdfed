import Verif.Strategy.Model

/-!
# Transforming the points of a whole history (for C101)

`mapPt g` replaces every point `x` that a state, an event or an operation mentions by `g x`.  `step_mapPt`: the strategy only
stores points and compares them for equality, so that every step commutes with an injective `g`.
-/

namespace Verif.Strategy

variable {P Q : Type}

/-- Applies `g` to the extra points. -/
def Config.mapPt (g : P → Q) (cfg : Config P) : Config Q where
  asynchronous := cfg.asynchronous
  batchSize := cfg.batchSize
  maxEvals := cfg.maxEvals
  useRestarts := cfg.useRestarts
  numPts := cfg.numPts
  extras := cfg.extras.map fun e => (g e.1, e.2)
  srbf := cfg.srbf

/-- Applies `g` to the points in a ghost event. -/
def Event.mapPt (g : P → Q) : Event P → Event Q
  | .start q => .start (q.map g)
  | .restart q => .restart (q.map g)
  | .generated pts ws => .generated (pts.map g) ws
  | .proposed x k => .proposed (g x) k
  | .accepted x k e => .accepted (g x) k e
  | .rejected x k => .rejected (g x) k
  | .completed x k v t => .completed (g x) k v t
  | .aborted x k => .aborted (g x) k
  | .adjusted v => .adjusted v
  | .stepChange => .stepChange
  | .terminated => .terminated
  | .crashed q => .crashed (q.map g)
  | .resumed q => .resumed (q.map g)

/-- Applies `g` to the point of a finished record. -/
def Finished.mapPt (g : P → Q) (r : Finished P) : Finished Q := { x := g r.x, value := r.value, evId := r.evId }

/-- Applies `g` to every point in the state of the strategy. -/
def State.mapPt (g : P → Q) (s : State P) : State Q where
  terminate := s.terminate
  converged := s.converged
  acceptedCount := s.acceptedCount
  rejectedCount := s.rejectedCount
  batchQueue := s.batchQueue.map g
  phase := s.phase
  numEvals := s.numEvals
  pendingEvals := s.pendingEvals
  X := s.X.map g
  fX := s.fX
  Xpend := s.Xpend.map g
  fevals := s.fevals.map (Finished.mapPt g)
  curX := s.curX.map g
  curFX := s.curFX
  evLast := s.evLast
  evNext := s.evNext
  surr := s.surr.map fun e => (g e.1, e.2)
  srbf := s.srbf
  log := s.log.map (Event.mapPt g)

/-- Applies `g` to the points delivered by the design and the auxiliary problem. -/
def Oracle.mapPt (g : P → Q) (o : Oracle P) : Oracle Q where
  design := fun i => g (o.design i)
  pts := fun i => g (o.pts i)
  giveUp := o.giveUp

/-- Applies `g` to the points of an operation. -/
def Op.mapPt (g : P → Q) : Op P → Op Q
  | .propose o => .propose (o.mapPt g)
  | .accept i => .accept i
  | .reject i => .reject i
  | .complete i v => .complete i v
  | .abort i => .abort i
  | .update i => .update i

/-- Applies `g` to the point of an action. -/
def Action.mapPt (g : P → Q) : Action P → Action Q
  | .nothing => .nothing
  | .terminate => .terminate
  | .eval x k => .eval (g x) k

/-- Applies `g` to the point of a proposal. -/
def Proposal.mapPt (g : P → Q) (p : Proposal P) : Proposal Q := { x := g p.x, kind := p.kind }

/-- Applies `g` to the point of a record. -/
def Rec.mapPt (g : P → Q) (r : Rec P) : Rec Q := { x := g r.x, kind := r.kind, evId := r.evId, accAt := r.accAt }

/-- Applies `g` to every point in the system. -/
def Sys.mapPt (g : P → Q) (w : Sys P) : Sys Q where
  st := w.st.mapPt g
  props := w.props.map (Proposal.mapPt g)
  recs := w.recs.map (Rec.mapPt g)

theorem addExtra_mapPt (g : P → Q) (s : State P) (e : P × Option Val) :
    (s.mapPt g).addExtra (g e.1, e.2) = (s.addExtra e).mapPt g := by
  rcases e with ⟨x, _ | v⟩ <;> simp [State.addExtra, State.mapPt]

theorem foldl_addExtra_mapPt (g : P → Q) (l : List (P × Option Val)) (s : State P) :
    (l.map fun e => (g e.1, e.2)).foldl State.addExtra (s.mapPt g) = (l.foldl State.addExtra s).mapPt g := by
  induction l generalizing s with
  | nil => rfl
  | cons e l ih => rw [List.map_cons, List.foldl_cons, List.foldl_cons, addExtra_mapPt, ih]

theorem sampleInitial_mapPt (g : P → Q) (cfg : Config P) (o : Oracle P) (s : State P) :
    (s.mapPt g).sampleInitial (cfg.mapPt g) (o.mapPt g) = (s.sampleInitial cfg o).mapPt g := by
  have hq : s.batchQueue.map g ++ (List.range cfg.numPts).map (o.mapPt g).design =
      (s.batchQueue ++ (List.range cfg.numPts).map o.design).map g := by
    rw [List.map_append, List.map_map]; rfl
  unfold State.sampleInitial
  dsimp only
  by_cases hX : s.X.length = 0
  · have h1 := foldl_addExtra_mapPt g cfg.extras
      ({ s with surr := [], batchQueue := s.batchQueue ++ (List.range cfg.numPts).map o.design } : State P)
    rw [if_pos (show (s.mapPt g).X.length = 0 by simpa [State.mapPt] using hX), if_pos hX]
    simp only [State.mapPt, Config.mapPt, List.map_nil] at h1 ⊢
    rw [hq, h1]
  · rw [if_neg (show ¬ (s.mapPt g).X.length = 0 by simpa [State.mapPt] using hX), if_neg hX]
    simp only [State.mapPt, Config.mapPt, List.map_nil, hq]

theorem create_mapPt (g : P → Q) (cfg : Config P) (o : Oracle P) :
    Sys.create (cfg.mapPt g) (o.mapPt g) = (Sys.create cfg o).mapPt g := by
  unfold Sys.create Sys.mapPt State.create
  dsimp only
  rw [show State.blank (cfg.mapPt g) = (State.blank cfg).mapPt g from rfl, sampleInitial_mapPt]
  simp [State.mapPt, Event.mapPt]

theorem sampleRestart_mapPt (g : P → Q) (cfg : Config P) (o : Oracle P) (s : State P) :
    (s.mapPt g).sampleRestart (cfg.mapPt g) (o.mapPt g) = (s.sampleRestart cfg o).mapPt g := by
  unfold State.sampleRestart
  dsimp only
  have h := sampleInitial_mapPt g cfg o
    ({ s.moveEvLast with curX := [], curFX := [], converged := false, phase := .initial } : State P)
  simp only [State.mapPt, State.moveEvLast, List.map_nil, List.length_map] at h ⊢
  rw [h]
  simp [Event.mapPt, List.map_drop]

theorem popLast_map {α β : Type} (g : α → β) (l : List α) :
    popLast (l.map g) = (popLast l).map fun r => (g r.1, r.2.map g) := by
  unfold popLast
  rw [List.getLast?_map]
  cases l.getLast? with
  | none => rfl
  | some x => simp [List.map_dropLast]

theorem initProposal_mapPt (g : P → Q) (s : State P) :
    (s.mapPt g).initProposal = s.initProposal.map fun r => (r.1.mapPt g, r.2.mapPt g) := by
  unfold State.initProposal
  rw [show (s.mapPt g).batchQueue = s.batchQueue.map g from rfl, popLast_map]
  cases popLast s.batchQueue with
  | none => rfl
  | some r => simp [State.mapPt, State.makeProposal, Action.mapPt]

theorem adaptProposal_mapPt (g : P → Q) (s : State P) :
    (s.mapPt g).adaptProposal = (s.adaptProposal.1.mapPt g, s.adaptProposal.2.mapPt g) := by
  unfold State.adaptProposal
  rw [show (s.mapPt g).batchQueue = s.batchQueue.map g from rfl, popLast_map]
  cases popLast s.batchQueue with
  | none => rfl
  | some r => simp [State.mapPt, State.makeProposal, Action.mapPt]

theorem generateEvals_mapPt (g : P → Q) (cfg : Config P) (o : Oracle P) (n : Nat) (s : State P) :
    (s.mapPt g).generateEvals (cfg.mapPt g) (o.mapPt g) n = (s.generateEvals cfg o n).map (State.mapPt g) := by
  unfold State.generateEvals
  rw [show (cfg.mapPt g).srbf = cfg.srbf from rfl, show (s.mapPt g).srbf = s.srbf from rfl,
    show (o.mapPt g).giveUp = o.giveUp from rfl]
  cases hc : cfg.srbf with
  | none => dsimp only; split <;> simp [State.mapPt, Event.mapPt, Oracle.mapPt]
  | some sc =>
    cases hz : s.srbf with
    | none => simp only; split <;> simp [State.mapPt, Event.mapPt, Oracle.mapPt, hz]
    | some z =>
      simp only
      cases getWeights sc.weights z.nextWeight n with
      | none => rfl
      | some r => simp [State.mapPt, Event.mapPt, Oracle.mapPt]

theorem afterGenerate_mapPt (g : P → Q) (cfg : Config P) (o : Oracle P) (s : State P) :
    (s.mapPt g).afterGenerate (cfg.mapPt g) (o.mapPt g) =
      (s.afterGenerate cfg o).map fun r => (r.1.mapPt g, r.2.mapPt g) := by
  unfold State.afterGenerate
  rw [sampleRestart_mapPt, initProposal_mapPt, adaptProposal_mapPt,
    show (s.mapPt g).converged = s.converged from rfl, show (cfg.mapPt g).useRestarts = cfg.useRestarts from rfl,
    show (cfg.mapPt g).asynchronous = cfg.asynchronous from rfl, show (s.mapPt g).pendingEvals = s.pendingEvals from rfl]
  split_ifs <;> rfl

theorem adaptBranch_mapPt (g : P → Q) (cfg : Config P) (o : Oracle P) (s : State P) :
    (s.mapPt g).adaptBranch (cfg.mapPt g) (o.mapPt g) = (s.adaptBranch cfg o).map fun r => (r.1.mapPt g, r.2.mapPt g) := by
  unfold State.adaptBranch
  dsimp only
  have hg : ∀ n, ({ s.mapPt g with phase := .adaptive } : State Q).generateEvals (cfg.mapPt g) (o.mapPt g) n =
      (({ s with phase := .adaptive } : State P).generateEvals cfg o n).map (State.mapPt g) :=
    fun n => generateEvals_mapPt g cfg o n ({ s with phase := .adaptive } : State P)
  have ha := afterGenerate_mapPt g cfg o ({ s with phase := .adaptive } : State P)
  rw [hg 1, hg (cfg.mapPt g).batchSize, show (cfg.mapPt g).batchSize = cfg.batchSize from rfl,
    show (cfg.mapPt g).asynchronous = cfg.asynchronous from rfl, show (s.mapPt g).pendingEvals = s.pendingEvals from rfl]
  split_ifs
  · cases ({ s with phase := .adaptive } : State P).generateEvals cfg o 1 with
    | none => rfl
    | some s' => exact afterGenerate_mapPt g cfg o s'
  · cases ({ s with phase := .adaptive } : State P).generateEvals cfg o cfg.batchSize with
    | none => rfl
    | some s' => exact afterGenerate_mapPt g cfg o s'
  · exact ha

theorem proposeAction_mapPt (g : P → Q) (cfg : Config P) (o : Oracle P) (s : State P) :
    (s.mapPt g).proposeAction (cfg.mapPt g) (o.mapPt g) =
      (s.proposeAction cfg o).map fun r => (r.1.mapPt g, r.2.mapPt g) := by
  have hc : (s.mapPt g).checkTermination (cfg.mapPt g) = (s.checkTermination cfg).mapPt g := by
    unfold State.checkTermination
    rw [show (s.mapPt g).numEvals = s.numEvals from rfl, show (s.mapPt g).pendingEvals = s.pendingEvals from rfl,
      show (cfg.mapPt g).maxEvals = cfg.maxEvals from rfl]
    split_ifs <;> rfl
  unfold State.proposeAction
  dsimp only
  rw [hc]
  generalize s.checkTermination cfg = s
  have hE : (s.mapPt g).batchQueue.isEmpty = s.batchQueue.isEmpty := by simp [State.mapPt]
  rw [sampleRestart_mapPt, initProposal_mapPt, adaptBranch_mapPt, initProposal_mapPt, adaptProposal_mapPt, hE,
    show (s.mapPt g).converged = s.converged from rfl, show (cfg.mapPt g).useRestarts = cfg.useRestarts from rfl,
    show (cfg.mapPt g).asynchronous = cfg.asynchronous from rfl, show (s.mapPt g).pendingEvals = s.pendingEvals from rfl,
    show (s.mapPt g).terminate = s.terminate from rfl,
    show (s.mapPt g).phase = s.phase from rfl]
  split_ifs <;> first | rfl | (cases s.phase <;> rfl)

variable [DecidableEq P] [DecidableEq Q] {g : P → Q}

theorem filter_mapPt (hg : Function.Injective g) (x : P) (l : List P) :
    (l.map g).filter (fun y => decide (y ≠ g x)) = (l.filter fun y => decide (y ≠ x)).map g := by
  rw [List.filter_map]
  congr 1
  refine List.filter_congr fun y _ => ?_
  simp [hg.eq_iff]

theorem recordCompleted_mapPt (hg : Function.Injective g) (s : State P) (x : P) (v : Val) (e : Nat) :
    (s.mapPt g).recordCompleted (g x) v e = (s.recordCompleted x v e).mapPt g := by
  unfold State.recordCompleted State.removePending
  dsimp only
  have h1 := filter_mapPt hg x s.Xpend
  by_cases h : e > s.evLast
  · rw [if_pos (show e > (s.mapPt g).evLast from h), if_pos h]
    simp only [State.mapPt, h1, List.map_append, List.map_cons, List.map_nil, Finished.mapPt]
  · rw [if_neg (show ¬ e > (s.mapPt g).evLast from h), if_neg h]
    simp only [State.mapPt, h1, List.map_append, List.map_cons, List.map_nil, Finished.mapPt]

omit [DecidableEq P] [DecidableEq Q] in
theorem adjustStep_mapPt (cfg : Config P) (sc : SrbfCfg) (z : Srbf) (v : Val) (s : State P) :
    (s.mapPt g).adjustStep (cfg.mapPt g) sc z v = (s.adjustStep cfg sc z v).mapPt g := by
  unfold State.adjustStep
  rw [show failtol (cfg.mapPt g) sc = failtol cfg sc from rfl, show maxfailtol (cfg.mapPt g) sc = maxfailtol cfg sc from rfl]
  dsimp only
  generalize Srbf.adjust (failtol cfg sc) (maxfailtol cfg sc) z v = r
  obtain ⟨z', m, c⟩ := r
  cases m <;> cases c <;> simp [State.mapPt, State.moveEvLast, Event.mapPt]

theorem onCompleted_mapPt (hg : Function.Injective g) (cfg : Config P) (s : State P) (x : P) (k : Kind) (v : Val) (e : Nat) :
    (s.mapPt g).onCompleted (cfg.mapPt g) (g x) k v e = (s.onCompleted cfg x k v e).mapPt g := by
  unfold State.onCompleted
  dsimp only
  rw [recordCompleted_mapPt hg]
  generalize s.recordCompleted x v e = s
  cases k with
  | init => rfl
  | adapt =>
    rw [show (cfg.mapPt g).srbf = cfg.srbf from rfl, show (s.mapPt g).srbf = s.srbf from rfl]
    cases hc : cfg.srbf with
    | none => rfl
    | some sc =>
      cases hz : s.srbf with
      | none => rfl
      | some z =>
        simp only
        unfold State.srbfCompleted
        rw [show (s.mapPt g).evLast = s.evLast from rfl,
          show (s.mapPt g).batchQueue.isEmpty = s.batchQueue.isEmpty by simp [State.mapPt],
          show (s.mapPt g).pendingEvals = s.pendingEvals from rfl, show (cfg.mapPt g).asynchronous = cfg.asynchronous from rfl,
          adjustStep_mapPt]
        split_ifs <;> rfl

/-- One step of the system commutes with an injective transformation of the points. -/
theorem step_mapPt (hg : Function.Injective g) (cfg : Config P) (w : Sys P) (op : Op P) :
    (w.mapPt g).step (cfg.mapPt g) (op.mapPt g) = (w.step cfg op).map (Sys.mapPt g) := by
  cases op with
  | propose o =>
    simp only [Op.mapPt, Sys.step]
    rw [show (w.mapPt g).st = w.st.mapPt g from rfl, proposeAction_mapPt]
    rcases w.st.proposeAction cfg o with _ | ⟨_ | _ | ⟨x, k⟩, s⟩ <;>
      simp [Sys.mapPt, State.mapPt, State.note, Event.mapPt, Action.mapPt, Proposal.mapPt]
  | accept i =>
    simp only [Op.mapPt, Sys.step]
    rw [show (w.mapPt g).props[i]? = w.props[i]?.map (Proposal.mapPt g) by simp [Sys.mapPt]]
    cases w.props[i]? <;>
      simp [Sys.mapPt, State.mapPt, State.note, State.onAccept, Event.mapPt, Proposal.mapPt, Rec.mapPt, List.eraseIdx_map]
  | reject i =>
    simp only [Op.mapPt, Sys.step]
    rw [show (w.mapPt g).props[i]? = w.props[i]?.map (Proposal.mapPt g) by simp [Sys.mapPt]]
    cases w.props[i]? with
    | none => rfl
    | some p =>
      obtain ⟨x, k⟩ := p
      have h1 := filter_mapPt hg x (w.st.Xpend ++ [x])
      have h2 := filter_mapPt hg x w.st.Xpend
      rw [List.map_append, List.map_cons, List.map_nil] at h1
      cases k
      · simp only [Option.map_some, Proposal.mapPt, Sys.mapPt, List.eraseIdx_map, State.note, State.onInitialRejected,
          State.removePending, State.mapPt, h1, List.map_append, List.map_cons, List.map_nil, Event.mapPt]
      · simp only [Option.map_some, Proposal.mapPt, Sys.mapPt, List.eraseIdx_map, Option.some.injEq, Sys.mk.injEq, and_true]
        unfold State.onAdaptReject
        dsimp only
        rw [show (cfg.mapPt g).asynchronous = cfg.asynchronous from rfl]
        split_ifs <;> simp only [State.note, State.removePending, State.mapPt, h2, List.map_append, List.map_cons,
          List.map_nil, Event.mapPt]
  | complete i v =>
    simp only [Op.mapPt, Sys.step]
    rw [show (w.mapPt g).recs[i]? = w.recs[i]?.map (Rec.mapPt g) by simp [Sys.mapPt]]
    cases w.recs[i]? with
    | none => rfl
    | some r =>
      simp only [Option.map_some, Sys.mapPt, Option.some.injEq, Sys.mk.injEq, List.eraseIdx_map, true_and, and_true]
      have hn : (w.st.mapPt g).note (.completed (r.mapPt g).x (r.mapPt g).kind v (r.mapPt g).accAt)
          = (w.st.note (.completed r.x r.kind v r.accAt)).mapPt g := by
        simp [State.mapPt, State.note, Event.mapPt, Rec.mapPt]
      rw [hn]
      exact onCompleted_mapPt hg cfg _ r.x r.kind v r.evId
  | abort i =>
    simp only [Op.mapPt, Sys.step]
    rw [show (w.mapPt g).recs[i]? = w.recs[i]?.map (Rec.mapPt g) by simp [Sys.mapPt]]
    cases w.recs[i]? with
    | none => rfl
    | some r =>
      obtain ⟨x, k, e, t⟩ := r
      have h2 := filter_mapPt hg x w.st.Xpend
      cases k <;> simp only [Option.map_some, Sys.mapPt, State.mapPt, State.note, State.onAborted, State.removePending,
        Event.mapPt, Finished.mapPt, Rec.mapPt, List.eraseIdx_map, h2, List.map_append, List.map_cons, List.map_nil]
  | update i =>
    simp only [Op.mapPt, Sys.step]
    rw [show (w.mapPt g).recs[i]? = w.recs[i]?.map (Rec.mapPt g) by simp [Sys.mapPt]]
    cases w.recs[i]? <;> rfl

omit [DecidableEq P] [DecidableEq Q] in
theorem inflight_mapPt (w : Sys P) : (w.mapPt g).inflight = w.inflight.map g := by
  simp [Sys.inflight, Sys.mapPt, Proposal.mapPt, Rec.mapPt, Function.comp_def]

omit [DecidableEq P] [DecidableEq Q] in
theorem resumed_mapPt (w : Sys P) : (w.mapPt g).resumed = w.resumed.mapPt g := by
  unfold Sys.resumed
  rw [inflight_mapPt]
  unfold State.resume
  have hp : (w.mapPt g).st.phase = w.st.phase := rfl
  cases h : w.st.phase <;> simp [Sys.mapPt, State.mapPt, State.note, Event.mapPt, h]

end Verif.Strategy
