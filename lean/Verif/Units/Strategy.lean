import Verif.Strategy.Model
import Mathlib.Tactic.Ring
import Mathlib.Tactic.Linarith

/-!
# Transforming the objective values of a whole history (for C100)

`mapVal φ` replaces every objective value `v` that a state, an event or an operation mentions by `φ v`.  `step_map`: if the
step control of SRBF cannot tell the values from the transformed ones (`Keeps`), then every step of the strategy commutes
with the transformation.
-/

namespace Verif.Strategy

variable {P : Type}

/-- Applies `φ` to the values of the extra points. -/
def Config.mapVal (φ : Val → Val) (cfg : Config P) : Config P :=
  { cfg with extras := cfg.extras.map fun e => (e.1, e.2.map φ) }

/-- Applies `φ` to the values in a ghost event. -/
def Event.mapVal (φ : Val → Val) : Event P → Event P
  | .completed x k v t => .completed x k (φ v) t
  | .adjusted v => .adjusted (φ v)
  | e => e

/-- Applies `φ` to the value of a finished record. -/
def Finished.mapVal (φ : Val → Val) (r : Finished P) : Finished P := { r with value := r.value.map φ }

/-- Applies `φ` to the values kept by the step control. -/
def Srbf.mapVal (φ : Val → Val) (z : Srbf) : Srbf :=
  { z with fbest := z.fbest.map φ, recordQueue := z.recordQueue.map φ }

/-- Applies `φ` to every objective value in the state of the strategy. -/
def State.mapVal (φ : Val → Val) (s : State P) : State P :=
  { s with
    fX := s.fX.map φ
    fevals := s.fevals.map (Finished.mapVal φ)
    curFX := s.curFX.map φ
    surr := s.surr.map fun e => (e.1, φ e.2)
    srbf := s.srbf.map (Srbf.mapVal φ)
    log := s.log.map (Event.mapVal φ) }

/-- Applies `φ` to the value delivered by an evaluation. -/
def Op.mapVal (φ : Val → Val) : Op P → Op P
  | .complete i v => .complete i (φ v)
  | op => op

/-- Applies `φ` to every objective value in the system. -/
def Sys.mapVal (φ : Val → Val) (w : Sys P) : Sys P := { w with st := w.st.mapVal φ }

/-- The step control (srbf.py:195-196) cannot tell `φ` of the values from the values. -/
structure Keeps (φ : Val → Val) : Prop where
  mono : Monotone φ
  improve : ∀ b v : Val, φ v < φ b - (1 / 1000) * |φ b| ↔ v < b - (1 / 1000) * |b|

theorem keeps_mul {a : ℚ} (ha : 0 < a) : Keeps (fun v => a * v) where
  mono := fun _ _ h => mul_le_mul_of_nonneg_left h ha.le
  improve := fun b v => by
    rw [abs_mul, abs_of_pos ha, show a * b - 1 / 1000 * (a * |b|) = a * (b - 1 / 1000 * |b|) by ring]
    exact mul_lt_mul_iff_of_pos_left ha

theorem foldl_min_map {φ : Val → Val} (h : Monotone φ) (q : List Val) (v : Val) :
    (q.map φ).foldl min (φ v) = φ (q.foldl min v) := by
  induction q generalizing v with
  | nil => rfl
  | cons x q ih => rw [List.map_cons, List.foldl_cons, List.foldl_cons, ← h.map_min, ih]

theorem foldl_max_map {φ : Val → Val} (h : Monotone φ) (q : List Val) (v : Val) :
    (q.map φ).foldl max (φ v) = φ (q.foldl max v) := by
  induction q generalizing v with
  | nil => rfl
  | cons x q ih => rw [List.map_cons, List.foldl_cons, List.foldl_cons, ← h.map_max, ih]

theorem Srbf.isImprovement_map {φ : Val → Val} (h : Keeps φ) (z : Srbf) (v : Val) :
    (z.mapVal φ).isImprovement (φ v) = z.isImprovement v := by
  unfold Srbf.isImprovement Srbf.mapVal
  cases z.fbest with
  | none => rfl
  | some b => exact decide_eq_decide.mpr (h.improve b v)

theorem Srbf.adjust_map {φ : Val → Val} (h : Keeps φ) (ft mft : Int) (z : Srbf) (v : Val) :
    (z.mapVal φ).adjust ft mft (φ v) =
      ((z.adjust ft mft v).1.mapVal φ, (z.adjust ft mft v).2.1, (z.adjust ft mft v).2.2) := by
  unfold Srbf.adjust
  rw [Srbf.isImprovement_map h]
  cases z.isImprovement v <;> simp only [Srbf.mapVal, if_true, if_false, Bool.false_eq_true] <;>
    split_ifs <;> simp_all [Srbf.mapVal]

theorem addExtra_map (φ : Val → Val) (s : State P) (e : P × Option Val) :
    (s.mapVal φ).addExtra (e.1, e.2.map φ) = (s.addExtra e).mapVal φ := by
  rcases e with ⟨x, _ | v⟩ <;> simp [State.addExtra, State.mapVal]

theorem foldl_addExtra_map (φ : Val → Val) (l : List (P × Option Val)) (s : State P) :
    (l.map fun e => (e.1, e.2.map φ)).foldl State.addExtra (s.mapVal φ) = (l.foldl State.addExtra s).mapVal φ := by
  induction l generalizing s with
  | nil => rfl
  | cons e l ih => rw [List.map_cons, List.foldl_cons, List.foldl_cons, addExtra_map, ih]

theorem sampleInitial_map (φ : Val → Val) (cfg : Config P) (o : Oracle P) (s : State P) :
    (s.mapVal φ).sampleInitial (cfg.mapVal φ) o = (s.sampleInitial cfg o).mapVal φ := by
  have hz : ∀ z : Option Srbf, (z.map (Srbf.mapVal φ)).map Srbf.sampleInitial
      = (z.map Srbf.sampleInitial).map (Srbf.mapVal φ) := by
    intro z; cases z <;> rfl
  unfold State.sampleInitial
  dsimp only
  by_cases hX : s.X.length = 0
  · have h1 := foldl_addExtra_map φ cfg.extras
      ({ s with surr := [], batchQueue := s.batchQueue ++ (List.range cfg.numPts).map o.design } : State P)
    rw [if_pos (show (s.mapVal φ).X.length = 0 from hX), if_pos hX]
    simp only [State.mapVal, Config.mapVal, List.map_nil] at h1 ⊢
    rw [h1]
    simp only [hz]
  · rw [if_neg (show ¬ (s.mapVal φ).X.length = 0 from hX), if_neg hX]
    simp only [State.mapVal, Config.mapVal, List.map_nil, hz]

theorem blank_map (φ : Val → Val) (cfg : Config P) : State.blank (cfg.mapVal φ) = (State.blank cfg).mapVal φ := by
  cases hc : cfg.srbf <;> simp [State.blank, State.mapVal, Config.mapVal, Srbf.mapVal, hc]

theorem create_map (φ : Val → Val) (cfg : Config P) (o : Oracle P) :
    Sys.create (cfg.mapVal φ) o = (Sys.create cfg o).mapVal φ := by
  unfold Sys.create Sys.mapVal State.create
  dsimp only
  rw [blank_map, sampleInitial_map]
  simp [State.mapVal, Event.mapVal]

theorem sampleRestart_map (φ : Val → Val) (cfg : Config P) (o : Oracle P) (s : State P) :
    (s.mapVal φ).sampleRestart (cfg.mapVal φ) o = (s.sampleRestart cfg o).mapVal φ := by
  unfold State.sampleRestart
  dsimp only
  have h := sampleInitial_map φ cfg o
    ({ s.moveEvLast with curX := [], curFX := [], converged := false, phase := .initial } : State P)
  simp only [State.mapVal, State.moveEvLast, List.map_nil] at h ⊢
  rw [h]
  simp [Event.mapVal]

theorem initProposal_map (φ : Val → Val) (s : State P) :
    (s.mapVal φ).initProposal = s.initProposal.map fun r => (r.1, r.2.mapVal φ) := by
  unfold State.initProposal
  rw [show (s.mapVal φ).batchQueue = s.batchQueue from rfl]
  cases popLast s.batchQueue with
  | none => rfl
  | some r => rfl

theorem adaptProposal_map (φ : Val → Val) (s : State P) :
    (s.mapVal φ).adaptProposal = (s.adaptProposal.1, s.adaptProposal.2.mapVal φ) := by
  unfold State.adaptProposal
  rw [show (s.mapVal φ).batchQueue = s.batchQueue from rfl]
  cases popLast s.batchQueue with
  | none => rfl
  | some r => rfl

theorem generateEvals_map (φ : Val → Val) (cfg : Config P) (o : Oracle P) (n : Nat) (s : State P) :
    (s.mapVal φ).generateEvals (cfg.mapVal φ) o n = (s.generateEvals cfg o n).map (State.mapVal φ) := by
  unfold State.generateEvals
  rw [show (cfg.mapVal φ).srbf = cfg.srbf from rfl, show (s.mapVal φ).srbf = s.srbf.map (Srbf.mapVal φ) from rfl]
  cases hc : cfg.srbf with
  | none => dsimp only; split <;> simp [State.mapVal, Event.mapVal]
  | some sc =>
    cases hz : s.srbf with
    | none => simp only [Option.map_none]; split <;> simp [State.mapVal, Event.mapVal, hz]
    | some z =>
      simp only [Option.map_some]
      rw [show (z.mapVal φ).nextWeight = z.nextWeight from rfl]
      cases getWeights sc.weights z.nextWeight n with
      | none => rfl
      | some r => simp [State.mapVal, Event.mapVal, Srbf.mapVal]

theorem afterGenerate_map (φ : Val → Val) (cfg : Config P) (o : Oracle P) (s : State P) :
    (s.mapVal φ).afterGenerate (cfg.mapVal φ) o = (s.afterGenerate cfg o).map fun r => (r.1, r.2.mapVal φ) := by
  unfold State.afterGenerate
  rw [sampleRestart_map, initProposal_map, adaptProposal_map,
    show (s.mapVal φ).converged = s.converged from rfl, show (cfg.mapVal φ).useRestarts = cfg.useRestarts from rfl,
    show (cfg.mapVal φ).asynchronous = cfg.asynchronous from rfl, show (s.mapVal φ).pendingEvals = s.pendingEvals from rfl]
  split_ifs <;> rfl

theorem adaptBranch_map (φ : Val → Val) (cfg : Config P) (o : Oracle P) (s : State P) :
    (s.mapVal φ).adaptBranch (cfg.mapVal φ) o = (s.adaptBranch cfg o).map fun r => (r.1, r.2.mapVal φ) := by
  unfold State.adaptBranch
  dsimp only
  have hg : ∀ n, ({ s.mapVal φ with phase := .adaptive } : State P).generateEvals (cfg.mapVal φ) o n =
      (({ s with phase := .adaptive } : State P).generateEvals cfg o n).map (State.mapVal φ) :=
    fun n => generateEvals_map φ cfg o n ({ s with phase := .adaptive } : State P)
  have ha := afterGenerate_map φ cfg o ({ s with phase := .adaptive } : State P)
  rw [hg 1, hg (cfg.mapVal φ).batchSize, show (cfg.mapVal φ).batchSize = cfg.batchSize from rfl,
    show (cfg.mapVal φ).asynchronous = cfg.asynchronous from rfl, show (s.mapVal φ).pendingEvals = s.pendingEvals from rfl]
  split_ifs
  · cases ({ s with phase := .adaptive } : State P).generateEvals cfg o 1 with
    | none => rfl
    | some s' => exact afterGenerate_map φ cfg o s'
  · cases ({ s with phase := .adaptive } : State P).generateEvals cfg o cfg.batchSize with
    | none => rfl
    | some s' => exact afterGenerate_map φ cfg o s'
  · exact ha

theorem proposeAction_map (φ : Val → Val) (cfg : Config P) (o : Oracle P) (s : State P) :
    (s.mapVal φ).proposeAction (cfg.mapVal φ) o = (s.proposeAction cfg o).map fun r => (r.1, r.2.mapVal φ) := by
  have hc : (s.mapVal φ).checkTermination (cfg.mapVal φ) = (s.checkTermination cfg).mapVal φ := by
    unfold State.checkTermination
    rw [show (s.mapVal φ).numEvals = s.numEvals from rfl, show (s.mapVal φ).pendingEvals = s.pendingEvals from rfl,
      show (cfg.mapVal φ).maxEvals = cfg.maxEvals from rfl]
    split_ifs <;> rfl
  unfold State.proposeAction
  dsimp only
  rw [hc]
  generalize s.checkTermination cfg = s
  rw [sampleRestart_map, initProposal_map, adaptBranch_map, initProposal_map, adaptProposal_map,
    show (s.mapVal φ).converged = s.converged from rfl, show (cfg.mapVal φ).useRestarts = cfg.useRestarts from rfl,
    show (cfg.mapVal φ).asynchronous = cfg.asynchronous from rfl, show (s.mapVal φ).pendingEvals = s.pendingEvals from rfl,
    show (s.mapVal φ).terminate = s.terminate from rfl, show (s.mapVal φ).batchQueue = s.batchQueue from rfl,
    show (s.mapVal φ).phase = s.phase from rfl]
  split_ifs <;> first | rfl | (cases s.phase <;> rfl)

variable [DecidableEq P]

theorem recordCompleted_map (φ : Val → Val) (s : State P) (x : P) (v : Val) (e : Nat) :
    (s.mapVal φ).recordCompleted x (φ v) e = (s.recordCompleted x v e).mapVal φ := by
  unfold State.recordCompleted State.removePending
  dsimp only
  by_cases h : e > s.evLast
  · rw [if_pos (show e > (s.mapVal φ).evLast from h), if_pos h]
    simp [State.mapVal, Finished.mapVal]
  · rw [if_neg (show ¬ e > (s.mapVal φ).evLast from h), if_neg h]
    simp [State.mapVal, Finished.mapVal]

theorem adjustStep_map {φ : Val → Val} (h : Keeps φ) (cfg : Config P) (sc : SrbfCfg) (z : Srbf) (v : Val) (s : State P) :
    (s.mapVal φ).adjustStep (cfg.mapVal φ) sc (z.mapVal φ) (φ v) = (s.adjustStep cfg sc z v).mapVal φ := by
  unfold State.adjustStep
  rw [show failtol (cfg.mapVal φ) sc = failtol cfg sc from rfl, show maxfailtol (cfg.mapVal φ) sc = maxfailtol cfg sc from rfl,
    Srbf.adjust_map h]
  dsimp only
  generalize Srbf.adjust (failtol cfg sc) (maxfailtol cfg sc) z v = r
  obtain ⟨z', m, c⟩ := r
  cases m <;> cases c <;> simp [State.mapVal, State.moveEvLast, Event.mapVal]

theorem onCompleted_map {φ : Val → Val} (cfg : Config P) (h : cfg.srbf = none ∨ Keeps φ) (s : State P) (x : P) (k : Kind)
    (v : Val) (e : Nat) :
    (s.mapVal φ).onCompleted (cfg.mapVal φ) x k (φ v) e = (s.onCompleted cfg x k v e).mapVal φ := by
  unfold State.onCompleted
  dsimp only
  rw [recordCompleted_map]
  generalize s.recordCompleted x v e = s
  cases k with
  | init => rfl
  | adapt =>
    rw [show (cfg.mapVal φ).srbf = cfg.srbf from rfl, show (s.mapVal φ).srbf = s.srbf.map (Srbf.mapVal φ) from rfl]
    cases hc : cfg.srbf with
    | none => rfl
    | some sc =>
      have hk : Keeps φ := by rcases h with h | h; · rw [hc] at h; cases h
                              · exact h
      cases hz : s.srbf with
      | none => rfl
      | some z =>
        simp only [Option.map_some]
        unfold State.srbfCompleted
        rw [show (s.mapVal φ).evLast = s.evLast from rfl, show (s.mapVal φ).batchQueue = s.batchQueue from rfl,
          show (s.mapVal φ).pendingEvals = s.pendingEvals from rfl, show (cfg.mapVal φ).asynchronous = cfg.asynchronous from rfl,
          show minValue (z.mapVal φ).recordQueue (φ v) = φ (minValue z.recordQueue v) from foldl_min_map hk.mono _ _,
          adjustStep_map hk]
        split_ifs
        · rfl
        · simp [State.mapVal, Srbf.mapVal]
        · rfl

/-- One step of the system commutes with a transformation of the objective values. -/
theorem step_map {φ : Val → Val} (cfg : Config P) (h : cfg.srbf = none ∨ Keeps φ) (w : Sys P) (op : Op P) :
    (w.mapVal φ).step (cfg.mapVal φ) (op.mapVal φ) = (w.step cfg op).map (Sys.mapVal φ) := by
  cases op with
  | propose o =>
    simp only [Op.mapVal, Sys.step]
    rw [show (w.mapVal φ).st = w.st.mapVal φ from rfl, proposeAction_map]
    rcases w.st.proposeAction cfg o with _ | ⟨_ | _ | ⟨x, k⟩, s⟩ <;>
      simp [Sys.mapVal, State.mapVal, State.note, Event.mapVal]
  | accept i =>
    simp only [Op.mapVal, Sys.step]
    rw [show (w.mapVal φ).props = w.props from rfl]
    cases w.props[i]? <;> simp [Sys.mapVal, State.mapVal, State.note, State.onAccept, Event.mapVal]
  | reject i =>
    simp only [Op.mapVal, Sys.step]
    rw [show (w.mapVal φ).props = w.props from rfl]
    cases w.props[i]? with
    | none => rfl
    | some p =>
      obtain ⟨x, k⟩ := p
      cases k
      · simp [Sys.mapVal, State.mapVal, State.note, State.onInitialRejected, State.removePending, Event.mapVal]
      · simp only [Option.map_some, Sys.mapVal, Option.some.injEq, Sys.mk.injEq, and_true]
        unfold State.onAdaptReject
        dsimp only
        rw [show (cfg.mapVal φ).asynchronous = cfg.asynchronous from rfl]
        split_ifs <;> simp [State.mapVal, State.note, State.removePending, Event.mapVal]
  | complete i v =>
    simp only [Op.mapVal, Sys.step]
    rw [show (w.mapVal φ).recs = w.recs from rfl]
    cases w.recs[i]? with
    | none => rfl
    | some r =>
      simp only [Option.map_some, Sys.mapVal, Option.some.injEq, Sys.mk.injEq, and_true, true_and]
      have hn : (w.st.mapVal φ).note (.completed r.x r.kind (φ v) r.accAt)
          = (w.st.note (.completed r.x r.kind v r.accAt)).mapVal φ := by
        simp [State.mapVal, State.note, Event.mapVal]
      rw [hn, onCompleted_map cfg h]
  | abort i =>
    simp only [Op.mapVal, Sys.step]
    rw [show (w.mapVal φ).recs = w.recs from rfl]
    cases w.recs[i]? with
    | none => rfl
    | some r =>
      obtain ⟨x, k, e, t⟩ := r
      cases k <;> simp [Sys.mapVal, State.mapVal, State.note, State.onAborted, State.removePending, Event.mapVal,
        Finished.mapVal]
  | update i =>
    simp only [Op.mapVal, Sys.step]
    rw [show (w.mapVal φ).recs = w.recs from rfl]
    cases w.recs[i]? <;> rfl

theorem resumed_map (φ : Val → Val) (w : Sys P) : (w.mapVal φ).resumed = w.resumed.mapVal φ := by
  unfold Sys.resumed Sys.mapVal State.resume
  simp only [State.mapVal, State.note, Sys.inflight, List.map_append, List.map_cons, List.map_nil, Event.mapVal]

end Verif.Strategy
