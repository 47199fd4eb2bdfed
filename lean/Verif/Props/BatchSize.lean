import Verif.Props.Args
import Verif.Props.Loop
import Verif.Props.SopLoop

/-! # Property C104: the batch size is ignored in asynchronous mode -/

namespace Verif.Props

open Verif.Strategy Verif.Spec Verif.Loop Verif.Sop Verif.Validate Verif.Utils Verif.Num

variable {P : Type} [DecidableEq P] {cfg : Config P} {d : ℕ}

/-- The arguments with another batch size. -/
def withBatch (cfg : Config P) (b : ℕ) : Config P := { cfg with batchSize := b }

theorem failtol_batch (ha : cfg.asynchronous = true) (b : ℕ) (sc : SrbfCfg) :
    failtol (withBatch cfg b) sc = failtol cfg sc := by
  simp [failtol, withBatch, ha]

theorem adaptBranch_batch (ha : cfg.asynchronous = true) (b : ℕ) (o : Oracle P) (s : State P) :
    s.adaptBranch (withBatch cfg b) o = s.adaptBranch cfg o := by
  unfold State.adaptBranch
  dsimp only
  rw [if_pos (show (withBatch cfg b).asynchronous = true from ha), if_pos ha]
  rfl

theorem propose_batch (ha : cfg.asynchronous = true) (b : ℕ) (o : Oracle P) (s : State P) :
    s.proposeAction (withBatch cfg b) o = s.proposeAction cfg o := by
  unfold State.proposeAction
  simp only [adaptBranch_batch ha]
  rfl

theorem completed_batch (ha : cfg.asynchronous = true) (b : ℕ) (s : State P) (x : P) (k : Kind) (v : Val) (e : ℕ) :
    s.onCompleted (withBatch cfg b) x k v e = s.onCompleted cfg x k v e := by
  have hm : ∀ sc, maxfailtol (withBatch cfg b) sc = maxfailtol cfg sc := fun sc => by
    simp [maxfailtol, failtol_batch ha]
  have hj : ∀ sc z f (t : State P), t.adjustStep (withBatch cfg b) sc z f = t.adjustStep cfg sc z f := by
    intro sc z f t
    unfold State.adjustStep
    rw [failtol_batch ha, hm]
  unfold State.onCompleted State.srbfCompleted
  simp only [hj]
  rfl

theorem step_batch (ha : cfg.asynchronous = true) (b : ℕ) (w : Sys P) (op : Strategy.Op P) :
    w.step (withBatch cfg b) op = w.step cfg op := by
  cases op with
  | propose o => simp only [Sys.step, propose_batch ha]
  | complete i v => simp only [Sys.step, completed_batch ha]
  | _ => rfl

/-- SRBF, DYCORS, EI and LCB in asynchronous mode, whatever the batch size: the same systems are reachable, and every event
has the same effect, exceptions included. -/
theorem C104_base (ha : cfg.asynchronous = true) (b : ℕ) (w : Sys P) :
    (Strategy.Reach (withBatch cfg b) w ↔ Strategy.Reach cfg w) ∧ ∀ op, w.step (withBatch cfg b) op = w.step cfg op := by
  refine ⟨⟨?_, ?_⟩, step_batch ha b w⟩
  · intro h
    induction h with
    | create o => exact .create (cfg := cfg) o
    | step op _ hs ih => exact ih.step op (step_batch ha b _ op ▸ hs)
    | resume _ ih => exact ih.resume
  · intro h
    induction h with
    | create o => exact .create (cfg := withBatch cfg b) o
    | step op _ hs ih => exact ih.step op ((step_batch ha b _ op).symm ▸ hs)
    | resume _ ih => exact ih.resume

/-- The same in the closed loop with the designs and the auxiliary problems: the surrogate is asked for the same points. -/
theorem C104_loop (L : Setup d) (ha : L.cfg.asynchronous = true) (b : ℕ) (w : Sys (Pt d)) :
    LoopReach { L with cfg := withBatch L.cfg b } w ↔ LoopReach L w := by
  have hw : wanted (withBatch L.cfg b) = wanted L.cfg := by simp [wanted, withBatch, ha]
  constructor
  · intro h
    induction h with
    | create D hD => exact .create (L := L) D hD
    | propose D g _ hD hg hn hs ih =>
      exact ih.propose D g hD (fun h => hw ▸ hg h) hn ((@step_batch (Pt d) (fun a b => Fintype.decidablePiFintype a b) L.cfg ha b _ _).symm.trans hs)
    | other op _ ho hs ih => exact ih.other op ho ((@step_batch (Pt d) (fun a b => Fintype.decidablePiFintype a b) L.cfg ha b _ _).symm.trans hs)
    | resume _ ih => exact ih.resume
  · intro h
    induction h with
    | create D hD => exact .create (L := { L with cfg := withBatch L.cfg b }) D hD
    | propose D g _ hD hg hn hs ih =>
      refine ih.propose D g hD (fun h => ?_) hn ((@step_batch (Pt d) (fun a b => Fintype.decidablePiFintype a b) L.cfg ha b _ _).trans hs)
      show GenOf { L with cfg := withBatch L.cfg b } _ (wanted (withBatch L.cfg b)) g
      rw [hw]
      exact hg h
    | other op _ ho hs ih => exact ih.other op ho ((@step_batch (Pt d) (fun a b => Fintype.decidablePiFintype a b) L.cfg ha b _ _).trans hs)
    | resume _ ih => exact ih.resume

theorem sop_step_batch (c : Cfg d) (ha : c.base.asynchronous = true) (b : ℕ) (w : SopSys d) (op : Strategy.Op (Pt d)) :
    w.step { c with base := withBatch c.base b } op = w.step c op := by
  unfold SopSys.step
  cases op with
  | propose o => simp only [step_batch ha]; rfl
  | complete i v => simp only [step_batch ha]; rfl
  | _ => simp only [step_batch ha]

/-- The same for SOP. -/
theorem C104_sop (c : Cfg d) (ha : c.base.asynchronous = true) (b : ℕ) (w : SopSys d) :
    (Sop.Reach { c with base := withBatch c.base b } w ↔ Sop.Reach c w) ∧
    ∀ op, w.step { c with base := withBatch c.base b } op = w.step c op := by
  refine ⟨⟨?_, ?_⟩, sop_step_batch c ha b w⟩
  · intro h
    induction h with
    | create o => exact .create (c := c) o
    | step op _ hs ih => exact ih.step op (sop_step_batch c ha b _ op ▸ hs)
    | resume _ ih => exact ih.resume
  · intro h
    induction h with
    | create o => exact .create (c := { c with base := withBatch c.base b }) o
    | step op _ hs ih => exact ih.step op ((sop_step_batch c ha b _ op).symm ▸ hs)
    | resume _ ih => exact ih.resume

/-- The constructors accept the same arguments, with any object (also `None`) as batch size. -/
theorem C104_constructors (dim : ℕ) (b b' : PyArg) (w : PyWeights) (m : PyNum) (n : ℕ) (v : PyNum) (z z' : ℤ) :
    srbfCreate true dim b w m n = srbfCreate true dim b' w m n ∧ eiCreate true b m n = eiCreate true b' m n ∧
    (sopRefuses v True z ↔ sopRefuses v True z') := by
  refine ⟨?_, ?_, ?_⟩
  · cases b <;> cases b' <;> simp [srbfCreate, failtolOf, baseCheck]
  · cases b <;> cases b' <;> simp [eiCreate, baseCheck]
  · simp [sopRefuses]

/-- In synchronous mode the batch size matters. -/
example : ∃ (cfg : Config ℕ) (w : Sys ℕ) (op : Strategy.Op ℕ), cfg.asynchronous = false ∧
    (decide ((w.step (withBatch cfg 1) op).map (fun v => v.st.batchQueue) ≠
      (w.step cfg op).map fun v => v.st.batchQueue)) = true :=
  ⟨{ demo with asynchronous := false, numPts := 0, extras := [] }, Sys.create { demo with numPts := 0, extras := [] } (orc 0), pr 100, rfl,
    by decide +kernel⟩

end Verif.Props
