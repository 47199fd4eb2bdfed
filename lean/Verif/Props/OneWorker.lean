import Verif.Strategy.OneWorker
import Verif.Props.Strategy

/-! # Property C89: with one worker, asynchronous mode is synchronous mode with batch size 1 -/

namespace Verif.Props

open Verif.Strategy Verif.Spec

variable {P : Type} [DecidableEq P] {cfg : Config P}

/-- The pending counter. -/
theorem _root_.Verif.Strategy.OneWorker.pending {w : Sys P} (h : OneWorker cfg w) : w.st.pendingEvals = w.inflight.length :=
  C02_pending_exact h.reach

/-- The same systems (histories, data, surrogate, radius, counters, queue) are reachable in both modes, for every strategy
of the package built on the base class (EI, LCB, SRBF, DYCORS), with failures, crashes and resumes. -/
theorem C89_same (w : Sys P) : OneWorker cfg.asynchronousMode w ↔ OneWorker cfg.serialMode w := by
  constructor
  · intro h
    induction h with
    | create o => exact create_modes (cfg := cfg) o ▸ .create o
    | step op hw hal hs ih =>
      refine ih.step op hal ?_
      rw [← step_modes (hw.single (.inl rfl)) hw.pending op hal]
      exact hs
    | resume _ ih => exact ih.resume
  · intro h
    induction h with
    | create o => exact create_modes (cfg := cfg) o ▸ .create o
    | step op hw hal hs ih =>
      refine ih.step op hal ?_
      rw [step_modes (hw.single (.inr rfl)) hw.pending op hal]
      exact hs
    | resume _ ih => exact ih.resume

/-- In each of these systems the two modes answer every request in the same way, exceptions included. -/
theorem C89_proposal {w : Sys P} (h : OneWorker cfg.asynchronousMode w) (hi : w.inflight = []) (o : Oracle P) :
    w.st.proposeAction cfg.asynchronousMode o = w.st.proposeAction cfg.serialMode o :=
  proposeAction_modes o w.st (by rw [h.pending, hi]; rfl)

/-- Consequence: with one worker every result of the current run reaches the surrogate, also in asynchronous mode (with more
workers this fails, C14). -/
theorem C89_surrogate {w : Sys P} (h : OneWorker cfg.asynchronousMode w) :
    w.st.surr = (if restarted w.st.log then [] else known cfg.extras) ++ currentRun w.st.log := by
  obtain ⟨cur, _, _, h3, _, h5⟩ := C14_complete_partial ((C89_same w).mp h).reach
  rw [h3, h5 (.inl rfl)]
  rfl

/-- `Allowed` as a test. -/
def allowedB (w : Sys P) : Op P → Bool
  | .propose _ => w.inflight.isEmpty
  | .reject i => (w.props[i]?).all fun p => decide (p.kind = .init)
  | _ => true

/-- A run of one worker; `none` is a crash followed by a resume. -/
def runOne (cfg : Config P) : Sys P → List (Option (Op P)) → Option (Sys P)
  | w, [] => some w
  | w, none :: l => runOne cfg w.resumed l
  | w, some op :: l => if allowedB w op then (w.step cfg op).bind fun w' => runOne cfg w' l else none

theorem runOne_reach {w w' : Sys P} (h : OneWorker cfg w) (l : List (Option (Op P))) (hs : runOne cfg w l = some w') :
    OneWorker cfg w' := by
  induction l generalizing w with
  | nil => simp only [runOne, Option.some.injEq] at hs; exact hs ▸ h
  | cons a l ih =>
    cases a with
    | none => exact ih h.resume hs
    | some op =>
      simp only [runOne] at hs
      split at hs
      · rename_i hal
        cases hw : w.step cfg op with
        | none => rw [hw] at hs; simp at hs
        | some v =>
          rw [hw] at hs
          refine ih (h.step op ?_ hw) hs
          cases op <;> simp_all [allowedB, Allowed]
          intro p hp
          rw [hp] at hal
          simpa using hal
      · simp at hs

/-- A run of one worker with a failure, a crash and adaptive points whose radius was changed. -/
example : ∃ w, OneWorker demoSrbf.asynchronousMode w ∧ radiusChanged w.st.log = true ∧
    w.st.curX = [1, 0, 100, 101, 102] := by
  have h : ((runOne demoSrbf.asynchronousMode (Sys.create demoSrbf.asynchronousMode (orc 0))
      [some (pr 100), some (.accept 0), none, some (pr 100), some (.accept 0), some (.complete 0 0), some (pr 100),
        some (.accept 0), some (.abort 0), some (pr 100), some (.accept 0), some (.complete 0 0),
        some (pr 100), some (.accept 0), some (.complete 0 3), some (pr 101), some (.accept 0), some (.complete 0 2),
        some (pr 102), some (.accept 0), some (.complete 0 1)]).any fun w => radiusChanged w.st.log &&
      decide (w.st.curX = [1, 0, 100, 101, 102])) = true := by decide +kernel
  cases hw : runOne demoSrbf.asynchronousMode (Sys.create demoSrbf.asynchronousMode (orc 0))
      [some (pr 100), some (.accept 0), none, some (pr 100), some (.accept 0), some (.complete 0 0), some (pr 100),
        some (.accept 0), some (.abort 0), some (pr 100), some (.accept 0), some (.complete 0 0),
        some (pr 100), some (.accept 0), some (.complete 0 3), some (pr 101), some (.accept 0), some (.complete 0 2),
        some (pr 102), some (.accept 0), some (.complete 0 1)] with
  | none => rw [hw] at h; simp at h
  | some w =>
    rw [hw] at h
    simp only [Option.any_some, Bool.and_eq_true, decide_eq_true_eq] at h
    exact ⟨w, runOne_reach (.create _) _ hw, h.1, h.2⟩

/-- The condition on rejections cannot be dropped: a rejected adaptive proposal is forgotten in asynchronous mode and
repeated in synchronous mode. -/
theorem C89_reject_differs : ∃ (cfg : Config Nat) (ops : List (Op Nat)) (a s : Sys Nat),
    (Sys.create cfg.asynchronousMode (orc 0)).steps cfg.asynchronousMode ops = some a ∧
    (Sys.create cfg.serialMode (orc 0)).steps cfg.serialMode ops = some s ∧
    a.inflight = [200] ∧ s.inflight = [100] := by
  refine ⟨demoSrbf, [pr 100, .accept 0, .complete 0 0, pr 100, .accept 0, .complete 0 0, pr 100, .reject 0, pr 200],
    _, _, rfl, rfl, ?_, ?_⟩ <;> decide +kernel

/-- Nor can the condition on the workers: two workers get different points. -/
theorem C89_workers_differ : ∃ (cfg : Config Nat) (ops : List (Op Nat)) (a s : Sys Nat),
    (Sys.create cfg.asynchronousMode (orc 0)).steps cfg.asynchronousMode ops = some a ∧
    (Sys.create cfg.serialMode (orc 0)).steps cfg.serialMode ops = some s ∧
    a.inflight = [100, 200] ∧ s.inflight = [100] := by
  refine ⟨demoSrbf, [pr 100, .accept 0, .complete 0 0, pr 100, .accept 0, .complete 0 0, pr 100, pr 200],
    _, _, rfl, rfl, ?_, ?_⟩ <;> decide +kernel

end Verif.Props
