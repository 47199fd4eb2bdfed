import Verif.Checkpoint.Proofs
import Verif.Strategy.Tally

/-! # The checkpoint and the evaluations that ended -/

set_option linter.unusedSectionVars false

namespace Verif.Checkpoint

open Verif.Strategy Verif.Spec

variable {P : Type} [DecidableEq P] {cfg : Config P} {first : Bool}

theorem endings_append (l m : List (Event P)) : endings (l ++ m) = endings l ++ endings m := by simp [endings]

theorem _root_.Verif.Strategy.Ext.endings {l l' : List (Event P)} (h : Ext l l') : endings l' = Spec.endings l := by
  obtain ⟨m, rfl, hm⟩ := h
  rw [endings_append]
  have : Spec.endings m = [] := by
    unfold Spec.endings
    rw [List.filterMap_eq_nil_iff]
    intro e he
    have := hm e he
    cases e <;> simp [internal] at this ⊢
  rw [this, List.append_nil]

/-- Events that end an evaluation: completion and abort. -/
def endsEval : Op P → Nat
  | .complete _ _ => 1
  | .abort _ => 1
  | .propose _ => 0
  | .accept _ => 0
  | .reject _ => 0
  | .update _ => 0

/-- What an event of the process does to the history of ended evaluations. -/
theorem step_endings {w w' : Sys P} {op : Op P} (h : w.step cfg op = some w') :
    ∃ c, endings w'.st.log = endings w.st.log ++ c ∧ c.length = endsEval op := by
  cases op with
  | propose o =>
    simp only [Sys.step] at h
    split at h
    · simp at h
    all_goals
      rename_i s' he
      simp only [Option.some.injEq] at h; subst h
      have hx := (proposeAction_ext he).endings
      refine ⟨[], ?_, rfl⟩
      simp only [State.note, endings_append, hx, List.append_nil]
      try simp [endings]
  | accept i =>
    simp only [Sys.step] at h
    split at h
    · simp at h
    · simp only [Option.some.injEq] at h; subst h
      exact ⟨[], by simp [State.note, State.onAccept, endings], rfl⟩
  | reject i =>
    simp only [Sys.step] at h
    split at h
    · simp at h
    · simp only [Option.some.injEq] at h; subst h
      refine ⟨[], ?_, rfl⟩
      split <;> simp [onInitialRejected_eq, onAdaptReject_eq, State.note, endings]
  | complete i v =>
    simp only [Sys.step] at h
    split at h
    · simp at h
    · rename_i r _
      simp only [Option.some.injEq] at h; subst h
      refine ⟨[(r.x, some v)], ?_, rfl⟩
      rw [(onCompleted_ext _ _ _ _ _).endings]
      simp [State.note, endings]
  | abort i =>
    simp only [Sys.step] at h
    split at h
    · simp at h
    · rename_i r _
      simp only [Option.some.injEq] at h; subst h
      refine ⟨[(r.x, none)], ?_, rfl⟩
      simp [onAborted_eq, State.note, endings]
  | update i =>
    simp only [Sys.step] at h
    split at h
    · simp at h
    · simp only [Option.some.injEq] at h; subst h
      exact ⟨[], by simp, rfl⟩

theorem resumed_endings (d : Sys P) : endings d.resumed.st.log = endings d.st.log := by
  simp [Sys.resumed, resume_eq, State.note, endings]

/-- Only proposals terminate. -/
theorem endsEval_of_terminates {w : Sys P} {op : Op P} (h : terminates cfg w op = true) : endsEval op = 0 := by
  cases op <;> simp [terminates, endsEval] at h ⊢

/-- Without checkpoint no evaluation has ended; otherwise the checkpoint is at most one ended evaluation behind. -/
def Recent (first : Bool) (W : World P) : Prop :=
  ∀ w, W.proc = some w → (W.disk = none → endings w.st.log = []) ∧
    ∀ d, W.disk = some d → ∃ e, endings w.st.log = endings d.st.log ++ e ∧ e.length ≤ lossBound first

theorem WReach.recent {W : World P} (h : WReach first cfg W) : Recent first W := by
  induction h with
  | init => intro w hw; cases hw
  | @step W W' op hW hs ih =>
    cases op with
    | run o =>
      simp only [World.step] at hs
      split at hs
      · simp at hs
      · split at hs
        · simp at hs
        · rename_i hp hd
          simp only [Option.some.injEq, Res.ok.injEq] at hs; subst hs
          intro w hw
          simp only [Option.some.injEq] at hw; subst hw
          refine ⟨fun _ => by simp [Sys.create, create_eq, endings], ?_⟩
          intro d hd'; simp only at hd'; rw [hd] at hd'; cases hd'
    | resume =>
      simp only [World.step] at hs
      split at hs
      · simp at hs
      · split at hs
        · simp at hs
        · rename_i hp d hd
          simp only [Option.some.injEq, Res.ok.injEq] at hs; subst hs
          intro w hw
          simp only [Option.some.injEq] at hw; subst hw
          refine ⟨fun hn => ?_, ?_⟩
          · simp only at hn; rw [hd] at hn; simp at hn
          intro d' hd'
          simp only at hd'; rw [hd] at hd'; cases hd'
          exact ⟨[], by rw [resumed_endings]; simp, by simp⟩
    | crash =>
      simp only [World.step] at hs
      split at hs
      · simp at hs
      · simp only [Option.some.injEq, Res.ok.injEq] at hs; subst hs
        intro w hw; cases hw
    | ev op =>
      simp only [World.step] at hs
      split at hs
      · simp at hs
      · rename_i w hp
        split at hs
        · simp at hs
        · rename_i w' hst
          obtain ⟨c, hc, hcl⟩ := step_endings hst
          obtain ⟨ih1, ih2⟩ := ih w hp
          split at hs
          · simp only [Option.some.injEq, Res.ok.injEq] at hs; subst hs
            intro v hv
            simp only [Option.some.injEq] at hv; subst hv
            refine ⟨fun hn => by simp at hn, ?_⟩
            intro d hd
            simp only [Option.some.injEq] at hd
            subst hd
            cases first with
            | true =>
              refine ⟨c, hc, ?_⟩
              rw [hcl]; unfold lossBound; cases op <;> simp [endsEval]
            | false => exact ⟨[], by simp, by simp⟩
          · rename_i hf
            have hc0 : c = [] := by
              have : endsEval op = 0 := by cases op <;> simp_all [Op.finishes, endsEval]
              rw [this] at hcl; simpa using hcl
            rw [hc0, List.append_nil] at hc
            split at hs
            · simp only [Option.some.injEq, Res.ok.injEq] at hs; subst hs
              intro v hv; cases hv
            · simp only [Option.some.injEq, Res.ok.injEq] at hs; subst hs
              intro v hv
              simp only [Option.some.injEq] at hv; subst hv
              refine ⟨fun hn => by rw [hc]; exact ih1 hn, ?_⟩
              intro d hd
              obtain ⟨e, h1, h2⟩ := ih2 d hd
              exact ⟨e, by rw [hc]; exact h1, h2⟩

end Verif.Checkpoint
