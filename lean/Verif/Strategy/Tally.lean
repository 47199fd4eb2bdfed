import Verif.Strategy.Propose
import Verif.Strategy.Inv2

/-! # Counting proposals, and histories without failures -/

set_option linter.unusedSectionVars false

namespace Verif.Strategy

open Verif.Spec

variable {P : Type} [DecidableEq P] {cfg : Config P}

theorem losses_append (l m : List (Event P)) : losses (l ++ m) = losses l ++ losses m := by simp [losses]

/-- Every proposal has been completed, is in flight, or was lost. -/
def Tally (w : Sys P) : Prop :=
  (proposals w.st.log).length = (completions w.st.log).length + (w.props.length + w.recs.length) + (losses w.st.log).length

theorem Tally.of_event {w w' : Sys P} (h : Tally w) (e : Event P) (hl : w'.st.log = w.st.log ++ [e])
    (hp : w'.props.length + w'.recs.length = w.props.length + w.recs.length)
    (he : (proposals [e]).length = 0 ∧ (completions [e]).length = 0 ∧ (losses [e]).length = 0) : Tally w' := by
  unfold Tally at *
  rw [hl, proposals_append, completions_append, losses_append, List.length_append, List.length_append,
    List.length_append, he.1, he.2.1, he.2.2, hp]
  exact h

theorem tally_preserved (cfg : Config P) : Preserved cfg Tally where
  create o := by simp [Tally, Sys.create, create_eq, State.blank, proposals, completions, losses]
  setTerm w h _ := h
  setPhase w h _ _ _ := h
  gen w o n s' h _ _ _ _ _ hg := by
    rcases generateEvals_cases hg with ⟨ws, z, rfl, hz⟩ | ⟨_, rfl, _⟩
    · exact h.of_event (.generated _ _) rfl rfl (by simp [proposals, completions, losses])
    · exact h
  restart w o h _ _ _ _ := by
    unfold Tally at *
    simp only [sampleRestart_eq, proposals_append, completions_append, losses_append, List.length_append]
    simpa [proposals, completions, losses] using h
  term w h _ _ := h.of_event .terminated rfl rfl (by simp [proposals, completions, losses])
  pop w x q k h _ _ _ _ := by
    unfold Tally at *
    simp only [State.makeProposal, State.note, proposals_append, completions_append, losses_append, List.length_append]
    simp [proposals, completions, losses] at h ⊢
    omega
  accept w i p h hp := by
    have hl := length_eraseIdx' hp
    refine h.of_event (.accepted _ _ _) rfl ?_ (by simp [proposals, completions, losses])
    simp only [List.length_append, List.length_cons, List.length_nil]
    omega
  rejectInit w i p h hp hk := by
    have hl := length_eraseIdx' hp
    unfold Tally at *
    simp only [onInitialRejected_eq, State.note, proposals_append, completions_append, losses_append, List.length_append]
    simp [proposals, completions, losses] at h ⊢
    omega
  rejectAdapt w i p h hp hk := by
    have hl := length_eraseIdx' hp
    unfold Tally at *
    simp only [onAdaptReject_eq, State.note, proposals_append, completions_append, losses_append, List.length_append]
    simp [proposals, completions, losses] at h ⊢
    omega
  completed w i r v h hr := by
    have hl := length_eraseIdx' hr
    unfold Tally at *
    simp only [recordCompleted_eq, State.note, proposals_append, completions_append, losses_append, List.length_append]
    simp [proposals, completions, losses] at h ⊢
    omega
  adjusted w sc z v h _ hz hc _ := by
    refine adjusted_of (I := Tally) ?_ ?_ ?_ w sc z _ h hz hc
    · intro w z f h _; exact h.of_event (.adjusted f) rfl rfl (by simp [proposals, completions, losses])
    · intro w h _ _; exact h.of_event .stepChange rfl rfl (by simp [proposals, completions, losses])
    · intro w h _; exact h
  queued w z v h _ _ _ := h
  aborted w i r h hr := by
    have hl := length_eraseIdx' hr
    unfold Tally at *
    simp only [onAborted_eq, State.note, proposals_append, completions_append, losses_append, List.length_append]
    simp [proposals, completions, losses] at h ⊢
    omega
  resume w h := by
    unfold Tally at *
    simp only [Sys.resumed, resume_eq, State.note, proposals_append, completions_append, losses_append, List.length_append]
    simp [proposals, completions, losses, Sys.inflight] at h ⊢
    omega

/-- Entries that the strategy itself makes when it is asked for a proposal or told a value. -/
def internal : Event P → Bool
  | .restart _ => true
  | .generated _ _ => true
  | .adjusted _ => true
  | .stepChange => true
  | _ => false

/-- `l'` is `l` followed by internal entries. -/
def Ext (l l' : List (Event P)) : Prop := ∃ m, l' = l ++ m ∧ ∀ e ∈ m, internal e = true

theorem Ext.rfl {l : List (Event P)} : Ext l l := ⟨[], by simp, by simp⟩

theorem Ext.one {l l' : List (Event P)} (h : Ext l l') {e : Event P} (he : internal e = true) : Ext l (l' ++ [e]) := by
  obtain ⟨m, rfl, hm⟩ := h
  refine ⟨m ++ [e], by simp, ?_⟩
  intro x hx
  rcases List.mem_append.mp hx with h1 | h1
  · exact hm x h1
  · simp only [List.mem_singleton] at h1; rw [h1]; exact he

theorem Ext.isLoss {l l' : List (Event P)} (h : Ext l l') (hl : ∀ e ∈ l, isLoss e = false) :
    ∀ e ∈ l', Spec.isLoss e = false := by
  obtain ⟨m, rfl, hm⟩ := h
  intro e he
  rcases List.mem_append.mp he with h1 | h1
  · exact hl e h1
  · have := hm e h1
    cases e <;> simp [internal, Spec.isLoss] at this ⊢

theorem Ext.completions {l l' : List (Event P)} (h : Ext l l') : completions l' = Spec.completions l := by
  obtain ⟨m, rfl, hm⟩ := h
  rw [completions_append]
  have : Spec.completions m = [] := by
    unfold Spec.completions
    rw [List.filterMap_eq_nil_iff]
    intro e he
    have := hm e he
    cases e <;> simp [internal] at this ⊢
  rw [this, List.append_nil]

/-- `propose_action` makes internal entries only. -/
theorem proposeAction_ext {o : Oracle P} {s s' : State P} {a : Action P}
    (h : s.proposeAction cfg o = some (a, s')) : Ext s.log s'.log := by
  by_cases ht : s.terminate = true ∨ cfg.maxEvals ≤ s.numEvals + s.pendingEvals
  · rw [proposeAction_terminate ht] at h
    simp only [Option.some.injEq, Prod.mk.injEq] at h
    rw [← h.2]; exact .rfl
  · simp only [not_or, not_le] at ht
    rw [proposeAction_going (by simpa using ht.1) ht.2] at h
    have hrest : ∀ (t : State P), (t.sampleRestart cfg o).initProposal = some (a, s') → Ext s.log t.log →
        Ext s.log s'.log := by
      intro t hh hc
      rw [initProposal_log hh, sampleRestart_eq]
      exact hc.one rfl
    have hag : ∀ t : State P, t.afterGenerate cfg o = some (a, s') → Ext s.log t.log → Ext s.log s'.log := by
      intro t hh hc
      unfold State.afterGenerate at hh
      split at hh
      · split at hh
        · exact hrest t hh hc
        · simp only [Option.some.injEq, Prod.mk.injEq] at hh; rw [← hh.2]; exact hc
      · have e := adaptProposal_log (s := t) (s' := s') (a := a) (by simpa using hh)
        rw [e]; exact hc
    split at h
    · split at h
      · split at h
        · exact hrest s h .rfl
        · simp only [Option.some.injEq, Prod.mk.injEq] at h; rw [← h.2]; exact .rfl
      · simp only [Option.some.injEq, Prod.mk.injEq] at h; rw [← h.2]; exact .rfl
    · split at h
      · unfold State.adaptBranch at h
        simp only at h
        have hgen : ∀ n s1, State.generateEvals cfg o n { s with phase := .adaptive } = some s1 → Ext s.log s1.log := by
          intro n s1 hg
          rcases generateEvals_cases hg with ⟨ws, z, rfl, _⟩ | ⟨_, rfl, _⟩
          · exact Ext.rfl.one rfl
          · exact .rfl
        split at h
        · split at h
          · simp at h
          · rename_i s1 hg
            exact hag _ h (hgen _ _ hg)
        · split at h
          · split at h
            · simp at h
            · rename_i s1 hg
              exact hag _ h (hgen _ _ hg)
          · exact hag _ h .rfl
      · split at h
        · rw [initProposal_log h]; exact .rfl
        · have e := adaptProposal_log (s := s) (s' := s') (a := a) (by simpa using h)
          rw [e]; exact .rfl

/-- A completion makes internal entries only. -/
theorem onCompleted_ext (s : State P) (x : P) (k : Kind) (v : Val) (e : Nat) :
    Ext s.log (s.onCompleted cfg x k v e).log := by
  have h1 : Ext s.log (s.recordCompleted x v e).log := by rw [recordCompleted_eq]; exact .rfl
  unfold State.onCompleted
  generalize s.recordCompleted x v e = t at h1
  simp only
  split
  · exact h1
  · split
    · unfold State.srbfCompleted
      split
      · split
        · unfold State.adjustStep
          simp only
          split <;> split
          all_goals first
            | exact (h1.one rfl).one rfl
            | exact h1.one rfl
        · exact h1
      · exact h1
    · exact h1

theorem Reach.tally {w : Sys P} (h : Reach cfg w) : Tally w := (tally_preserved cfg).reach h

end Verif.Strategy
