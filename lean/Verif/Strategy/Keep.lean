import Verif.Strategy.Tally

/-! # What one call of `propose_action` does to the data of the surrogate and to the queue -/

namespace Verif.Strategy

open Verif.Spec

variable {P : Type} {cfg : Config P}

/-- Only new points were generated. -/
def OnlyGenerated (m : List (Event P)) : Prop := ∀ e ∈ m, ∃ q ws, e = Event.generated q ws

/-- Effect of `propose_action` with answer `a`: without restart the data stay, with a restart they are those of
`sample_initial`; queued points stay queued, except the proposed one. -/
inductive Kept (cfg : Config P) (o : Oracle P) (s : State P) (a : Action P) (s' : State P) : Prop
  | same (m : List (Event P)) (hl : s'.log = s.log ++ m) (hm : OnlyGenerated m) (hs : s'.surr = s.surr)
      (hx : s'.curX = s.curX) (hq : ∀ y ∈ s.batchQueue, y ∈ s'.batchQueue ∨ ∃ k, a = .eval y k)
  | restart (m : List (Event P)) (q : List P)
      (hd : q = (List.range cfg.numPts).map o.design ++ (if s.X = [] then unknownExtras cfg else []))
      (hl : s'.log = s.log ++ m ++ [.restart q]) (hm : OnlyGenerated m)
      (hs : s'.surr = if s.X = [] then knownExtras cfg else []) (hx : s'.curX = [])
      (hq : ∀ y ∈ q, y ∈ s'.batchQueue ∨ ∃ k, a = .eval y k)

theorem initProposal_kept {s s' : State P} {a : Action P} (h : s.initProposal = some (a, s')) :
    s'.log = s.log ∧ s'.surr = s.surr ∧ s'.curX = s.curX ∧
      ∀ y ∈ s.batchQueue, y ∈ s'.batchQueue ∨ ∃ k, a = .eval y k := by
  unfold State.initProposal at h
  split at h
  · simp at h
  · rename_i x q hx
    simp only [Option.some.injEq, Prod.mk.injEq] at h
    obtain ⟨rfl, rfl⟩ := h
    refine ⟨rfl, rfl, rfl, fun y hy => ?_⟩
    rw [popLast_some hx] at hy
    simp only [List.mem_append, List.mem_singleton] at hy
    rcases hy with h1 | rfl
    · exact .inl h1
    · exact .inr ⟨_, rfl⟩

theorem adaptProposal_kept {s s' : State P} {a : Action P} (h : s.adaptProposal = (a, s')) :
    s'.log = s.log ∧ s'.surr = s.surr ∧ s'.curX = s.curX ∧
      ∀ y ∈ s.batchQueue, y ∈ s'.batchQueue ∨ ∃ k, a = .eval y k := by
  unfold State.adaptProposal at h
  split at h
  · simp only [Prod.mk.injEq] at h
    obtain ⟨rfl, rfl⟩ := h
    exact ⟨rfl, rfl, rfl, fun y hy => .inl hy⟩
  · rename_i x q hx
    simp only [Prod.mk.injEq] at h
    obtain ⟨rfl, rfl⟩ := h
    refine ⟨rfl, rfl, rfl, fun y hy => ?_⟩
    rw [popLast_some hx] at hy
    simp only [List.mem_append, List.mem_singleton] at hy
    rcases hy with h1 | rfl
    · exact .inl h1
    · exact .inr ⟨_, rfl⟩

theorem proposeAction_kept [DecidableEq P] {o : Oracle P} {s s' : State P} {a : Action P}
    (h : s.proposeAction cfg o = some (a, s')) : Kept cfg o s a s' := by
  by_cases ht : s.terminate = true ∨ cfg.maxEvals ≤ s.numEvals + s.pendingEvals
  · rw [proposeAction_terminate ht] at h
    simp only [Option.some.injEq, Prod.mk.injEq] at h
    rw [← h.2]
    exact .same [] (by simp) (by simp [OnlyGenerated]) rfl rfl fun y hy => .inl hy
  · simp only [not_or, not_le] at ht
    rw [proposeAction_going (by simpa using ht.1) ht.2] at h
    have hnil : OnlyGenerated ([] : List (Event P)) := by simp [OnlyGenerated]
    -- `t` is reached from `s` without restart
    have hrest : ∀ (t : State P) (m : List (Event P)), t.log = s.log ++ m → OnlyGenerated m → t.X = s.X →
        (t.sampleRestart cfg o).initProposal = some (a, s') → Kept cfg o s a s' := by
      intro t m hl hm hX hh
      obtain ⟨e1, e2, e3, e4⟩ := initProposal_kept hh
      rw [sampleRestart_eq] at e1 e2 e3 e4
      rw [hl] at e1
      refine .restart m _ rfl (by rw [e1, hX]) hm (by rw [e2, hX]) e3 fun y hy => e4 y ?_
      simp only at hy ⊢
      rw [hX]
      exact List.mem_append_right _ hy
    have hag : ∀ (t : State P) (m : List (Event P)), t.afterGenerate cfg o = some (a, s') → t.log = s.log ++ m → OnlyGenerated m → t.X = s.X → t.surr = s.surr →
        t.curX = s.curX → (∀ y ∈ s.batchQueue, y ∈ t.batchQueue) →
        Kept cfg o s a s' := by
      intro t m hh hl hm hX hS hx hq
      unfold State.afterGenerate at hh
      split at hh
      · split at hh
        · exact hrest t m hl hm hX hh
        · simp only [Option.some.injEq, Prod.mk.injEq] at hh
          obtain ⟨rfl, rfl⟩ := hh
          exact .same m hl hm hS hx fun y hy => .inl (hq y hy)
      · obtain ⟨e1, e2, e3, e4⟩ := adaptProposal_kept (s := t) (s' := s') (a := a) (by simpa using hh)
        exact .same m (by rw [e1, hl]) hm (by rw [e2, hS]) (by rw [e3, hx]) fun y hy => e4 y (hq y hy)
    have hstay : some (Action.nothing, s) = some (a, s') → Kept cfg o s a s' := by
      intro hh
      simp only [Option.some.injEq, Prod.mk.injEq] at hh
      obtain ⟨rfl, rfl⟩ := hh
      exact .same [] (by simp) hnil rfl rfl fun y hy => .inl hy
    split at h
    · split at h
      · split at h
        · exact hrest s [] (by simp) hnil rfl h
        · exact hstay h
      · exact hstay h
    · split at h
      · unfold State.adaptBranch at h
        simp only at h
        have hgen : ∀ n s1, State.generateEvals cfg o n { s with phase := .adaptive } = some s1 →
            s1.afterGenerate cfg o = some (a, s') → Kept cfg o s a s' := by
          intro n s1 hg hh
          rcases generateEvals_cases hg with ⟨ws, z, rfl, _⟩ | ⟨_, rfl, _⟩
          · refine hag _ [.generated ((List.range n).map o.pts) ws] hh rfl ?_ rfl rfl rfl (fun y hy => ?_)
            · intro e he
              simp only [List.mem_singleton] at he
              exact ⟨_, _, he⟩
            · exact List.mem_append_left _ hy
          · exact hag _ [] hh (by simp) hnil rfl rfl rfl (fun y hy => hy)
        split at h
        · split at h
          · simp at h
          · rename_i s1 hg
            exact hgen _ _ hg h
        · split at h
          · split at h
            · simp at h
            · rename_i s1 hg
              exact hgen _ _ hg h
          · exact hag _ [] h (by simp) hnil rfl rfl rfl (fun y hy => hy)
      · split at h
        · obtain ⟨e1, e2, e3, e4⟩ := initProposal_kept h
          exact .same [] (by simp [e1]) hnil e2 e3 e4
        · obtain ⟨e1, e2, e3, e4⟩ := adaptProposal_kept (s := s) (s' := s') (a := a) (by simpa using h)
          exact .same [] (by simp [e1]) hnil e2 e3 e4

/-- A completion adds the evaluation to the data if it belongs to the current run, and makes no restart. -/
theorem onCompleted_kept [DecidableEq P] (s : State P) (x : P) (k : Kind) (v : Val) (e : Nat) :
    (s.onCompleted cfg x k v e).surr = (if e > s.evLast then s.surr ++ [(x, v)] else s.surr) ∧
    (s.onCompleted cfg x k v e).curX = (if e > s.evLast then s.curX ++ [x] else s.curX) ∧
    (s.onCompleted cfg x k v e).batchQueue = s.batchQueue ∧
    ∃ m, (s.onCompleted cfg x k v e).log = s.log ++ m ∧ ∀ e ∈ m, (∃ f, e = Event.adjusted f) ∨ e = .stepChange := by
  have h1 : (s.recordCompleted x v e).surr = (if e > s.evLast then s.surr ++ [(x, v)] else s.surr) := by
    rw [recordCompleted_eq]
  have h2 : (s.recordCompleted x v e).curX = (if e > s.evLast then s.curX ++ [x] else s.curX) := by
    rw [recordCompleted_eq]
  have h3 : (s.recordCompleted x v e).batchQueue = s.batchQueue := by rw [recordCompleted_eq]
  have h4 : (s.recordCompleted x v e).log = s.log := by rw [recordCompleted_eq]
  unfold State.onCompleted
  generalize s.recordCompleted x v e = t at h1 h2 h3 h4
  rw [← h1, ← h2, ← h3, ← h4]
  simp only
  split
  · exact ⟨rfl, rfl, rfl, [], by simp, by simp⟩
  · split
    · unfold State.srbfCompleted
      split
      · split
        · unfold State.adjustStep
          simp only
          split <;> split
          all_goals first
            | exact ⟨rfl, rfl, rfl, _, List.append_assoc _ _ _, by simp⟩
            | exact ⟨rfl, rfl, rfl, _, rfl, by simp⟩
        · exact ⟨rfl, rfl, rfl, [], by simp, by simp⟩
      · exact ⟨rfl, rfl, rfl, [], by simp, by simp⟩
    · exact ⟨rfl, rfl, rfl, [], by simp, by simp⟩

end Verif.Strategy
