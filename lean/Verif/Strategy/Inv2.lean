import Verif.Strategy.Inv

/-! # Invariants of the strategy: ledger, pending points, sources, batches, termination -/

set_option linter.unusedSectionVars false
set_option linter.unusedSimpArgs false

namespace Verif.Strategy

open Verif.Spec

variable {P : Type} [DecidableEq P] {cfg : Config P}

theorem count_eraseIdx_map {α : Type} (f : α → P) {l : List α} {i : Nat} {a : α}
    (h : l[i]? = some a) (x : P) :
    (l.map f).count x = ((l.eraseIdx i).map f).count x + (if f a = x then 1 else 0) := by
  have := ((perm_eraseIdx h).map f).count_eq x
  rw [this]
  simp [List.count_cons]

/-! ### The ledger -/

/-- Every queued point is accounted for exactly once. -/
def Ledger (cfg : Config P) (w : Sys P) : Prop :=
  ∀ x, (queuedBy w.st.log).count x =
    w.st.batchQueue.count x + (w.props.map Proposal.x).count x + (w.recs.map Rec.x).count x +
      ((completions w.st.log).map Prod.fst).count x + (droppedBy cfg.asynchronous w.st.log).count x +
      (crashedBy w.st.log).count x

/-- Simplification set for the ledger. -/
macro "ledger" h:term : tactic => `(tactic| (
  have hh := $h
  simp only [queuedBy_append, completions_append, droppedBy_append, crashedBy_append, List.count_append,
    List.map_append, State.note, State.moveEvLast] at hh ⊢
  simp [queuedBy, completions, droppedBy, crashedBy, List.count_append, List.count_cons] at hh ⊢
  try omega))

theorem ledger_preserved (cfg : Config P) : Preserved cfg (Ledger cfg) where
  create o x := by
    simp [Sys.create, create_eq, State.blank, queuedBy, completions, droppedBy, crashedBy]
  setTerm w h _ := h
  setPhase w h _ _ _ := h
  gen w o n s' h _ _ _ _ _ hg := by
    rcases generateEvals_cases hg with ⟨ws, z, rfl, hz⟩ | ⟨_, rfl, _⟩
    · intro x; ledger (h x)
    · exact h
  restart w o h _ _ _ _ := by
    intro x
    rw [sampleRestart_eq]
    ledger (h x)
  term w h _ _ := by intro x; ledger (h x)
  pop w x q k h hg hcv hq hk := by
    intro y
    have h1 := h y
    rw [hq] at h1
    simp only [State.makeProposal]
    ledger h1
  accept w i p h hp := by
    intro y
    have h1 := h y
    have h2 := count_eraseIdx_map Proposal.x hp y
    rw [h2] at h1
    simp only [State.onAccept]
    ledger h1
  rejectInit w i p h hp hk := by
    intro y
    have h1 := h y
    have h2 := count_eraseIdx_map Proposal.x hp y
    rw [h2] at h1
    simp only [onInitialRejected_eq]
    ledger h1
  rejectAdapt w i p h hp hk := by
    intro y
    have h1 := h y
    have h2 := count_eraseIdx_map Proposal.x hp y
    rw [h2] at h1
    simp only [onAdaptReject_eq]
    cases ha : cfg.asynchronous <;> rw [ha] at h1 <;> ledger h1
  completed w i r v h hr := by
    intro y
    have h1 := h y
    have h2 := count_eraseIdx_map Rec.x hr y
    rw [h2] at h1
    simp only [recordCompleted_eq]
    ledger h1
  adjusted w sc z v h hsc hz hc _ := by
    refine adjusted_of (I := Ledger cfg) ?_ ?_ ?_ w sc z _ h hz hc
    · intro w z f h hs x; ledger (h x)
    · intro w h hs _ x; ledger (h x)
    · intro w h _; exact h
  queued w z v h hz _ _ := h
  aborted w i r h hr := by
    intro y
    have h1 := h y
    have h2 := count_eraseIdx_map Rec.x hr y
    rw [h2] at h1
    simp only [onAborted_eq]
    cases hk : r.kind <;> ledger h1
  resume w h := by
    intro y
    have h1 := h y
    simp only [Sys.resumed, resume_eq, Sys.inflight]
    ledger h1

theorem Reach.ledger {w : Sys P} (h : Reach cfg w) : Ledger cfg w := (ledger_preserved cfg).reach h

/-! ### Sources -/

/-- Everything the strategy handles comes from a source. -/
structure Sourced (w : Sys P) : Prop where
  queue : ∀ x ∈ w.st.batchQueue, x ∈ sources w.st.log
  inflight : ∀ x ∈ w.inflight, x ∈ sources w.st.log
  proposals : ∀ x ∈ proposals w.st.log, x ∈ sources w.st.log
  completions : ∀ x ∈ (finished w.st.log).map Prod.fst, x ∈ sources w.st.log
  xpend : ∀ x ∈ w.st.Xpend, x ∈ w.inflight

theorem sources_append (l m : List (Event P)) : sources (l ++ m) = sources l ++ sources m := by
  simp [sources]
theorem proposals_append (l m : List (Event P)) : proposals (l ++ m) = proposals l ++ proposals m := by
  simp [proposals]

theorem mem_inflight {w : Sys P} {x : P} :
    x ∈ w.inflight ↔ (∃ p ∈ w.props, p.x = x) ∨ (∃ r ∈ w.recs, r.x = x) := by
  simp [Sys.inflight]

theorem mem_of_eraseIdx {α : Type} {l : List α} {i : Nat} {a : α} (h : a ∈ l.eraseIdx i) : a ∈ l :=
  List.mem_of_mem_eraseIdx h

theorem mem_eraseIdx_or {α : Type} {l : List α} {i : Nat} {a b : α} (h : l[i]? = some a)
    (hb : b ∈ l) : b = a ∨ b ∈ l.eraseIdx i := by
  have := (perm_eraseIdx h).mem_iff.1 hb
  simpa using this

theorem sourced_preserved (cfg : Config P) : Preserved cfg Sourced where
  create o := by
    constructor <;> simp [Sys.create, create_eq, State.blank, sources, proposals, finished, Sys.inflight]
  setTerm w h _ := ⟨h.queue, h.inflight, h.proposals, h.completions, h.xpend⟩
  setPhase w h _ _ _ := ⟨h.queue, h.inflight, h.proposals, h.completions, h.xpend⟩
  gen w o n s' h _ _ _ _ _ hg := by
    rcases generateEvals_cases hg with ⟨ws, z, rfl, hz⟩ | ⟨_, rfl, _⟩
    · constructor <;> simp only [sources_append, proposals_append, finished_append, Sys.inflight]
      · intro x hx
        simp only [List.mem_append] at hx ⊢
        rcases hx with hx | hx
        · exact .inl (h.queue x hx)
        · right; simpa [sources] using hx
      · intro x hx; exact List.mem_append_left _ (h.inflight x hx)
      · intro x hx; exact List.mem_append_left _ (h.proposals x (by simpa [proposals] using hx))
      · intro x hx; exact List.mem_append_left _ (h.completions x (by simpa [finished] using hx))
      · exact h.xpend
    · exact ⟨h.queue, h.inflight, h.proposals, h.completions, h.xpend⟩
  restart w o h _ _ _ _ := by
    constructor <;> simp only [sampleRestart_eq, sources_append, proposals_append, finished_append, Sys.inflight]
    · intro x hx
      simp only [List.mem_append] at hx ⊢
      rcases hx with hx | hx
      · exact .inl (h.queue x hx)
      · right; simpa [sources] using hx
    · intro x hx; exact List.mem_append_left _ (h.inflight x hx)
    · intro x hx; exact List.mem_append_left _ (h.proposals x (by simpa [proposals] using hx))
    · intro x hx; exact List.mem_append_left _ (h.completions x (by simpa [finished] using hx))
    · exact h.xpend
  term w h _ _ := by
    constructor <;> simp only [State.note, sources_append, proposals_append, finished_append, Sys.inflight]
    · intro x hx; exact List.mem_append_left _ (h.queue x hx)
    · intro x hx; exact List.mem_append_left _ (h.inflight x hx)
    · intro x hx; exact List.mem_append_left _ (h.proposals x (by simpa [proposals] using hx))
    · intro x hx; exact List.mem_append_left _ (h.completions x (by simpa [finished] using hx))
    · exact h.xpend
  pop w x q k h hg hcv hq hk := by
    have hx0 : x ∈ sources w.st.log := h.queue x (by simp [hq])
    constructor <;> simp only [State.makeProposal, State.note, sources_append, proposals_append,
      finished_append]
    · intro y hy; exact List.mem_append_left _ (h.queue y (by simp [hq, hy]))
    · intro y hy
      refine List.mem_append_left _ ?_
      have := h.inflight y
      simp only [mem_inflight] at this hy
      simp only [List.mem_append, List.mem_singleton] at hy
      rcases hy with ⟨p, hp | hp, rfl⟩ | hr
      · exact this (.inl ⟨p, hp, rfl⟩)
      · subst hp; exact hx0
      · exact this (.inr hr)
    · intro y hy
      refine List.mem_append_left _ ?_
      simp only [List.mem_append] at hy
      rcases hy with hy | hy
      · exact h.proposals y hy
      · simp [proposals] at hy; subst hy; exact hx0
    · intro y hy; exact List.mem_append_left _ (h.completions y (by simpa [finished] using hy))
    · intro y hy
      have := h.xpend y
      simp only [mem_inflight] at this ⊢
      simp only [List.mem_append, List.mem_singleton] at hy ⊢
      rcases hy with hy | rfl
      · rcases this hy with ⟨p, hp, hpx⟩ | hr
        · exact .inl ⟨p, .inl hp, hpx⟩
        · exact .inr hr
      · exact .inl ⟨_, .inr rfl, rfl⟩
  accept w i p h hp := by
    have hsub : ∀ y, y ∈ Sys.inflight (Sys.mk (w.st.note (.accepted p.x p.kind w.st.evNext)).onAccept
        (w.props.eraseIdx i) (w.recs ++ [Rec.mk p.x p.kind w.st.evNext w.st.log.length])) ↔
        y ∈ w.inflight := by
      intro y
      rw [(inflight_props hp).mem_iff]
      simp only [Sys.inflight, List.map_append, List.mem_append, List.map_cons, List.mem_cons,
        List.map_nil, List.not_mem_nil, or_false]
      tauto
    constructor
    · intro x hx
      simp only [State.onAccept, State.note, sources_append]
      exact List.mem_append_left _ (h.queue x hx)
    · intro x hx
      simp only [State.onAccept, State.note, sources_append]
      exact List.mem_append_left _ (h.inflight x ((hsub x).1 hx))
    · intro x hx
      simp only [State.onAccept, State.note, sources_append, proposals_append] at hx ⊢
      exact List.mem_append_left _ (h.proposals x (by simpa [proposals] using hx))
    · intro x hx
      simp only [State.onAccept, State.note, sources_append, finished_append] at hx ⊢
      exact List.mem_append_left _ (h.completions x (by simpa [finished] using hx))
    · intro x hx
      exact (hsub x).2 (h.xpend x hx)
  rejectInit w i p h hp hk := by
    have hpx : p.x ∈ sources w.st.log :=
      h.inflight _ (by rw [mem_inflight]; exact .inl ⟨p, mem_of_getElem? hp, rfl⟩)
    constructor <;> simp only [onInitialRejected_eq, State.note, sources_append, proposals_append,
      finished_append]
    · intro x hx
      refine List.mem_append_left _ ?_
      simp only [List.mem_append, List.mem_singleton] at hx
      rcases hx with hx | rfl
      · exact h.queue x hx
      · exact hpx
    · intro x hx
      refine List.mem_append_left _ (h.inflight x ?_)
      rw [(inflight_props hp).mem_iff]; exact List.mem_cons_of_mem _ hx
    · intro x hx; exact List.mem_append_left _ (h.proposals x (by simpa [proposals] using hx))
    · intro x hx; exact List.mem_append_left _ (h.completions x (by simpa [finished] using hx))
    · intro x hx
      simp only [List.mem_filter, decide_eq_true_eq] at hx
      have := h.xpend x hx.1
      rw [(inflight_props hp).mem_iff, List.mem_cons] at this
      exact this.resolve_left hx.2
  rejectAdapt w i p h hp hk := by
    have hpx : p.x ∈ sources w.st.log :=
      h.inflight _ (by rw [mem_inflight]; exact .inl ⟨p, mem_of_getElem? hp, rfl⟩)
    constructor <;> simp only [onAdaptReject_eq, State.note, sources_append, proposals_append,
      finished_append]
    · intro x hx
      refine List.mem_append_left _ ?_
      simp only [List.mem_append] at hx
      rcases hx with hx | hx
      · exact h.queue x hx
      · split at hx
        · simp at hx
        · simp only [List.mem_singleton] at hx; rw [hx]; exact hpx
    · intro x hx
      refine List.mem_append_left _ (h.inflight x ?_)
      rw [(inflight_props hp).mem_iff]; exact List.mem_cons_of_mem _ hx
    · intro x hx; exact List.mem_append_left _ (h.proposals x (by simpa [proposals] using hx))
    · intro x hx; exact List.mem_append_left _ (h.completions x (by simpa [finished] using hx))
    · intro x hx
      simp only [List.mem_filter, decide_eq_true_eq] at hx
      have := h.xpend x hx.1
      rw [(inflight_props hp).mem_iff, List.mem_cons] at this
      exact this.resolve_left hx.2
  completed w i r v h hr := by
    have hrx : r.x ∈ sources w.st.log :=
      h.inflight _ (by rw [mem_inflight]; exact .inr ⟨r, mem_of_getElem? hr, rfl⟩)
    constructor <;> simp only [recordCompleted_eq, State.note, sources_append, proposals_append,
      finished_append]
    · intro x hx; exact List.mem_append_left _ (h.queue x hx)
    · intro x hx
      refine List.mem_append_left _ (h.inflight x ?_)
      rw [(inflight_recs hr).mem_iff]; exact List.mem_cons_of_mem _ hx
    · intro x hx; exact List.mem_append_left _ (h.proposals x (by simpa [proposals] using hx))
    · intro x hx
      refine List.mem_append_left _ ?_
      rw [List.map_append, List.mem_append] at hx
      rcases hx with hx | hx
      · exact h.completions x hx
      · simp [finished] at hx; rw [hx]; exact hrx
    · intro x hx
      simp only [List.mem_filter, decide_eq_true_eq] at hx
      have := h.xpend x hx.1
      rw [(inflight_recs hr).mem_iff, List.mem_cons] at this
      exact this.resolve_left hx.2
  adjusted w sc z v h hsc hz hc _ := by
    refine adjusted_of (I := Sourced) ?_ ?_ ?_ w sc z _ h hz hc
    · intro w z f h hs
      constructor <;> simp only [State.moveEvLast, sources_append, proposals_append, finished_append, Sys.inflight]
      · intro x hx; exact List.mem_append_left _ (h.queue x hx)
      · intro x hx; exact List.mem_append_left _ (h.inflight x hx)
      · intro x hx; exact List.mem_append_left _ (h.proposals x (by simpa [proposals] using hx))
      · intro x hx; exact List.mem_append_left _ (h.completions x (by simpa [finished] using hx))
      · exact h.xpend
    · intro w h hs _
      constructor <;> simp only [State.moveEvLast, sources_append, proposals_append, finished_append, Sys.inflight]
      · intro x hx; exact List.mem_append_left _ (h.queue x hx)
      · intro x hx; exact List.mem_append_left _ (h.inflight x hx)
      · intro x hx; exact List.mem_append_left _ (h.proposals x (by simpa [proposals] using hx))
      · intro x hx; exact List.mem_append_left _ (h.completions x (by simpa [finished] using hx))
      · exact h.xpend
    · intro w h _; exact ⟨h.queue, h.inflight, h.proposals, h.completions, h.xpend⟩
  queued w z v h hz _ _ := ⟨h.queue, h.inflight, h.proposals, h.completions, h.xpend⟩
  aborted w i r h hr := by
    have hrx : r.x ∈ sources w.st.log :=
      h.inflight _ (by rw [mem_inflight]; exact .inr ⟨r, mem_of_getElem? hr, rfl⟩)
    constructor <;> simp only [onAborted_eq, State.note, sources_append, proposals_append,
      finished_append]
    · intro x hx
      refine List.mem_append_left _ ?_
      simp only [List.mem_append] at hx
      rcases hx with hx | hx
      · exact h.queue x hx
      · split at hx
        · simp only [List.mem_singleton] at hx; rw [hx]; exact hrx
        · simp at hx
    · intro x hx
      refine List.mem_append_left _ (h.inflight x ?_)
      rw [(inflight_recs hr).mem_iff]; exact List.mem_cons_of_mem _ hx
    · intro x hx; exact List.mem_append_left _ (h.proposals x (by simpa [proposals] using hx))
    · intro x hx
      refine List.mem_append_left _ ?_
      rw [List.map_append, List.mem_append] at hx
      rcases hx with hx | hx
      · exact h.completions x hx
      · simp [finished] at hx; rw [hx]; exact hrx
    · intro x hx
      simp only [List.mem_filter, decide_eq_true_eq] at hx
      have := h.xpend x hx.1
      rw [(inflight_recs hr).mem_iff, List.mem_cons] at this
      exact this.resolve_left hx.2
  resume w h := by
    constructor <;> simp only [Sys.resumed, resume_eq, State.note, sources_append, proposals_append,
      finished_append, Sys.inflight]
    · intro x hx
      refine List.mem_append_left _ (List.mem_append_left _ ?_)
      simp only [List.mem_append] at hx
      rcases hx with hx | hx
      · exact h.queue x hx
      · split at hx
        · exact h.inflight x (h.xpend x hx)
        · simp at hx
    · simp
    · intro x hx
      exact List.mem_append_left _ (List.mem_append_left _ (h.proposals x (by simpa [proposals] using hx)))
    · intro x hx
      exact List.mem_append_left _ (List.mem_append_left _ (h.completions x (by simpa [finished] using hx)))
    · simp

theorem Reach.sourced {w : Sys P} (h : Reach cfg w) : Sourced w := (sourced_preserved cfg).reach h

end Verif.Strategy
