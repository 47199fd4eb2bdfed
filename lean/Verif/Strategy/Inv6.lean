import Verif.Strategy.Propose

/-! # Further invariants: history order, kinds of proposals, extra points, single steps of SRBF -/

set_option linter.unusedSectionVars false
set_option linter.unusedSimpArgs false

namespace Verif.Strategy

open Verif.Spec

variable {P : Type} [DecidableEq P] {cfg : Config P}

/-- The history is only extended. -/
theorem log_closed (cfg : Config P) (l : List (Event P)) : Closed cfg (fun v => l <+: v.st.log) where
  setTerm w h _ := h
  setPhase w h _ _ _ := h
  gen w o n s' h a b c d e hg := by
    rcases generateEvals_cases hg with ⟨ws, z, rfl, hz⟩ | ⟨_, rfl, _⟩
    · exact h.trans (List.prefix_append _ _)
    · exact h
  restart w o h a b c d := by rw [sampleRestart_eq]; exact h.trans (List.prefix_append _ _)
  term w h _ _ := h.trans (List.prefix_append _ _)
  pop w x q k h _ _ _ _ := h.trans (List.prefix_append _ _)
  accept w i p h hp := h.trans (List.prefix_append _ _)
  rejectInit w i p h hp hk := by rw [onInitialRejected_eq]; exact h.trans (List.prefix_append _ _)
  rejectAdapt w i p h hp hk := by rw [onAdaptReject_eq]; exact h.trans (List.prefix_append _ _)
  completed w i r v h hr := by rw [recordCompleted_eq]; exact h.trans (List.prefix_append _ _)
  adjusted w sc' z v h hsc' hz hc hv := by rw [adjustStep_eq]; exact h.trans (List.prefix_append _ _)
  queued w z v h hz _ _ := h
  aborted w i r h hr := by rw [onAborted_eq]; exact h.trans (List.prefix_append _ _)
  resume w h := by
    simp only [Sys.resumed, resume_eq, State.note, List.append_assoc]
    exact h.trans (List.prefix_append _ _)

theorem Later.log {w w' : Sys P} (h : Later cfg w w') : w.st.log <+: w'.st.log :=
  (log_closed cfg w.st.log).later h (List.prefix_refl _)

/-- The termination flag is never cleared. -/
theorem terminate_closed (cfg : Config P) : Closed cfg (fun v => v.st.terminate = true) where
  setTerm w h _ := rfl
  setPhase w h _ _ _ := h
  gen w o n s' h a b c d e hg := by
    rcases generateEvals_cases hg with ⟨ws, z, rfl, hz⟩ | ⟨_, rfl, _⟩ <;> exact h
  restart w o h a b c d := by rw [sampleRestart_eq]; exact h
  term w h _ _ := h
  pop w x q k h _ _ _ _ := h
  accept w i p h hp := h
  rejectInit w i p h hp hk := by rw [onInitialRejected_eq]; exact h
  rejectAdapt w i p h hp hk := by rw [onAdaptReject_eq]; exact h
  completed w i r v h hr := by rw [recordCompleted_eq]; exact h
  adjusted w sc' z v h hsc' hz hc hv := by rw [adjustStep_eq]; exact h
  queued w z v h hz _ _ := h
  aborted w i r h hr := by rw [onAborted_eq]; exact h
  resume w h := by simp only [Sys.resumed, resume_eq, State.note]; exact h

/-- Everything that is rejected, aborted or completed has been proposed with the same kind; adaptive proposals
only exist after the initial phase of the first run. -/
structure Kinds (w : Sys P) : Prop where
  props : ∀ p ∈ w.props, Event.proposed p.x p.kind ∈ w.st.log
  recs : ∀ r ∈ w.recs, Event.proposed r.x r.kind ∈ w.st.log
  rejected : ∀ x k, Event.rejected x k ∈ w.st.log → Event.proposed x k ∈ w.st.log
  aborted : ∀ x k, Event.aborted x k ∈ w.st.log → Event.proposed x k ∈ w.st.log
  initial : w.st.phase = .initial → restarted w.st.log = false →
    ∀ x, Event.proposed x .adapt ∉ w.st.log

theorem Kinds.of_same {w w' : Sys P} (h : Kinds w) (m : List (Event P)) (hl : w'.st.log = w.st.log ++ m)
    (hm : ∀ x k, Event.proposed x k ∉ m) (hmr : ∀ x k, Event.rejected x k ∈ m → Event.proposed x k ∈ w.st.log)
    (hma : ∀ x k, Event.aborted x k ∈ m → Event.proposed x k ∈ w.st.log)
    (hp : ∀ p ∈ w'.props, p ∈ w.props)
    (hr : ∀ r ∈ w'.recs, r ∈ w.recs ∨ Event.proposed r.x r.kind ∈ w.st.log)
    (hph : w'.st.phase = .initial → w.st.phase = .initial ∨ restarted m = true) : Kinds w' := by
  constructor
  · intro p hp'; rw [hl]; exact List.mem_append_left _ (h.props p (hp p hp'))
  · intro r hr'
    rw [hl]
    rcases hr r hr' with h' | h'
    · exact List.mem_append_left _ (h.recs r h')
    · exact List.mem_append_left _ h'
  · intro x k hx
    rw [hl] at hx ⊢
    rcases List.mem_append.1 hx with h' | h'
    · exact List.mem_append_left _ (h.rejected x k h')
    · exact List.mem_append_left _ (hmr x k h')
  · intro x k hx
    rw [hl] at hx ⊢
    rcases List.mem_append.1 hx with h' | h'
    · exact List.mem_append_left _ (h.aborted x k h')
    · exact List.mem_append_left _ (hma x k h')
  · intro hi hres x hx
    rw [hl, restarted_append, Bool.or_eq_false_iff] at hres
    rw [hl] at hx
    rcases hph hi with h' | h'
    · rcases List.mem_append.1 hx with h'' | h''
      · exact h.initial h' hres.1 x h''
      · exact hm x _ h''
    · rw [hres.2] at h'; cases h'

theorem kinds_preserved (cfg : Config P) : Preserved cfg Kinds where
  create o := by constructor <;> simp [Sys.create, create_eq, State.blank]
  setTerm w h _ := h.of_same [] (by simp) (by simp) (by simp) (by simp) (fun _ => id) (fun _ => .inl) .inl
  setPhase w h _ _ _ := h.of_same [] (by simp) (by simp) (by simp) (by simp) (fun _ => id) (fun _ => .inl)
    (by simp)
  gen w o n s' h a b c d e hg := by
    rcases generateEvals_cases hg with ⟨ws, z, rfl, hz⟩ | ⟨_, rfl, _⟩
    · exact h.of_same _ rfl (by simp) (by simp) (by simp) (fun _ => id) (fun _ => .inl) .inl
    · exact h.of_same [] (by simp) (by simp) (by simp) (by simp) (fun _ => id) (fun _ => .inl) .inl
  restart w o h a b c d := by
    refine h.of_same [.restart _] (by rw [sampleRestart_eq]) (by simp) (by simp) (by simp) (fun _ => id)
      (fun _ => .inl) (fun _ => .inr rfl)
  term w h _ _ := h.of_same _ rfl (by simp) (by simp) (by simp) (fun _ => id) (fun _ => .inl) .inl
  pop w x q k h hg hcv hq hk := by
    constructor <;> simp only [State.note, State.makeProposal]
    · intro p hp
      simp only [List.mem_append, List.mem_singleton] at hp ⊢
      rcases hp with hp | rfl
      · exact .inl (h.props p hp)
      · right; rfl
    · intro r hr; exact List.mem_append_left _ (h.recs r hr)
    · intro y k' hy
      refine List.mem_append_left _ (h.rejected y k' ?_)
      simpa using hy
    · intro y k' hy
      refine List.mem_append_left _ (h.aborted y k' ?_)
      simpa using hy
    · intro hi hres y hy
      rw [restarted_append, Bool.or_eq_false_iff] at hres
      rcases hk with ⟨rfl, _⟩ | ⟨_, hk⟩
      · exact h.initial hi hres.1 y (by simpa using hy)
      · rw [hk] at hi; cases hi
  accept w i p h hp := by
    refine h.of_same _ rfl (by simp) (by simp) (by simp) (fun _ => mem_of_eraseIdx) ?_ .inl
    intro r hr
    simp only [List.mem_append, List.mem_singleton] at hr
    rcases hr with hr | rfl
    · exact .inl hr
    · exact .inr (h.props p (mem_of_getElem? hp))
  rejectInit w i p h hp hk := by
    have hpp := h.props p (mem_of_getElem? hp)
    rw [hk] at hpp
    refine h.of_same [.rejected p.x .init] (by rw [onInitialRejected_eq]; rfl) (by simp) ?_ (by simp)
      (fun _ => mem_of_eraseIdx) (fun _ => .inl) (fun hh => .inl (by rwa [onInitialRejected_eq] at hh))
    intro x k hx
    simp at hx
    rw [hx.1, hx.2]; exact hpp
  rejectAdapt w i p h hp hk := by
    have hpp := h.props p (mem_of_getElem? hp)
    rw [hk] at hpp
    refine h.of_same [.rejected p.x .adapt] (by rw [onAdaptReject_eq]; rfl) (by simp) ?_ (by simp)
      (fun _ => mem_of_eraseIdx) (fun _ => .inl) (fun hh => .inl (by rwa [onAdaptReject_eq] at hh))
    intro x k hx
    simp at hx
    rw [hx.1, hx.2]; exact hpp
  completed w i r v h hr := by
    refine h.of_same [.completed r.x r.kind v r.accAt] (by rw [recordCompleted_eq]; rfl) (by simp) (by simp)
      (by simp) (fun _ => id) (fun _ hh => .inl (mem_of_eraseIdx hh))
      (fun hh => .inl (by rwa [recordCompleted_eq] at hh))
  adjusted w sc' z v h hsc' hz hc hv := by
    refine h.of_same _ (by rw [adjustStep_eq]) ?_ ?_ ?_ (fun _ => id) (fun _ => .inl)
      (fun hh => .inl (by rwa [adjustStep_eq] at hh)) <;> intro x k <;> split <;> simp
  queued w z v h hz _ _ := h.of_same [] (by simp) (by simp) (by simp) (by simp) (fun _ => id) (fun _ => .inl) .inl
  aborted w i r h hr := by
    refine h.of_same [.aborted r.x r.kind] (by rw [onAborted_eq]; rfl) (by simp) (by simp) ?_ (fun _ => id)
      (fun _ hh => .inl (mem_of_eraseIdx hh)) (fun hh => .inl (by rwa [onAborted_eq] at hh))
    intro x k hx
    simp at hx
    rw [hx.1, hx.2]; exact h.recs r (mem_of_getElem? hr)
  resume w h := by
    refine h.of_same [.crashed w.inflight, .resumed (if w.st.phase = .initial then w.st.Xpend else [])]
      ?_ (by simp) (by simp) (by simp) ?_ ?_ ?_ <;> simp [Sys.resumed, resume_eq, State.note]
    intro hh; exact .inl hh

theorem Reach.kinds {w : Sys P} (h : Reach cfg w) : Kinds w := (kinds_preserved cfg).reach h

/-- The extra points enter once: at the start, or again at a restart only if nothing at all had been evaluated. -/
structure Extras (cfg : Config P) (w : Sys P) : Prop where
  book : Book cfg w
  start : ∃ d : Nat → P, w.st.log.head? = some (.start ((List.range cfg.numPts).map d ++ unknownExtras cfg))
  starts : ∀ q, Event.start q ∉ w.st.log.tail
  restart : ∀ l q, l ++ [.restart q] <+: w.st.log → (knownExtras cfg ≠ [] ∨ completions l ≠ []) →
    ∃ d : Nat → P, q = (List.range cfg.numPts).map d

theorem Extras.of_eq {w w' : Sys P} (h : Extras cfg w) (hb : Book cfg w')
    (hl : w'.st.log = w.st.log) : Extras cfg w' :=
  ⟨hb, by rw [hl]; exact h.start, by rw [hl]; exact h.starts, by rw [hl]; exact h.restart⟩

theorem Extras.of_event {w w' : Sys P} (h : Extras cfg w) (hb : Book cfg w') (e : Event P)
    (hl : w'.st.log = w.st.log ++ [e]) (hs : ∀ q, e ≠ .start q)
    (hr : ∀ q, e = .restart q → (knownExtras cfg ≠ [] ∨ completions w.st.log ≠ []) →
      ∃ d : Nat → P, q = (List.range cfg.numPts).map d) :
    Extras cfg w' := by
  obtain ⟨d, hd⟩ := h.start
  have hne : w.st.log ≠ [] := by intro hh; rw [hh] at hd; simp at hd
  refine ⟨hb, ⟨d, ?_⟩, ?_, ?_⟩
  · rw [hl, List.head?_append, hd]; rfl
  · intro q hq
    rw [hl, List.tail_append_of_ne_nil hne, List.mem_append] at hq
    rcases hq with hq | hq
    · exact h.starts q hq
    · simp only [List.mem_singleton] at hq; exact hs q hq.symm
  · intro l q hpre
    rw [hl] at hpre
    rcases prefix_concat_cases hpre with hpre | hpre
    · exact h.restart l q hpre
    · obtain ⟨rfl, h2⟩ := List.append_inj' hpre rfl
      simp only [List.cons.injEq, and_true] at h2
      exact hr q h2.symm

theorem extras_preserved (cfg : Config P) : Preserved cfg (Extras cfg) where
  create o := by
    refine ⟨(book_preserved cfg).create o, ⟨o.design, ?_⟩, ?_, ?_⟩ <;>
      simp only [Sys.create, create_eq]
    · rfl
    · simp
    · intro l q hpre
      have hpre' : l ++ [.restart q] <+: [] ++ [Event.start _] := hpre
      rcases prefix_concat_cases hpre' with hpre | hpre
      · simp at hpre
      · have := List.append_inj' hpre rfl
        simp at this
  setTerm w h hb := h.of_eq ((book_preserved cfg).setTerm w h.book hb) rfl
  setPhase w h a b c := h.of_eq ((book_preserved cfg).setPhase w h.book a b c) rfl
  gen w o n s' h a b c d e hg := by
    have hb := (book_preserved cfg).gen w o n s' h.book a b c d e hg
    rcases generateEvals_cases hg with ⟨ws, z, rfl, hz⟩ | ⟨_, rfl, _⟩
    · exact h.of_event hb _ rfl (by simp) (by simp)
    · exact h.of_eq hb rfl
  restart w o h a b c d := by
    refine h.of_event ((book_preserved cfg).restart w o h.book a b c d) (.restart _)
      (by rw [sampleRestart_eq]) (by simp) ?_
    intro q hq hne
    simp only [Event.restart.injEq] at hq
    refine ⟨o.design, ?_⟩
    rw [← hq]
    have hX : w.st.X ≠ [] := by
      rw [h.book.X]
      rcases hne with hne | hne <;> simp [hne]
    simp [hX]
  term w h a b := h.of_event ((book_preserved cfg).term w h.book a b) _ rfl (by simp) (by simp)
  pop w x q k h hg hcv hq hk :=
    h.of_event ((book_preserved cfg).pop w x q k h.book hg hcv hq hk) _ rfl (by simp) (by simp)
  accept w i p h hp := h.of_event ((book_preserved cfg).accept w i p h.book hp) _ rfl (by simp) (by simp)
  rejectInit w i p h hp hk := h.of_event ((book_preserved cfg).rejectInit w i p h.book hp hk)
    (.rejected p.x .init) (by rw [onInitialRejected_eq]; rfl) (by simp) (by simp)
  rejectAdapt w i p h hp hk := h.of_event ((book_preserved cfg).rejectAdapt w i p h.book hp hk)
    (.rejected p.x .adapt) (by rw [onAdaptReject_eq]; rfl) (by simp) (by simp)
  completed w i r v h hr := h.of_event ((book_preserved cfg).completed w i r v h.book hr)
    (.completed r.x r.kind v r.accAt) (by rw [recordCompleted_eq]; rfl) (by simp) (by simp)
  adjusted w sc z v h hsc hz hc hv := by
    refine adjusted_of (I := Extras cfg) ?_ ?_ ?_ w sc z _ h hz hc
    · intro w z f h hs; exact h.of_event (h.book.adj z f hs) _ rfl (by simp) (by simp)
    · intro w h hs _; exact h.of_event h.book.stepChange _ rfl (by simp) (by simp)
    · intro w h _
      exact h.of_eq ⟨h.book.pending, h.book.num, h.book.X, h.book.fX, h.book.fevals, h.book.acc, h.book.rej,
        h.book.budget, h.book.srbf, h.book.opn⟩ rfl
  queued w z v h hz a b := h.of_eq ((book_preserved cfg).queued w z v h.book hz a b) rfl
  aborted w i r h hr := h.of_event ((book_preserved cfg).aborted w i r h.book hr)
    (.aborted r.x r.kind) (by rw [onAborted_eq]; rfl) (by simp) (by simp)
  resume w h := by
    have hb := (book_preserved cfg).resume w h.book
    obtain ⟨d, hd⟩ := h.start
    have hne : w.st.log ≠ [] := by intro hh; rw [hh] at hd; simp at hd
    have hl : w.resumed.st.log = w.st.log ++ [.crashed w.inflight] ++
        [.resumed (if w.st.phase = .initial then w.st.Xpend else [])] := by
      simp [Sys.resumed, resume_eq, State.note]
    refine ⟨hb, ⟨d, ?_⟩, ?_, ?_⟩
    · rw [hl, List.append_assoc, List.head?_append, hd]; rfl
    · intro q hq
      rw [hl, List.append_assoc, List.tail_append_of_ne_nil hne, List.mem_append] at hq
      rcases hq with hq | hq
      · exact h.starts q hq
      · simp at hq
    · intro l q hpre
      rw [hl] at hpre
      rcases prefix_concat_cases hpre with hpre | hpre
      · rcases prefix_concat_cases hpre with hpre | hpre
        · exact h.restart l q hpre
        · have := List.append_inj' hpre rfl
          simp at this
      · have := List.append_inj' hpre rfl
        simp at this

theorem Reach.extras {w : Sys P} (h : Reach cfg w) : Extras cfg w := (extras_preserved cfg).reach h

/-! ### Single steps of the SRBF attributes -/

theorem initProposal_keep {s s' : State P} {a : Action P} (h : s.initProposal = some (a, s')) :
    s'.srbf = s.srbf ∧ s'.converged = s.converged := by
  unfold State.initProposal at h
  split at h
  · simp at h
  · simp only [Option.some.injEq, Prod.mk.injEq] at h
    rw [← h.2]; exact ⟨rfl, rfl⟩

theorem adaptProposal_keep {s s' : State P} {a : Action P} (h : s.adaptProposal = (a, s')) :
    s'.srbf = s.srbf ∧ s'.converged = s.converged := by
  unfold State.adaptProposal at h
  split at h <;> simp only [Prod.mk.injEq] at h <;> rw [← h.2] <;> exact ⟨rfl, rfl⟩

/-- The step control attributes agree. -/
structure SameCtl (z z' : Srbf) : Prop where
  status : z'.status = z.status
  failcount : z'.failcount = z.failcount
  radius : z'.radius = z.radius
  fbest : z'.fbest = z.fbest

theorem SameCtl.rfl {z : Srbf} : SameCtl z z := ⟨_root_.rfl, _root_.rfl, _root_.rfl, _root_.rfl⟩

/-- `propose_action` keeps the radius or resets it, and never declares convergence (SRBF, DYCORS). -/
theorem proposeAction_srbf {sc : SrbfCfg} (hsc : cfg.srbf = some sc) {o : Oracle P} {s s' : State P} {a : Action P}
    {z : Srbf} (hz : s.srbf = some z) (h : s.proposeAction cfg o = some (a, s')) :
    ∃ z', s'.srbf = some z' ∧ (SameCtl z z' ∨ SameCtl z.sampleInitial z') ∧
      (s'.converged = true → s.converged = true) := by
  by_cases ht : s.terminate = true ∨ cfg.maxEvals ≤ s.numEvals + s.pendingEvals
  · rw [proposeAction_terminate ht] at h
    simp only [Option.some.injEq, Prod.mk.injEq] at h
    rw [← h.2]; exact ⟨z, hz, .inl SameCtl.rfl, id⟩
  · simp only [not_or, not_le] at ht
    rw [proposeAction_going (by simpa using ht.1) ht.2] at h
    have hrest : ∀ (t : State P) z0, t.srbf = some z0 →
        (t.sampleRestart cfg o).initProposal = some (a, s') →
        ∃ z', s'.srbf = some z' ∧ (SameCtl z z' ∨ SameCtl z.sampleInitial z') ∧
          (s'.converged = true → s.converged = true) := by
      intro t z0 hz0 hh
      obtain ⟨h1, h2⟩ := initProposal_keep hh
      refine ⟨z0.sampleInitial, ?_, .inr ⟨rfl, rfl, rfl, rfl⟩, ?_⟩
      · rw [h1, sampleRestart_eq, hz0]; rfl
      · rw [h2, sampleRestart_eq]; simp
    have hag : ∀ (t : State P) z0, t.srbf = some z0 → SameCtl z z0 → t.converged = s.converged →
        t.afterGenerate cfg o = some (a, s') →
        ∃ z', s'.srbf = some z' ∧ (SameCtl z z' ∨ SameCtl z.sampleInitial z') ∧
          (s'.converged = true → s.converged = true) := by
      intro t z0 hz0 hr htc hh
      unfold State.afterGenerate at hh
      split at hh
      · split at hh
        · exact hrest t z0 hz0 hh
        · simp only [Option.some.injEq, Prod.mk.injEq] at hh; rw [← hh.2]
          exact ⟨z0, hz0, .inl hr, by rw [htc]; exact id⟩
      · obtain ⟨h1, h2⟩ := adaptProposal_keep (s := t) (s' := s') (a := a) (by simpa using hh)
        exact ⟨z0, by rw [h1, hz0], .inl hr, by rw [h2, htc]; exact id⟩
    have hgen : ∀ n s1, State.generateEvals cfg o n { s with phase := .adaptive } = some s1 →
        ∃ z0, s1.srbf = some z0 ∧ SameCtl z z0 ∧ s1.converged = s.converged := by
      intro n s1 hg
      rcases generateEvals_cases hg with ⟨ws, z', rfl, hz'⟩ | ⟨_, rfl, hno⟩
      · rcases hz' with ⟨sc', z1, nx, _, hz1, _, rfl⟩ | ⟨_, hno, _⟩
        · simp only at hz1
          rw [hz] at hz1; cases hz1
          exact ⟨_, rfl, ⟨rfl, rfl, rfl, rfl⟩, rfl⟩
        · simp [hsc, hz] at hno
      · simp [hsc, hz] at hno
    split at h
    · split at h
      · split at h
        · exact hrest s z hz h
        · simp only [Option.some.injEq, Prod.mk.injEq] at h; rw [← h.2]; exact ⟨z, hz, .inl SameCtl.rfl, id⟩
      · simp only [Option.some.injEq, Prod.mk.injEq] at h; rw [← h.2]; exact ⟨z, hz, .inl SameCtl.rfl, id⟩
    · split at h
      · unfold State.adaptBranch at h
        simp only at h
        split at h
        · split at h
          · simp at h
          · rename_i s1 hg
            obtain ⟨z0, h1, h2, h3⟩ := hgen _ _ hg
            exact hag s1 z0 h1 h2 h3 h
        · split at h
          · split at h
            · simp at h
            · rename_i s1 hg
              obtain ⟨z0, h1, h2, h3⟩ := hgen _ _ hg
              exact hag s1 z0 h1 h2 h3 h
          · have hh := fun a b c => hag _ z a b c h
            exact hh hz SameCtl.rfl rfl
      · split at h
        · obtain ⟨h1, h2⟩ := initProposal_keep h
          exact ⟨z, by rw [h1, hz], .inl SameCtl.rfl, by rw [h2]; exact id⟩
        · obtain ⟨h1, h2⟩ := adaptProposal_keep (s := s) (s' := s') (a := a) (by simpa using h)
          exact ⟨z, by rw [h1, hz], .inl SameCtl.rfl, by rw [h2]; exact id⟩

/-- What a single event can do to the SRBF attributes and the convergence flag. -/
theorem step_srbf {sc : SrbfCfg} (hsc : cfg.srbf = some sc) {w w' : Sys P} {op : Op P} {z : Srbf}
    (hz : w.st.srbf = some z) (h : w.step cfg op = some w') :
    ∃ z', w'.st.srbf = some z' ∧
      (((z'.radius = z.radius ∨ z'.radius = 2 / 10) ∧ (w'.st.converged = true → w.st.converged = true)) ∨
       ∃ f, z' = (z.adjust (failtol cfg sc) (maxfailtol cfg sc) f).1 ∧
        w'.st.converged = (w.st.converged || (z.adjust (failtol cfg sc) (maxfailtol cfg sc) f).2.2)) := by
  cases op with
  | propose o =>
    simp only [Sys.step] at h
    split at h
    · simp at h
    all_goals
      rename_i he
      simp only [Option.some.injEq] at h; subst h
      obtain ⟨z', h1, h2, h3⟩ := proposeAction_srbf hsc hz he
      exact ⟨z', h1, .inl ⟨h2.imp (fun h => h.radius) (fun h => h.radius), h3⟩⟩
  | accept i =>
    simp only [Sys.step] at h
    split at h
    · simp at h
    · simp only [Option.some.injEq] at h; subst h
      exact ⟨z, hz, .inl ⟨.inl rfl, id⟩⟩
  | reject i =>
    simp only [Sys.step] at h
    split at h
    · simp at h
    · simp only [Option.some.injEq] at h; subst h
      split
      · exact ⟨z, by simp only [onInitialRejected_eq]; exact hz,
          .inl ⟨.inl rfl, by simp only [onInitialRejected_eq]; exact id⟩⟩
      · exact ⟨z, by simp only [onAdaptReject_eq]; exact hz,
          .inl ⟨.inl rfl, by simp only [onAdaptReject_eq]; exact id⟩⟩
  | complete i v =>
    simp only [Sys.step] at h
    split at h
    · simp at h
    · rename_i r hr
      simp only [Option.some.injEq] at h; subst h
      simp only [State.onCompleted]
      split
      · exact ⟨z, by rw [recordCompleted_eq]; exact hz, .inl ⟨.inl rfl, by rw [recordCompleted_eq]; exact id⟩⟩
      · split
        · rename_i sc' z1 hsc' hz1
          rw [hsc] at hsc'; cases hsc'
          rw [recordCompleted_eq] at hz1
          have hz1 : w.st.srbf = some z1 := hz1
          rw [hz] at hz1; cases hz1
          unfold State.srbfCompleted
          split
          · split
            · rw [adjustStep_eq]
              refine ⟨_, rfl, .inr ⟨_, rfl, ?_⟩⟩
              rw [recordCompleted_eq]; rfl
            · exact ⟨_, rfl, .inl ⟨.inl rfl, by rw [recordCompleted_eq]; exact id⟩⟩
          · exact ⟨z, by rw [recordCompleted_eq]; exact hz, .inl ⟨.inl rfl, by rw [recordCompleted_eq]; exact id⟩⟩
        · exact ⟨z, by rw [recordCompleted_eq]; exact hz, .inl ⟨.inl rfl, by rw [recordCompleted_eq]; exact id⟩⟩
  | abort i =>
    simp only [Sys.step] at h
    split at h
    · simp at h
    · simp only [Option.some.injEq] at h; subst h
      exact ⟨z, by simp only [onAborted_eq]; exact hz, .inl ⟨.inl rfl, by simp only [onAborted_eq]; exact id⟩⟩
  | update i =>
    simp only [Sys.step] at h
    split at h
    · simp at h
    · simp only [Option.some.injEq] at h; subst h
      exact ⟨z, hz, .inl ⟨.inl rfl, id⟩⟩

end Verif.Strategy
