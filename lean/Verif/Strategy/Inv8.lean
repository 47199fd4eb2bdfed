import Verif.Strategy.Inv7

/-!
# Which values the step control sees
-/

namespace Verif.Strategy

open Verif.Spec

variable {P : Type} [DecidableEq P] {cfg : Config P}

theorem batchValues_concat (l : List (Event P)) (e : Event P) :
    batchValues (l ++ [e]) = match e with
      | .start _ => []
      | .restart _ => []
      | .adjusted _ => []
      | .completed _ .adapt v _ => batchValues l ++ [v]
      | _ => batchValues l := by
  simp only [batchValues, List.foldl_append, List.foldl_cons, List.foldl_nil]
  cases e <;> rfl

/-- In synchronous mode no running record is older than the last event marker. -/
structure AllNew (cfg : Config P) (w : Sys P) : Prop where
  book : Book cfg w
  ids : Ids w
  new : ∀ r ∈ w.recs, w.st.evLast < r.evId

theorem AllNew.of_same {w w' : Sys P} (h : AllNew cfg w) (hb : Book cfg w') (hi : Ids w')
    (he : w'.st.evLast = w.st.evLast) (hr : ∀ r ∈ w'.recs, r ∈ w.recs) : AllNew cfg w' :=
  ⟨hb, hi, fun r h1 => by rw [he]; exact h.new r (hr r h1)⟩

theorem recs_nil_of_pending {w : Sys P} (h : Book cfg w) (hp : w.st.pendingEvals = 0) : w.recs = [] := by
  have := h.pending
  rw [hp] at this
  have : w.recs.length = 0 := by omega
  simpa using this

theorem allNew_preserved (cfg : Config P) (hs : cfg.asynchronous = false) : Preserved cfg (AllNew cfg) where
  create o := ⟨(book_preserved cfg).create o, (ids_preserved cfg).create o, by simp [Sys.create]⟩
  setTerm w h a := h.of_same ((book_preserved cfg).setTerm w h.book a) ((ids_preserved cfg).setTerm w h.ids a) rfl
    (fun _ => id)
  setPhase w h a b c := h.of_same ((book_preserved cfg).setPhase w h.book a b c)
    ((ids_preserved cfg).setPhase w h.ids a b c) rfl (fun _ => id)
  gen w o n s' h a b c d e hg := by
    refine h.of_same ((book_preserved cfg).gen w o n s' h.book a b c d e hg)
      ((ids_preserved cfg).gen w o n s' h.ids a b c d e hg) ?_ (fun _ => id)
    rcases generateEvals_cases hg with ⟨ws, z, rfl, hz⟩ | ⟨_, rfl, _⟩ <;> rfl
  restart w o h a b c d := by
    refine ⟨(book_preserved cfg).restart w o h.book a b c d, (ids_preserved cfg).restart w o h.ids a b c d, ?_⟩
    have : w.recs = [] := by
      rcases d with d | d
      · rw [hs] at d; cases d
      · exact recs_nil_of_pending h.book d
    intro r hr
    have hr : r ∈ w.recs := hr
    rw [this] at hr; simp at hr
  term w h a b := h.of_same ((book_preserved cfg).term w h.book a b) ((ids_preserved cfg).term w h.ids a b) rfl
    (fun _ => id)
  pop w x q k h a b c d := h.of_same ((book_preserved cfg).pop w x q k h.book a b c d)
    ((ids_preserved cfg).pop w x q k h.ids a b c d) rfl (fun _ => id)
  accept w i p h hp := by
    refine ⟨(book_preserved cfg).accept w i p h.book hp, (ids_preserved cfg).accept w i p h.ids hp, ?_⟩
    intro r hr
    simp only [List.mem_append, List.mem_singleton] at hr
    rcases hr with hr | rfl
    · exact h.new r hr
    · exact h.ids.lt
  rejectInit w i p h hp hk := h.of_same ((book_preserved cfg).rejectInit w i p h.book hp hk)
    ((ids_preserved cfg).rejectInit w i p h.ids hp hk) (by rw [onInitialRejected_eq]; rfl) (fun _ => id)
  rejectAdapt w i p h hp hk := h.of_same ((book_preserved cfg).rejectAdapt w i p h.book hp hk)
    ((ids_preserved cfg).rejectAdapt w i p h.ids hp hk) (by rw [onAdaptReject_eq]; rfl) (fun _ => id)
  completed w i r v h hr := h.of_same ((book_preserved cfg).completed w i r v h.book hr)
    ((ids_preserved cfg).completed w i r v h.ids hr) (by rw [recordCompleted_eq]; rfl) (fun _ => mem_of_eraseIdx)
  adjusted w sc' z v h hsc' hz hc hv := by
    refine ⟨(book_preserved cfg).adjusted w sc' z v h.book hsc' hz hc hv,
      (ids_preserved cfg).adjusted w sc' z v h.ids hsc' hz hc hv, ?_⟩
    have : w.recs = [] := by
      rcases hc with d | d
      · rw [hs] at d; cases d
      · exact recs_nil_of_pending h.book d.2
    intro r hr
    have hr : r ∈ w.recs := hr
    rw [this] at hr; simp at hr
  queued w z v h hz a b := h.of_same ((book_preserved cfg).queued w z v h.book hz a b)
    ((ids_preserved cfg).queued w z v h.ids hz a b) rfl (fun _ => id)
  aborted w i r h hr := h.of_same ((book_preserved cfg).aborted w i r h.book hr)
    ((ids_preserved cfg).aborted w i r h.ids hr) (by rw [onAborted_eq]; rfl) (fun _ => mem_of_eraseIdx)
  resume w h := h.of_same ((book_preserved cfg).resume w h.book) ((ids_preserved cfg).resume w h.ids)
    (by simp [Sys.resumed, resume_eq, State.note]) (by simp [Sys.resumed])

theorem Reach.allNew {w : Sys P} (h : Reach cfg w) (hs : cfg.asynchronous = false) : AllNew cfg w :=
  (allNew_preserved cfg hs).reach h

theorem proposeAction_queue {sc : SrbfCfg} (hsc : cfg.srbf = some sc) {o : Oracle P} {s s' : State P} {a : Action P}
    {z : Srbf} (hz : s.srbf = some z) (hq : batchValues s.log = z.recordQueue)
    (hconv : s.converged = true → z.recordQueue = [])
    (h : s.proposeAction cfg o = some (a, s')) :
    ∃ z', s'.srbf = some z' ∧ z'.recordQueue = batchValues s'.log := by
  by_cases ht : s.terminate = true ∨ cfg.maxEvals ≤ s.numEvals + s.pendingEvals
  · rw [proposeAction_terminate ht] at h
    simp only [Option.some.injEq, Prod.mk.injEq] at h
    rw [← h.2]; exact ⟨z, hz, hq.symm⟩
  · simp only [not_or, not_le] at ht
    rw [proposeAction_going (by simpa using ht.1) ht.2] at h
    have hrest : ∀ (t : State P) z0, t.srbf = some z0 → z0.recordQueue = [] →
        (t.sampleRestart cfg o).initProposal = some (a, s') →
        ∃ z', s'.srbf = some z' ∧ z'.recordQueue = batchValues s'.log := by
      intro t z0 hz0 hq0 hh
      refine ⟨z0.sampleInitial, ?_, ?_⟩
      · rw [(initProposal_keep hh).1, sampleRestart_eq, hz0]; rfl
      · rw [initProposal_log hh, sampleRestart_eq, batchValues_concat]
        exact hq0
    have hag : ∀ (t : State P) z0, t.srbf = some z0 → z0.recordQueue = batchValues t.log →
        (t.converged = true → z0.recordQueue = []) →
        t.afterGenerate cfg o = some (a, s') → ∃ z', s'.srbf = some z' ∧ z'.recordQueue = batchValues s'.log := by
      intro t z0 hz0 hr htc hh
      unfold State.afterGenerate at hh
      split at hh
      · rename_i hcc
        simp only [Bool.and_eq_true] at hcc
        split at hh
        · exact hrest t z0 hz0 (htc hcc.1) hh
        · simp only [Option.some.injEq, Prod.mk.injEq] at hh; rw [← hh.2]
          exact ⟨z0, hz0, hr⟩
      · have hh' : t.adaptProposal = (a, s') := by simpa using hh
        exact ⟨z0, by rw [(adaptProposal_keep hh').1, hz0], by rw [adaptProposal_log hh']; exact hr⟩
    have hgen : ∀ n s1, State.generateEvals cfg o n { s with phase := .adaptive } = some s1 →
        ∃ z0, s1.srbf = some z0 ∧ z0.recordQueue = batchValues s1.log ∧
          (s1.converged = true → z0.recordQueue = []) := by
      intro n s1 hg
      rcases generateEvals_cases hg with ⟨ws, z', rfl, hz'⟩ | ⟨_, rfl, hno⟩
      · rcases hz' with ⟨sc', z1, nx, _, hz1, _, rfl⟩ | ⟨_, hno, _⟩
        · simp only at hz1
          rw [hz] at hz1; cases hz1
          refine ⟨_, rfl, ?_, hconv⟩
          simp only
          rw [batchValues_concat]; exact hq.symm
        · simp [hsc, hz] at hno
      · simp [hsc, hz] at hno
    split at h
    · rename_i hcv
      split at h
      · split at h
        · exact hrest s z hz (hconv hcv) h
        · simp only [Option.some.injEq, Prod.mk.injEq] at h; rw [← h.2]; exact ⟨z, hz, hq.symm⟩
      · simp only [Option.some.injEq, Prod.mk.injEq] at h; rw [← h.2]; exact ⟨z, hz, hq.symm⟩
    · split at h
      · unfold State.adaptBranch at h
        simp only at h
        split at h
        · split at h
          · simp at h
          · rename_i s1 hg
            obtain ⟨z0, h1, h2, h3⟩ := hgen _ _ hg
            exact hag s1 z0 h1 h2 h3 h
        · split at h
          · split at h
            · simp at h
            · rename_i s1 hg
              obtain ⟨z0, h1, h2, h3⟩ := hgen _ _ hg
              exact hag s1 z0 h1 h2 h3 h
          · have hh := fun a b c => hag _ z a b c h
            exact hh hz hq.symm hconv
      · split at h
        · exact ⟨z, by rw [(initProposal_keep h).1, hz], by rw [initProposal_log h]; exact hq.symm⟩
        · have h' : s.adaptProposal = (a, s') := by simpa using h
          exact ⟨z, by rw [(adaptProposal_keep h').1, hz], by rw [adaptProposal_log h']; exact hq.symm⟩

/-- In synchronous mode the queue of records holds the values of the current batch. -/
theorem Reach.batchQueue {sc : SrbfCfg} {w : Sys P} (h : Reach cfg w) (hsc : cfg.srbf = some sc)
    (hs : cfg.asynchronous = false) (hbs : 0 < cfg.batchSize) :
    ∃ z, w.st.srbf = some z ∧ z.recordQueue = batchValues w.st.log := by
  induction h with
  | create o =>
    exact ⟨_, by simp [Sys.create, create_eq, State.blank, hsc]; rfl, rfl⟩
  | resume hw ih =>
    obtain ⟨z, h1, h2⟩ := ih
    refine ⟨z, by simpa [Sys.resumed, resume_eq, State.note] using h1, ?_⟩
    simp only [Sys.resumed, resume_eq, State.note]
    rw [batchValues_concat, batchValues_concat]; exact h2
  | @step w w' op hw hst ih =>
    obtain ⟨z, hz, hq⟩ := ih
    cases op with
    | propose o =>
      have hsi := hw.stepInv hsc (.inr hbs)
      obtain ⟨z1, hz1, _, _, _, _, _, _, _, hcv, _⟩ := hsi.z
      rw [hz] at hz1; cases hz1
      simp only [Sys.step] at hst
      split at hst
      · simp at hst
      all_goals
        rename_i s' he
        simp only [Option.some.injEq] at hst; subst hst
        obtain ⟨z', h1, h2⟩ := proposeAction_queue hsc hz hq.symm hcv he
        refine ⟨z', h1, ?_⟩
        simp only [State.note]
        try rw [batchValues_concat]
        exact h2
    | accept i =>
      simp only [Sys.step] at hst
      split at hst
      · simp at hst
      · simp only [Option.some.injEq] at hst; subst hst
        exact ⟨z, hz, by simp only [State.note, State.onAccept]; rw [batchValues_concat]; exact hq⟩
    | reject i =>
      simp only [Sys.step] at hst
      split at hst
      · simp at hst
      · simp only [Option.some.injEq] at hst; subst hst
        split
        · exact ⟨z, by simp only [onInitialRejected_eq]; exact hz,
            by simp only [onInitialRejected_eq, State.note]; rw [batchValues_concat]; exact hq⟩
        · exact ⟨z, by simp only [onAdaptReject_eq]; exact hz,
            by simp only [onAdaptReject_eq, State.note]; rw [batchValues_concat]; exact hq⟩
    | complete i v =>
      simp only [Sys.step] at hst
      split at hst
      · simp at hst
      · rename_i r hr
        simp only [Option.some.injEq] at hst; subst hst
        have hnew := (hw.allNew hs).new r (mem_of_getElem? hr)
        simp only [State.onCompleted]
        split
        · rename_i hk
          exact ⟨z, by rw [recordCompleted_eq]; exact hz, by
            rw [recordCompleted_eq]; simp only [State.note, hk]; rw [batchValues_concat]; exact hq⟩
        · rename_i hk
          split
          · rename_i sc' z1 hsc' hz1
            rw [hsc] at hsc'; cases hsc'
            rw [recordCompleted_eq] at hz1
            have hz1 : w.st.srbf = some z1 := hz1
            rw [hz] at hz1; cases hz1
            unfold State.srbfCompleted
            rw [if_pos (by rw [recordCompleted_eq]; exact hnew)]
            split
            · rw [adjustStep_eq]
              refine ⟨_, rfl, ?_⟩
              rw [(adjust_spec _ _ z _).queue]
              simp only
              split
              · rw [← List.append_assoc, batchValues_concat, batchValues_concat]
              · rw [List.append_nil, batchValues_concat]
            · refine ⟨_, rfl, ?_⟩
              rw [recordCompleted_eq]
              simp only [State.note, hk]
              rw [batchValues_concat, hq]
          · rename_i hno
            exact absurd (hno sc z hsc (by rw [recordCompleted_eq]; exact hz)) (by simp)
    | abort i =>
      simp only [Sys.step] at hst
      split at hst
      · simp at hst
      · simp only [Option.some.injEq] at hst; subst hst
        exact ⟨z, by simp only [onAborted_eq]; exact hz,
          by simp only [onAborted_eq, State.note]; rw [batchValues_concat]; exact hq⟩
    | update i =>
      simp only [Sys.step] at hst
      split at hst
      · simp at hst
      · simp only [Option.some.injEq] at hst; subst hst
        exact ⟨z, hz, hq⟩

/-- Completing an adaptive evaluation that counts: the step control runs at once in asynchronous mode, and at the end of
the batch in synchronous mode. -/
theorem complete_adjusted {sc : SrbfCfg} (hsc : cfg.srbf = some sc) {w w' : Sys P} {i : Nat} {r : Rec P} {v : Val}
    {z : Srbf} (hz : w.st.srbf = some z) (hr : w.recs[i]? = some r) (hk : r.kind = .adapt)
    (hn : r.evId > w.st.evLast)
    (hc : cfg.asynchronous = true ∨ (w.st.batchQueue = [] ∧ w.st.pendingEvals = 1))
    (hst : w.step cfg (.complete i v) = some w') :
    ∃ m, w'.st.log = w.st.log ++ [.completed r.x .adapt v r.accAt, .adjusted (minValue z.recordQueue v)] ++ m ∧
      (m = [] ∨ m = [.stepChange]) := by
  simp only [Sys.step, hr, Option.some.injEq] at hst
  subst hst
  simp only [State.onCompleted, hk]
  split
  · rename_i sc' z1 hsc' hz1
    rw [hsc] at hsc'; cases hsc'
    rw [recordCompleted_eq] at hz1
    have hz1 : w.st.srbf = some z1 := hz1
    rw [hz] at hz1; cases hz1
    unfold State.srbfCompleted
    rw [if_pos (by rw [recordCompleted_eq]; exact hn)]
    have hcond : (cfg.asynchronous || (State.batchQueue (State.recordCompleted
        (w.st.note (.completed r.x .adapt v r.accAt)) r.x v r.evId)).isEmpty &&
        State.pendingEvals (State.recordCompleted (w.st.note (.completed r.x .adapt v r.accAt)) r.x v r.evId) == 0)
        = true := by
      rw [recordCompleted_eq]
      rcases hc with hc | ⟨h1, h2⟩
      · simp [hc]
      · simp [State.note, h1, h2]
    rw [if_pos hcond, adjustStep_eq]
    refine ⟨if (z.adjust (failtol cfg sc) (maxfailtol cfg sc) (minValue z.recordQueue v)).2.1 = true
      then [.stepChange] else [], ?_, ?_⟩
    · rw [recordCompleted_eq]; simp [State.note]
    · split <;> simp
  · rename_i hno
    exact absurd (hno sc z hsc (by rw [recordCompleted_eq]; exact hz)) (by simp)

end Verif.Strategy
