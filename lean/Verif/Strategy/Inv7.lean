import Verif.Strategy.Inv6

/-!
# More invariants: unique records, event markers, the step control as a replay of the history, sources
-/

namespace Verif.Strategy

open Verif.Spec

variable {P : Type} [DecidableEq P] {cfg : Config P}

/-! ### Every record finishes at most once -/

/-- Identifiers of finished and running records are all different. -/
structure Uniq (w : Sys P) : Prop where
  ids : Ids w
  nodup : (w.st.fevals.map Finished.evId ++ w.recs.map Rec.evId).Nodup

theorem Uniq.of_same {w w' : Sys P} (h : Uniq w) (hi : Ids w') (hf : w'.st.fevals = w.st.fevals)
    (hr : w'.recs = w.recs) : Uniq w' := ⟨hi, by rw [hf, hr]; exact h.nodup⟩

theorem Uniq.finish {w w' : Sys P} (h : Uniq w) (hi : Ids w') {i : Nat} {r : Rec P} {v : Option Val}
    (hr : w.recs[i]? = some r)
    (hf : w'.st.fevals = w.st.fevals ++ [{ x := r.x, value := v, evId := r.evId }])
    (hrs : w'.recs = w.recs.eraseIdx i) : Uniq w' := by
  refine ⟨hi, ?_⟩
  rw [hf, hrs, List.map_append, List.append_assoc]
  refine (List.Perm.nodup_iff ?_).1 h.nodup
  refine List.Perm.append_left _ ?_
  have := (perm_eraseIdx hr).map Rec.evId
  simpa using this

theorem uniq_preserved (cfg : Config P) : Preserved cfg Uniq where
  create o := ⟨(ids_preserved cfg).create o, by simp [Sys.create, create_eq, State.blank]⟩
  setTerm w h a := h.of_same ((ids_preserved cfg).setTerm w h.ids a) rfl rfl
  setPhase w h a b c := h.of_same ((ids_preserved cfg).setPhase w h.ids a b c) rfl rfl
  gen w o n s' h a b c d e hg := by
    refine h.of_same ((ids_preserved cfg).gen w o n s' h.ids a b c d e hg) ?_ rfl
    rcases generateEvals_cases hg with ⟨ws, z, rfl, hz⟩ | ⟨_, rfl, _⟩ <;> rfl
  restart w o h a b c d := by
    refine h.of_same ((ids_preserved cfg).restart w o h.ids a b c d) ?_ rfl
    rw [sampleRestart_eq]
  term w h a b := h.of_same ((ids_preserved cfg).term w h.ids a b) rfl rfl
  pop w x q k h a b c d := h.of_same ((ids_preserved cfg).pop w x q k h.ids a b c d) rfl rfl
  accept w i p h hp := by
    refine ⟨(ids_preserved cfg).accept w i p h.ids hp, ?_⟩
    simp only [State.note, State.onAccept, List.map_append, List.map_cons, List.map_nil]
    rw [← List.append_assoc, List.nodup_append]
    refine ⟨h.nodup, by simp, ?_⟩
    intro a ha b hb
    simp only [List.mem_singleton] at hb
    subst hb
    rw [List.mem_append] at ha
    have : a < w.st.evNext := by
      rcases ha with ha | ha
      · obtain ⟨f, hf, rfl⟩ := List.mem_map.1 ha
        exact h.ids.idsLt _ (h.ids.fevMem f hf)
      · obtain ⟨r, hr, rfl⟩ := List.mem_map.1 ha
        exact h.ids.recLt r hr
    omega
  rejectInit w i p h hp hk := h.of_same ((ids_preserved cfg).rejectInit w i p h.ids hp hk)
    (by rw [onInitialRejected_eq]; rfl) rfl
  rejectAdapt w i p h hp hk := h.of_same ((ids_preserved cfg).rejectAdapt w i p h.ids hp hk)
    (by rw [onAdaptReject_eq]; rfl) rfl
  completed w i r v h hr := h.finish ((ids_preserved cfg).completed w i r v h.ids hr) (v := some v) hr
    (by rw [recordCompleted_eq]; rfl) rfl
  adjusted w sc' z v h hsc' hz hc hv := h.of_same ((ids_preserved cfg).adjusted w sc' z v h.ids hsc' hz hc hv)
    (by rw [adjustStep_eq]) rfl
  queued w z v h hz a b := h.of_same ((ids_preserved cfg).queued w z v h.ids hz a b) rfl rfl
  aborted w i r h hr := h.finish ((ids_preserved cfg).aborted w i r h.ids hr) (v := none) hr
    (by rw [onAborted_eq]; rfl) rfl
  resume w h := by
    refine ⟨(ids_preserved cfg).resume w h.ids, ?_⟩
    simp only [Sys.resumed, resume_eq, State.note, List.map_nil, List.append_nil]
    exact (List.nodup_append.1 h.nodup).1

theorem Reach.uniq {w : Sys P} (h : Reach cfg w) : Uniq w := (uniq_preserved cfg).reach h

/-! ### New identifiers are new -/

/-- Identifiers given out after a moment are at least the counter at that moment. -/
theorem newIds_closed (cfg : Config P) (n : Nat) (old : List Nat) :
    Closed cfg (fun v => n ≤ v.st.evNext ∧ ∀ i ∈ acceptedIds v.st.log, i ∈ old ∨ n ≤ i) where
  setTerm w h _ := h
  setPhase w h _ _ _ := h
  gen w o m s' h a b c d e hg := by
    rcases generateEvals_cases hg with ⟨ws, z, rfl, hz⟩ | ⟨_, rfl, _⟩
    · simp only [acceptedIds_append]; simpa [acceptedIds] using h
    · exact h
  restart w o h a b c d := by
    rw [sampleRestart_eq]; simp only [acceptedIds_append]
    refine ⟨by have := h.1; omega, ?_⟩
    simpa [acceptedIds] using h.2
  term w h _ _ := by simp only [State.note, acceptedIds_append]; simpa [acceptedIds] using h
  pop w x q k h _ _ _ _ := by
    simp only [State.note, State.makeProposal, acceptedIds_append]; simpa [acceptedIds] using h
  accept w i p h hp := by
    simp only [State.note, State.onAccept, acceptedIds_append]
    refine ⟨by have := h.1; omega, ?_⟩
    intro j hj
    rw [List.mem_append] at hj
    rcases hj with hj | hj
    · exact h.2 j hj
    · simp [acceptedIds] at hj; rw [hj]; exact .inr h.1
  rejectInit w i p h hp hk := by
    rw [onInitialRejected_eq]; simp only [State.note, acceptedIds_append]; simpa [acceptedIds] using h
  rejectAdapt w i p h hp hk := by
    rw [onAdaptReject_eq]; simp only [State.note, acceptedIds_append]; simpa [acceptedIds] using h
  completed w i r v h hr := by
    rw [recordCompleted_eq]; simp only [State.note, acceptedIds_append]; simpa [acceptedIds] using h
  adjusted w sc' z v h hsc' hz hc hv := by
    rw [adjustStep_eq]; simp only [acceptedIds_append]
    refine ⟨?_, ?_⟩
    · have := h.1; split <;> omega
    · have := h.2; simp only [acceptedIds] at *; split <;> simpa using this
  queued w z v h hz _ _ := h
  aborted w i r h hr := by
    rw [onAborted_eq]; simp only [State.note, acceptedIds_append]; simpa [acceptedIds] using h
  resume w h := by
    simp only [Sys.resumed, resume_eq, State.note, acceptedIds_append]; simpa [acceptedIds] using h

/-- No identifier is ever equal to an event marker (`ev_last`), past or present. -/
theorem marker_ne {w w' : Sys P} (h : Reach cfg w) (hl : Later cfg w w') :
    ∀ i ∈ acceptedIds w'.st.log, i ≠ w.st.evLast := by
  intro i hi
  have := ((newIds_closed cfg w.st.evNext (acceptedIds w.st.log)).later hl ⟨le_refl _, fun j hj => .inl hj⟩).2 i hi
  rcases this with h1 | h1
  · exact h.ids.idsNe i h1
  · have := h.ids.lt; omega

/-! ### The step control is a replay of the history -/

theorem control_concat (ftol : Int) (l : List (Event P)) (e : Event P) :
    control ftol (l ++ [e]) = match e with
      | .start _ => Ctl.init
      | .restart _ => Ctl.init
      | .adjusted f => (control ftol l).next ftol f
      | _ => control ftol l := by
  simp only [Spec.control, List.foldl_append, List.foldl_cons, List.foldl_nil]
  cases e <;> rfl

/-- The attributes agree with the documented step control. -/
structure Agrees (ftol : Int) (z : Srbf) (c : Ctl) : Prop where
  best : z.fbest = c.best
  status : z.status = (c.wins : Int) - c.losses
  one : c.wins = 0 ∨ c.losses = 0
  wins : c.wins < 3
  losses : (c.losses : Int) < ftol
  fails : z.failcount = c.fails
  radius : z.radius = c.radius
  sync : ∃ j : Nat, (c.fails : Int) = j * ftol + c.losses
  fresh : 0 < c.wins → c.fails = 0

theorem Agrees.init {ftol : Int} (h : 1 ≤ ftol) (z : Srbf) : Agrees ftol z.sampleInitial Ctl.init :=
  ⟨rfl, rfl, .inl rfl, by decide, by simp only [Ctl.init]; omega, rfl, rfl, ⟨0, by simp [Ctl.init]⟩, fun _ => rfl⟩

theorem Agrees.congr {ftol : Int} {z z' : Srbf} {c : Ctl} (h : Agrees ftol z c) (hs : SameCtl z z') :
    Agrees ftol z' c :=
  ⟨hs.fbest.trans h.best, hs.status.trans h.status, h.one, h.wins, h.losses, hs.failcount.trans h.fails,
    hs.radius.trans h.radius, h.sync, h.fresh⟩

/-- One call of `adjust_step` is one step of the documented control. -/
theorem Agrees.adjust {ftol mftol : Int} {z : Srbf} {c : Ctl} (h : Agrees ftol z c) (hf : 1 ≤ ftol) (f : Val) :
    Agrees ftol (z.adjust ftol mftol f).1 (c.next ftol f) ∧
      ((z.adjust ftol mftol f).2.1 = true ↔
        (c.next ftol f).wins = 0 ∧ (c.next ftol f).losses = 0) := by
  obtain ⟨h1, h2, h3, h4, h5, h6, h7, ⟨j, h8⟩, h9⟩ := h
  have himp : z.isImprovement f = decide (significant c.best f) := by
    unfold Srbf.isImprovement
    rw [h1]
    cases c.best <;> rfl
  unfold Srbf.adjust Ctl.next
  simp only [himp]
  by_cases hs : significant c.best f
  · simp only [hs, decide_true, if_true]
    have e1 : max 1 (z.status + 1) = (c.wins : Int) + 1 := by
      rw [h2]; rcases h3 with h3 | h3 <;> omega
    simp only [e1]
    rw [if_neg (show ¬ ((c.wins : Int) + 1 ≤ -ftol) by omega)]
    simp only [succtol]
    by_cases hw : c.wins + 1 = 3
    · simp only [show (3 : Int) ≤ (c.wins : Int) + 1 by omega, hw, if_true]
      refine ⟨⟨rfl, rfl, .inl rfl, Nat.succ_pos _, by simp only; omega, rfl, ?_, ⟨0, by simp⟩, fun _ => rfl⟩, by simp⟩
      simp only [h7, radiusMax]
    · simp only [show ¬ (3 : Int) ≤ (c.wins : Int) + 1 by omega, hw, if_false]
      refine ⟨⟨rfl, by simp, .inr rfl, by simp only; omega, by simp only; omega, rfl, h7, ⟨0, by simp⟩, fun _ => rfl⟩,
        by simp⟩
  · simp only [hs, decide_false, Bool.false_eq_true, if_false]
    have e1 : min (-1) (z.status - 1) = -((c.losses : Int) + 1) := by
      rw [h2]; rcases h3 with h3 | h3 <;> omega
    simp only [e1]
    by_cases hl : (c.losses + 1 : Int) = ftol
    · rw [if_pos (show -((c.losses : Int) + 1) ≤ -ftol by omega), if_pos hl]
      simp only [succtol]
      simp only [show ¬ (3 : Int) ≤ 0 by decide, if_false]
      refine ⟨⟨h1, rfl, .inl rfl, Nat.succ_pos _, by simp only; omega, by simp [h6], by simp [h7], ⟨j + 1, ?_⟩,
        by simp⟩, by simp⟩
      push_cast
      rw [h8, ← hl]; ring
    · rw [if_neg (show ¬ -((c.losses : Int) + 1) ≤ -ftol by omega), if_neg hl]
      simp only [succtol]
      simp only [show ¬ (3 : Int) ≤ -((c.losses : Int) + 1) by omega, if_false]
      refine ⟨⟨h1, by simp, .inl rfl, by simp, by simp only; push_cast; omega, by simp [h6], h7, ⟨j, ?_⟩, by simp⟩,
        by simp⟩
      push_cast
      rw [h8]; ring

/-- The step control follows the history. -/
structure Ctrl (cfg : Config P) (sc : SrbfCfg) (w : Sys P) : Prop where
  z : ∃ z, w.st.srbf = some z ∧ Agrees (failtol cfg sc) z (control (failtol cfg sc) w.st.log)

theorem Ctrl.of_same {sc : SrbfCfg} {w w' : Sys P} (h : Ctrl cfg sc w) (m : List (Event P))
    (hl : w'.st.log = w.st.log ++ m)
    (hm : control (failtol cfg sc) (w.st.log ++ m) = control (failtol cfg sc) w.st.log)
    (hz : ∀ z, w.st.srbf = some z → ∃ z', w'.st.srbf = some z' ∧ SameCtl z z') : Ctrl cfg sc w' := by
  obtain ⟨z, h1, h2⟩ := h.z
  obtain ⟨z', h3, h4⟩ := hz z h1
  exact ⟨z', h3, by rw [hl, hm]; exact h2.congr h4⟩

theorem ctrl_preserved (cfg : Config P) (sc : SrbfCfg) (hsc : cfg.srbf = some sc)
    (hbs : cfg.asynchronous = true ∨ 0 < cfg.batchSize) : Preserved cfg (Ctrl cfg sc) where
  create o := by
    refine ⟨_, ?_, Agrees.init (failtol_pos sc hbs)
      { status := 0, failcount := 0, radius := 2 / 10, fbest := none, recordQueue := [], nextWeight := 0 }⟩
    simp [Sys.create, create_eq, State.blank, hsc, Srbf.sampleInitial]
  setTerm w h _ := h.of_same [] (by simp) (by simp) (fun z hz => ⟨z, hz, .rfl⟩)
  setPhase w h _ _ _ := h.of_same [] (by simp) (by simp) (fun z hz => ⟨z, hz, .rfl⟩)
  gen w o n s' h a b c d e hg := by
    rcases generateEvals_cases hg with ⟨ws, z', rfl, hz'⟩ | ⟨_, rfl, _⟩
    · refine h.of_same _ rfl (by rw [control_concat]) (fun z hz => ?_)
      rcases hz' with ⟨sc', z1, nx, _, hz1, _, rfl⟩ | ⟨rfl, _, _⟩
      · rw [hz] at hz1; cases hz1
        exact ⟨_, rfl, ⟨rfl, rfl, rfl, rfl⟩⟩
      · exact ⟨z, hz, .rfl⟩
    · exact h.of_same [] (by simp) (by simp) (fun z hz => ⟨z, hz, .rfl⟩)
  restart w o h a b c d := by
    obtain ⟨z, h1, h2⟩ := h.z
    refine ⟨z.sampleInitial, ?_, ?_⟩
    · rw [sampleRestart_eq, h1]; rfl
    · rw [sampleRestart_eq, control_concat]
      exact Agrees.init (failtol_pos sc hbs) z
  term w h _ _ := h.of_same _ rfl (by rw [control_concat]) (fun z hz => ⟨z, hz, .rfl⟩)
  pop w x q k h _ _ _ _ := h.of_same _ rfl (by rw [control_concat]) (fun z hz => ⟨z, hz, .rfl⟩)
  accept w i p h hp := h.of_same _ rfl (by rw [control_concat]) (fun z hz => ⟨z, hz, .rfl⟩)
  rejectInit w i p h hp hk := h.of_same [.rejected p.x .init] (by rw [onInitialRejected_eq]; rfl)
    (by rw [control_concat]) (fun z hz => ⟨z, by rw [onInitialRejected_eq]; exact hz, .rfl⟩)
  rejectAdapt w i p h hp hk := h.of_same [.rejected p.x .adapt] (by rw [onAdaptReject_eq]; rfl)
    (by rw [control_concat]) (fun z hz => ⟨z, by rw [onAdaptReject_eq]; exact hz, .rfl⟩)
  completed w i r v h hr := h.of_same [.completed r.x r.kind v r.accAt] (by rw [recordCompleted_eq]; rfl)
    (by rw [control_concat]) (fun z hz => ⟨z, by rw [recordCompleted_eq]; exact hz, .rfl⟩)
  adjusted w sc' z v h hsc' hz hc hv := by
    rw [hsc] at hsc'; cases hsc'
    obtain ⟨z1, h1, h2⟩ := h.z
    rw [hz] at h1; cases h1
    have hmv := h2.adjust (mftol := maxfailtol cfg sc) (failtol_pos sc hbs) (minValue z.recordQueue v)
    refine ⟨_, by rw [adjustStep_eq], ?_⟩
    rw [adjustStep_eq]
    simp only [← List.append_assoc]
    split
    · rw [control_concat, control_concat]; exact hmv.1
    · rw [List.append_nil, control_concat]; exact hmv.1
  queued w z v h hz _ _ := h.of_same [] (by simp) (by simp)
    (fun z' hz' => ⟨_, rfl, by rw [hz] at hz'; cases hz'; exact ⟨rfl, rfl, rfl, rfl⟩⟩)
  aborted w i r h hr := h.of_same [.aborted r.x r.kind] (by rw [onAborted_eq]; rfl)
    (by rw [control_concat]) (fun z hz => ⟨z, by rw [onAborted_eq]; exact hz, .rfl⟩)
  resume w h := by
    refine h.of_same ([.crashed w.inflight] ++ [.resumed (if w.st.phase = .initial then w.st.Xpend else [])])
      ?_ ?_ ?_
    · simp [Sys.resumed, resume_eq, State.note]
    · rw [← List.append_assoc, control_concat, control_concat]
    · intro z hz; exact ⟨z, by simpa [Sys.resumed, resume_eq, State.note] using hz, .rfl⟩

theorem Reach.ctrl {sc : SrbfCfg} {w : Sys P} (h : Reach cfg w) (hsc : cfg.srbf = some sc)
    (hbs : cfg.asynchronous = true ∨ 0 < cfg.batchSize) : Ctrl cfg sc w :=
  (ctrl_preserved cfg sc hsc hbs).reach h

/-! ### SRBF restarts only after something was evaluated -/

structure RestartData (cfg : Config P) (w : Sys P) : Prop where
  cur : w.st.curFX ≠ [] → completions w.st.log ≠ []
  conv : w.st.converged = true → completions w.st.log ≠ []
  restart : ∀ l q, l ++ [.restart q] <+: w.st.log → completions l ≠ []

theorem RestartData.of_same {w w' : Sys P} (h : RestartData cfg w)
    (hl : ∃ m, w'.st.log = w.st.log ++ m ∧ ∀ q, Event.restart q ∉ m) (hc : w'.st.curFX = w.st.curFX)
    (hv : w'.st.converged = true → w.st.converged = true ∨ completions w.st.log ≠ []) : RestartData cfg w' := by
  obtain ⟨m, hl, hm⟩ := hl
  have hne : completions w.st.log ≠ [] → completions w'.st.log ≠ [] := by
    rw [hl, completions_append]; intro hh; simp [hh]
  refine ⟨fun hh => hne (h.cur (by rwa [hc] at hh)), ?_, ?_⟩
  · intro hh
    rcases hv hh with hh | hh
    · exact hne (h.conv hh)
    · exact hne hh
  · rw [hl]
    clear hl hv hc hne
    induction m using List.reverseRecOn with
    | nil => simpa using h.restart
    | append_singleton m e ih =>
      intro l q hp
      rw [← List.append_assoc] at hp
      rcases prefix_concat_cases hp with hp | hp
      · exact ih (fun q hq => hm q (by simp [hq])) l q hp
      · have := congrArg List.getLast? hp
        simp at this
        exact absurd this (by intro hh; exact hm q (by simp [hh]))

theorem restartData_preserved (cfg : Config P) (sc : SrbfCfg) (hsc : cfg.srbf = some sc) :
    Preserved cfg (fun w => Book cfg w ∧ RestartData cfg w) where
  create o := by
    refine ⟨(book_preserved cfg).create o, ⟨by simp [Sys.create, create_eq, State.blank],
      by simp [Sys.create, create_eq, State.blank], ?_⟩⟩
    intro l q hp
    simp only [Sys.create, create_eq] at hp
    rcases prefix_concat_cases (l := []) hp with hp | hp
    · simp at hp
    · have := congrArg List.getLast? hp
      simp at this
  setTerm w h a := ⟨(book_preserved cfg).setTerm w h.1 a, h.2.of_same ⟨[], by simp, by simp⟩ rfl .inl⟩
  setPhase w h a b c := ⟨(book_preserved cfg).setPhase w h.1 a b c, h.2.of_same ⟨[], by simp, by simp⟩ rfl .inl⟩
  gen w o n s' h a b c d e hg := by
    refine ⟨(book_preserved cfg).gen w o n s' h.1 a b c d e hg, ?_⟩
    rcases generateEvals_cases hg with ⟨ws, z, rfl, hz⟩ | ⟨_, rfl, hno⟩
    · exact h.2.of_same ⟨_, rfl, by simp⟩ rfl .inl
    · have := h.1.srbf
      rcases hno with hno | hno
      · rw [hsc] at hno; cases hno
      · rw [hno, hsc] at this; simp at this
  restart w o h a b c d := by
    refine ⟨(book_preserved cfg).restart w o h.1 a b c d, ?_⟩
    rw [sampleRestart_eq]
    refine ⟨by simp, by simp, ?_⟩
    intro l q hp
    rcases prefix_concat_cases hp with hp | hp
    · exact h.2.restart l q hp
    · have := List.append_inj_left' hp rfl
      rw [this]; exact h.2.conv b
  term w h a b := ⟨(book_preserved cfg).term w h.1 a b, h.2.of_same ⟨_, rfl, by simp⟩ rfl .inl⟩
  pop w x q k h a b c d := ⟨(book_preserved cfg).pop w x q k h.1 a b c d, h.2.of_same ⟨_, rfl, by simp⟩ rfl .inl⟩
  accept w i p h hp := ⟨(book_preserved cfg).accept w i p h.1 hp, h.2.of_same ⟨_, rfl, by simp⟩ rfl .inl⟩
  rejectInit w i p h hp hk := ⟨(book_preserved cfg).rejectInit w i p h.1 hp hk, by
    rw [onInitialRejected_eq]; exact h.2.of_same ⟨_, rfl, by simp⟩ rfl .inl⟩
  rejectAdapt w i p h hp hk := ⟨(book_preserved cfg).rejectAdapt w i p h.1 hp hk, by
    rw [onAdaptReject_eq]; exact h.2.of_same ⟨_, rfl, by simp⟩ rfl .inl⟩
  completed w i r v h hr := by
    refine ⟨(book_preserved cfg).completed w i r v h.1 hr, ?_⟩
    rw [recordCompleted_eq]
    refine ⟨fun _ => ?_, fun _ => ?_, ?_⟩
    · simp only [State.note, completions_append]; simp [completions]
    · simp only [State.note, completions_append]; simp [completions]
    · intro l q hp
      rcases prefix_concat_cases hp with hp | hp
      · exact h.2.restart l q hp
      · have := congrArg List.getLast? hp
        simp at this
  adjusted w sc' z v h hsc' hz hc hv := by
    refine ⟨(book_preserved cfg).adjusted w sc' z v h.1 hsc' hz hc hv, ?_⟩
    have hne : completions w.st.log ≠ [] := h.2.cur (List.ne_nil_of_mem hv)
    rw [adjustStep_eq]
    refine h.2.of_same ⟨_, rfl, ?_⟩ rfl (fun _ => .inr hne)
    intro q
    split <;> simp
  queued w z v h hz a b := ⟨(book_preserved cfg).queued w z v h.1 hz a b, h.2.of_same ⟨[], by simp, by simp⟩ rfl .inl⟩
  aborted w i r h hr := ⟨(book_preserved cfg).aborted w i r h.1 hr, by
    rw [onAborted_eq]; exact h.2.of_same ⟨_, rfl, by simp⟩ rfl .inl⟩
  resume w h := ⟨(book_preserved cfg).resume w h.1, by
    refine h.2.of_same ⟨[.crashed w.inflight, .resumed (if w.st.phase = .initial then w.st.Xpend else [])],
      ?_, by simp⟩ ?_ ?_
    · simp [Sys.resumed, resume_eq, State.note]
    · simp [Sys.resumed, resume_eq, State.note]
    · intro hh; left; simpa [Sys.resumed, resume_eq, State.note] using hh⟩

theorem Reach.restartData {sc : SrbfCfg} {w : Sys P} (h : Reach cfg w) (hsc : cfg.srbf = some sc) :
    RestartData cfg w := ((restartData_preserved cfg sc hsc).reach h).2

/-! ### Where points come from -/

/-- The only new points after a call of `propose_action` come from the design, the auxiliary problem and the
extra points. -/
theorem proposeAction_sources {o : Oracle P} {s s' : State P} {a : Action P}
    (h : s.proposeAction cfg o = some (a, s')) :
    ∀ x ∈ sources s'.log, x ∈ sources s.log ∨ (∃ i, x = o.design i) ∨ (∃ i, x = o.pts i) ∨
      x ∈ cfg.extras.map Prod.fst := by
  have hunk : ∀ x ∈ unknownExtras cfg, x ∈ cfg.extras.map Prod.fst := by
    intro x hx
    obtain ⟨e, he, hx⟩ := List.mem_filterMap.1 hx
    refine List.mem_map.2 ⟨e, he, ?_⟩
    split at hx
    · simpa using hx
    · simp at hx
  by_cases ht : s.terminate = true ∨ cfg.maxEvals ≤ s.numEvals + s.pendingEvals
  · rw [proposeAction_terminate ht] at h
    simp only [Option.some.injEq, Prod.mk.injEq] at h
    rw [← h.2]; intro x hx; exact .inl hx
  · simp only [not_or, not_le] at ht
    rw [proposeAction_going (by simpa using ht.1) ht.2] at h
    have hrest : ∀ (t : State P), (t.sampleRestart cfg o).initProposal = some (a, s') →
        ∀ x ∈ sources s'.log, x ∈ sources t.log ∨ (∃ i, x = o.design i) ∨ (∃ i, x = o.pts i) ∨
          x ∈ cfg.extras.map Prod.fst := by
      intro t hh x hx
      rw [initProposal_log hh, sampleRestart_eq] at hx
      simp only [sources_append, List.mem_append] at hx
      rcases hx with hx | hx
      · exact .inl hx
      · right
        simp only [sources, List.flatMap_cons, List.flatMap_nil, List.append_nil, List.mem_append, List.mem_map] at hx
        rcases hx with ⟨i, _, rfl⟩ | hx
        · exact .inl ⟨i, rfl⟩
        · right; right
          split at hx
          · exact hunk x hx
          · simp at hx
    have hag : ∀ t : State P, (∀ x ∈ sources t.log, x ∈ sources s.log ∨ (∃ i, x = o.design i) ∨
          (∃ i, x = o.pts i) ∨ x ∈ cfg.extras.map Prod.fst) →
        t.afterGenerate cfg o = some (a, s') →
        ∀ x ∈ sources s'.log, x ∈ sources s.log ∨ (∃ i, x = o.design i) ∨ (∃ i, x = o.pts i) ∨
          x ∈ cfg.extras.map Prod.fst := by
      intro t ht hh x hx
      unfold State.afterGenerate at hh
      split at hh
      · split at hh
        · rcases hrest t hh x hx with h1 | h1
          · exact ht x h1
          · exact .inr h1
        · simp only [Option.some.injEq, Prod.mk.injEq] at hh; rw [← hh.2] at hx; exact ht x hx
      · rw [adaptProposal_log (by simpa using hh)] at hx; exact ht x hx
    have hgen : ∀ n s1, State.generateEvals cfg o n { s with phase := .adaptive } = some s1 →
        ∀ x ∈ sources s1.log, x ∈ sources s.log ∨ (∃ i, x = o.design i) ∨ (∃ i, x = o.pts i) ∨
          x ∈ cfg.extras.map Prod.fst := by
      intro n s1 hg x hx
      rcases generateEvals_cases hg with ⟨ws, z, rfl, _⟩ | ⟨_, rfl, _⟩
      · simp only [sources_append, List.mem_append] at hx
        rcases hx with hx | hx
        · exact .inl hx
        · right; right; left
          simp only [sources, List.flatMap_cons, List.flatMap_nil, List.append_nil, List.mem_map] at hx
          obtain ⟨i, _, rfl⟩ := hx
          exact ⟨i, rfl⟩
      · exact .inl hx
    split at h
    · split at h
      · split at h
        · exact hrest s h
        · simp only [Option.some.injEq, Prod.mk.injEq] at h; rw [← h.2]; intro x hx; exact .inl hx
      · simp only [Option.some.injEq, Prod.mk.injEq] at h; rw [← h.2]; intro x hx; exact .inl hx
    · split at h
      · unfold State.adaptBranch at h
        simp only at h
        split at h
        · split at h
          · simp at h
          · rename_i s1 hg
            exact hag s1 (hgen _ _ hg) h
        · split at h
          · split at h
            · simp at h
            · rename_i s1 hg
              exact hag s1 (hgen _ _ hg) h
          · have hh := fun a => hag _ a h
            exact hh (fun x hx => .inl hx)
      · split at h
        · rw [initProposal_log h]; intro x hx; exact .inl hx
        · rw [adaptProposal_log (by simpa using h)]; intro x hx; exact .inl hx

/-- Reachable with designs and auxiliary problems that return only points with property `F`. -/
inductive ReachF (cfg : Config P) (F : P → Prop) : Sys P → Prop
  | create (o : Oracle P) (hd : ∀ i, F (o.design i)) : ReachF cfg F (Sys.create cfg o)
  | propose {w w' : Sys P} (o : Oracle P) (hd : ∀ i, F (o.design i)) (hp : ∀ i, F (o.pts i)) :
    ReachF cfg F w → w.step cfg (.propose o) = some w' → ReachF cfg F w'
  | other {w w' : Sys P} (op : Op P) (hop : ∀ o, op ≠ .propose o) :
    ReachF cfg F w → w.step cfg op = some w' → ReachF cfg F w'
  | resume {w : Sys P} : ReachF cfg F w → ReachF cfg F w.resumed

theorem ReachF.reach {F : P → Prop} {w : Sys P} (h : ReachF cfg F w) : Reach cfg w := by
  induction h with
  | create o hd => exact .create o
  | propose o hd hp _ hs ih => exact .step _ ih hs
  | other op hop _ hs ih => exact .step _ ih hs
  | resume _ ih => exact .resume ih

theorem ReachF.sources {F : P → Prop} (hx : ∀ e ∈ cfg.extras, F e.1) {w : Sys P} (h : ReachF cfg F w) :
    (∀ x ∈ Spec.sources w.st.log, F x) ∧ (∀ x ∈ w.st.Xpend, F x) := by
  have hext : ∀ x ∈ cfg.extras.map Prod.fst, F x := by
    intro x hh; obtain ⟨e, he, rfl⟩ := List.mem_map.1 hh; exact hx e he
  have hr := h.reach
  suffices hs : ∀ x ∈ Spec.sources w.st.log, F x from
    ⟨hs, fun x hh => hs x (hr.sourced.inflight x (hr.sourced.xpend x hh))⟩
  clear hr
  induction h with
  | create o hd =>
    intro x hh
    simp only [Sys.create, create_eq, Spec.sources, List.flatMap_cons, List.flatMap_nil, List.append_nil,
      List.mem_append, List.mem_map] at hh
    rcases hh with ⟨i, _, rfl⟩ | hh
    · exact hd i
    · refine hext x ?_
      obtain ⟨e, he, hx⟩ := List.mem_filterMap.1 hh
      refine List.mem_map.2 ⟨e, he, ?_⟩
      split at hx
      · simpa using hx
      · simp at hx
  | propose o hd hp _ hs ih =>
    intro x hh
    simp only [Sys.step] at hs
    split at hs
    · simp at hs
    all_goals
      rename_i he
      simp only [Option.some.injEq] at hs; subst hs
      have hh : x ∈ Spec.sources _ := hh
      try simp only [State.note, sources_append] at hh
      have hh' := proposeAction_sources he x (by first | simpa [Spec.sources] using hh | exact hh)
      rcases hh' with h1 | ⟨i, rfl⟩ | ⟨i, rfl⟩ | h1
      · exact ih x h1
      · exact hd i
      · exact hp i
      · exact hext x h1
  | @other w0 w1 op hop _ hs ih =>
    intro x hh
    apply ih x
    cases op with
    | propose o => exact absurd rfl (hop o)
    | accept i =>
      simp only [Sys.step] at hs
      split at hs
      · simp at hs
      · simp only [Option.some.injEq] at hs; subst hs
        simpa [State.note, State.onAccept, Spec.sources] using hh
    | reject i =>
      simp only [Sys.step] at hs
      split at hs
      · simp at hs
      · simp only [Option.some.injEq] at hs; subst hs
        split at hh
        · simpa [onInitialRejected_eq, State.note, Spec.sources] using hh
        · simpa [onAdaptReject_eq, State.note, Spec.sources] using hh
    | complete i v =>
      simp only [Sys.step] at hs
      split at hs
      · simp at hs
      · simp only [Option.some.injEq] at hs; subst hs
        simp only [State.onCompleted] at hh
        have hb : ∀ (s : State P) (y : P) (k : Kind) (t e : Nat),
            x ∈ Spec.sources (State.recordCompleted (s.note (.completed y k v t)) y v e).log →
            x ∈ Spec.sources s.log := by
          intro s y k t e h1
          rw [recordCompleted_eq] at h1
          simpa [State.note, Spec.sources] using h1
        split at hh
        · exact hb _ _ _ _ _ hh
        · split at hh
          · unfold State.srbfCompleted at hh
            split at hh
            · split at hh
              · rw [adjustStep_eq] at hh
                simp only [sources_append, List.mem_append] at hh
                rcases hh with hh | hh
                · exact hb _ _ _ _ _ hh
                · revert hh
                  split <;> simp [Spec.sources]
              · exact hb _ _ _ _ _ hh
            · exact hb _ _ _ _ _ hh
          · exact hb _ _ _ _ _ hh
    | abort i =>
      simp only [Sys.step] at hs
      split at hs
      · simp at hs
      · simp only [Option.some.injEq] at hs; subst hs
        simpa [onAborted_eq, State.note, Spec.sources] using hh
    | update i =>
      simp only [Sys.step] at hs
      split at hs
      · simp at hs
      · simp only [Option.some.injEq] at hs; subst hs
        exact hh
  | resume _ ih =>
    intro x hh
    apply ih x
    simpa [Sys.resumed, resume_eq, State.note, Spec.sources] using hh

end Verif.Strategy
