import Verif.Strategy.Tally
import Verif.Strategy.Inv7

/-! # When restarts and changes of the radius happen -/

set_option linter.unusedSectionVars false

namespace Verif.Strategy

open Verif.Spec

variable {P : Type} [DecidableEq P] {cfg : Config P}

/-! ### Convergence as a function of the history -/

theorem runFold (ftol : Int) (l : List (Event P)) :
    l.foldl (runStep ftol) (Ctl.init, false) = (control ftol l, runFinished ftol l) := by
  refine Prod.ext ?_ rfl
  induction l using List.reverseRecOn with
  | nil => rfl
  | append_singleton l e ih =>
    rw [control_concat, List.foldl_append, List.foldl_cons, List.foldl_nil]
    cases e <;> first | rfl | exact ih | (simp only [runStep, ih])

theorem runFinished_concat (ftol : Int) (l : List (Event P)) (e : Event P) :
    runFinished ftol (l ++ [e]) = match e with
      | .start _ => false
      | .restart _ => false
      | .adjusted f => runFinished ftol l || decide (4 * ftol ≤ ((control ftol l).next ftol f).fails) ||
          decide (((control ftol l).next ftol f).radius ≤ (2 / 10) / 2 ^ 6)
      | _ => runFinished ftol l := by
  conv_lhs => unfold runFinished
  rw [List.foldl_append, runFold, List.foldl_cons, List.foldl_nil]
  cases e <;> rfl

/-- SRBF/DYCORS: `converged` is a function of the history. -/
structure Conv (cfg : Config P) (sc : SrbfCfg) (w : Sys P) : Prop where
  book : Book cfg w
  ctrl : Ctrl cfg sc w
  eq : w.st.converged = runFinished (failtol cfg sc) w.st.log

theorem conv_preserved (cfg : Config P) (sc : SrbfCfg) (hsc : cfg.srbf = some sc)
    (hbs : cfg.asynchronous = true ∨ 0 < cfg.batchSize) : Preserved cfg (Conv cfg sc) where
  create o := ⟨(book_preserved cfg).create o, (ctrl_preserved cfg sc hsc hbs).create o, by
    simp [Sys.create, create_eq, State.blank, runFinished, runStep]⟩
  setTerm w h a := ⟨(book_preserved cfg).setTerm w h.1 a, (ctrl_preserved cfg sc hsc hbs).setTerm w h.2 a, h.3⟩
  setPhase w h a b c := ⟨(book_preserved cfg).setPhase w h.1 a b c,
    (ctrl_preserved cfg sc hsc hbs).setPhase w h.2 a b c, h.3⟩
  gen w o n s' h a b c d e hg := by
    refine ⟨(book_preserved cfg).gen w o n s' h.1 a b c d e hg,
      (ctrl_preserved cfg sc hsc hbs).gen w o n s' h.2 a b c d e hg, ?_⟩
    rcases generateEvals_cases hg with ⟨ws, z, rfl, hz⟩ | ⟨_, rfl, hno⟩
    · simp only [runFinished_concat]; exact h.3
    · have := h.1.srbf
      rcases hno with hno | hno
      · rw [hsc] at hno; cases hno
      · rw [hno, hsc] at this; simp at this
  restart w o h a b c d := by
    refine ⟨(book_preserved cfg).restart w o h.1 a b c d, (ctrl_preserved cfg sc hsc hbs).restart w o h.2 a b c d, ?_⟩
    rw [sampleRestart_eq]; simp only [runFinished_concat]
  term w h a b := ⟨(book_preserved cfg).term w h.1 a b, (ctrl_preserved cfg sc hsc hbs).term w h.2 a b, by
    simp only [State.note, runFinished_concat]; exact h.3⟩
  pop w x q k h a b c d := ⟨(book_preserved cfg).pop w x q k h.1 a b c d,
    (ctrl_preserved cfg sc hsc hbs).pop w x q k h.2 a b c d, by
    simp only [State.note, State.makeProposal, runFinished_concat]; exact h.3⟩
  accept w i p h hp := ⟨(book_preserved cfg).accept w i p h.1 hp, (ctrl_preserved cfg sc hsc hbs).accept w i p h.2 hp, by
    simp only [State.note, State.onAccept, runFinished_concat]; exact h.3⟩
  rejectInit w i p h hp hk := ⟨(book_preserved cfg).rejectInit w i p h.1 hp hk,
    (ctrl_preserved cfg sc hsc hbs).rejectInit w i p h.2 hp hk, by
    rw [onInitialRejected_eq]; simp only [State.note, runFinished_concat]; exact h.3⟩
  rejectAdapt w i p h hp hk := ⟨(book_preserved cfg).rejectAdapt w i p h.1 hp hk,
    (ctrl_preserved cfg sc hsc hbs).rejectAdapt w i p h.2 hp hk, by
    rw [onAdaptReject_eq]; simp only [State.note, runFinished_concat]; exact h.3⟩
  completed w i r v h hr := ⟨(book_preserved cfg).completed w i r v h.1 hr,
    (ctrl_preserved cfg sc hsc hbs).completed w i r v h.2 hr, by
    rw [recordCompleted_eq]; simp only [State.note, runFinished_concat]; exact h.3⟩
  adjusted w sc' z v h hsc' hz hc hv := by
    refine ⟨(book_preserved cfg).adjusted w sc' z v h.1 hsc' hz hc hv,
      (ctrl_preserved cfg sc hsc hbs).adjusted w sc' z v h.2 hsc' hz hc hv, ?_⟩
    rw [hsc] at hsc'; cases hsc'
    obtain ⟨z1, h1, h2⟩ := h.2.z
    rw [hz] at h1; cases h1
    have hmv := (h2.adjust (mftol := maxfailtol cfg sc) (failtol_pos sc hbs) (minValue z.recordQueue v)).1
    have hcv := (adjust_spec (failtol cfg sc) (maxfailtol cfg sc) z (minValue z.recordQueue v)).conv
    have hm : radiusMin = (2 / 10) / 2 ^ 6 := by unfold radiusMin; norm_num
    rw [hmv.fails, hmv.radius, hm] at hcv
    rw [adjustStep_eq]
    simp only [← List.append_assoc]
    have key : runFinished (failtol cfg sc) (w.st.log ++ [.adjusted (minValue z.recordQueue v)]) =
        (w.st.converged || (z.adjust (failtol cfg sc) (maxfailtol cfg sc) (minValue z.recordQueue v)).2.2) := by
      rw [runFinished_concat, h.3]
      simp only [Bool.or_assoc]
      congr 1
      rw [Bool.eq_iff_iff, hcv]
      simp [maxfailtol]
    split
    · rw [runFinished_concat]; exact key.symm
    · rw [List.append_nil]; exact key.symm
  queued w z v h hz a b := ⟨(book_preserved cfg).queued w z v h.1 hz a b,
    (ctrl_preserved cfg sc hsc hbs).queued w z v h.2 hz a b, h.3⟩
  aborted w i r h hr := ⟨(book_preserved cfg).aborted w i r h.1 hr, (ctrl_preserved cfg sc hsc hbs).aborted w i r h.2 hr, by
    rw [onAborted_eq]; simp only [State.note, runFinished_concat]; exact h.3⟩
  resume w h := ⟨(book_preserved cfg).resume w h.1, (ctrl_preserved cfg sc hsc hbs).resume w h.2, by
    simp only [Sys.resumed, resume_eq, State.note, runFinished_concat]; exact h.3⟩

theorem Reach.conv {sc : SrbfCfg} {w : Sys P} (h : Reach cfg w) (hsc : cfg.srbf = some sc)
    (hbs : cfg.asynchronous = true ∨ 0 < cfg.batchSize) : Conv cfg sc w :=
  (conv_preserved cfg sc hsc hbs).reach h

/-! ### Restarts -/

theorem prefix_append_no {l m t : List (Event P)} {q : List P} (hm : ∀ q, Event.restart q ∉ m)
    (hp : l ++ [.restart q] <+: t ++ m) : l ++ [.restart q] <+: t := by
  induction m using List.reverseRecOn with
  | nil => simpa using hp
  | append_singleton m e ih =>
    rw [← List.append_assoc] at hp
    rcases prefix_concat_cases hp with hp | hp
    · exact ih (fun q hq => hm q (by simp [hq])) hp
    · have := congrArg List.getLast? hp
      simp at this
      exact absurd this (by intro hh; exact hm q (by simp [hh]))

/-- What holds in every state in which a restart is made holds before every restart of the history. -/
theorem restarts_preserved {J : Sys P → Prop} {Q : List (Event P) → Prop} (hJ : Preserved cfg J)
    (hQ : ∀ w, J w → w.st.converged = true → cfg.useRestarts = true →
      (cfg.asynchronous = true ∨ w.st.pendingEvals = 0) → Q w.st.log) :
    Preserved cfg (fun w => J w ∧ ∀ l q, l ++ [.restart q] <+: w.st.log → Q l) := by
  have same : ∀ (t m : List (Event P)), (∀ q, Event.restart q ∉ m) → (∀ l q, l ++ [.restart q] <+: t → Q l) →
      ∀ l q, l ++ [.restart q] <+: t ++ m → Q l := fun t m hm h l q hp => h l q (prefix_append_no hm hp)
  refine ⟨⟨?_, ?_, ?_, ?_, ?_, ?_, ?_, ?_, ?_, ?_, ?_, ?_, ?_, ?_⟩, fun o => ⟨hJ.create o, ?_⟩⟩
  · intro w h a; exact ⟨hJ.setTerm w h.1 a, h.2⟩
  · intro w h a b c; exact ⟨hJ.setPhase w h.1 a b c, h.2⟩
  · intro w o n s' h a b c d e hg
    refine ⟨hJ.gen w o n s' h.1 a b c d e hg, ?_⟩
    rcases generateEvals_cases hg with ⟨ws, z, rfl, hz⟩ | ⟨_, rfl, hno⟩
    · exact same _ _ (by simp) h.2
    · exact h.2
  · intro w o h a b c d
    refine ⟨hJ.restart w o h.1 a b c d, ?_⟩
    rw [sampleRestart_eq]
    intro l q hp
    rcases prefix_concat_cases hp with hp | hp
    · exact h.2 l q hp
    · rw [List.append_inj_left' hp rfl]
      exact hQ w h.1 b c d
  · intro w h a b; exact ⟨hJ.term w h.1 a b, same _ _ (by simp) h.2⟩
  · intro w x q k h a b c d; exact ⟨hJ.pop w x q k h.1 a b c d, same _ _ (by simp) h.2⟩
  · intro w i p h hp; exact ⟨hJ.accept w i p h.1 hp, same _ _ (by simp) h.2⟩
  · intro w i p h hp hk
    exact ⟨hJ.rejectInit w i p h.1 hp hk, by rw [onInitialRejected_eq]; exact same _ _ (by simp) h.2⟩
  · intro w i p h hp hk
    exact ⟨hJ.rejectAdapt w i p h.1 hp hk, by rw [onAdaptReject_eq]; exact same _ _ (by simp) h.2⟩
  · intro w i r v h hr
    exact ⟨hJ.completed w i r v h.1 hr, by rw [recordCompleted_eq]; exact same _ _ (by simp) h.2⟩
  · intro w sc' z v h hsc' hz hc hv
    refine ⟨hJ.adjusted w sc' z v h.1 hsc' hz hc hv, ?_⟩
    rw [adjustStep_eq]
    refine same _ _ ?_ h.2
    intro q; split <;> simp
  · intro w z v h hz a b; exact ⟨hJ.queued w z v h.1 hz a b, h.2⟩
  · intro w i r h hr
    exact ⟨hJ.aborted w i r h.1 hr, by rw [onAborted_eq]; exact same _ _ (by simp) h.2⟩
  · intro w h
    refine ⟨hJ.resume w h.1, ?_⟩
    simp only [Sys.resumed, resume_eq, State.note, List.append_assoc]
    exact same _ _ (by simp) h.2
  · intro l q hp
    simp only [Sys.create, create_eq] at hp
    rcases prefix_concat_cases (l := []) hp with hp | hp
    · simp at hp
    · have := congrArg List.getLast? hp
      simp at this

/-- Every restart of the history was allowed, and in synchronous mode nothing was outstanding. -/
theorem Reach.restarts {w : Sys P} (h : Reach cfg w) : ∀ l q, l ++ [.restart q] <+: w.st.log →
    cfg.useRestarts = true ∧ (cfg.asynchronous = false → outstanding l = 0) := by
  refine ((restarts_preserved (cfg := cfg) (J := fun w => Book cfg w ∧ Tally w) ?_ ?_).reach h).2
  · have a := book_preserved cfg
    have b := tally_preserved cfg
    exact { create := fun o => ⟨a.create o, b.create o⟩
            setTerm := fun w h x => ⟨a.setTerm w h.1 x, b.setTerm w h.2 x⟩
            setPhase := fun w h x y z => ⟨a.setPhase w h.1 x y z, b.setPhase w h.2 x y z⟩
            gen := fun w o n s h x1 x2 x3 x4 x5 x6 => ⟨a.gen w o n s h.1 x1 x2 x3 x4 x5 x6, b.gen w o n s h.2 x1 x2 x3 x4 x5 x6⟩
            restart := fun w o h x1 x2 x3 x4 => ⟨a.restart w o h.1 x1 x2 x3 x4, b.restart w o h.2 x1 x2 x3 x4⟩
            term := fun w h x y => ⟨a.term w h.1 x y, b.term w h.2 x y⟩
            pop := fun w x q k h x1 x2 x3 x4 => ⟨a.pop w x q k h.1 x1 x2 x3 x4, b.pop w x q k h.2 x1 x2 x3 x4⟩
            accept := fun w i p h x => ⟨a.accept w i p h.1 x, b.accept w i p h.2 x⟩
            rejectInit := fun w i p h x y => ⟨a.rejectInit w i p h.1 x y, b.rejectInit w i p h.2 x y⟩
            rejectAdapt := fun w i p h x y => ⟨a.rejectAdapt w i p h.1 x y, b.rejectAdapt w i p h.2 x y⟩
            completed := fun w i r v h x => ⟨a.completed w i r v h.1 x, b.completed w i r v h.2 x⟩
            adjusted := fun w sc z v h x1 x2 x3 x4 => ⟨a.adjusted w sc z v h.1 x1 x2 x3 x4, b.adjusted w sc z v h.2 x1 x2 x3 x4⟩
            queued := fun w z v h x1 x2 x3 => ⟨a.queued w z v h.1 x1 x2 x3, b.queued w z v h.2 x1 x2 x3⟩
            aborted := fun w i r h x => ⟨a.aborted w i r h.1 x, b.aborted w i r h.2 x⟩
            resume := fun w h => ⟨a.resume w h.1, b.resume w h.2⟩ }
  · intro w h _ hu hp
    refine ⟨hu, fun ha => ?_⟩
    have h1 := hp.resolve_left (by rw [ha]; simp)
    have h2 := h.1.pending
    have h3 := h.2
    unfold Tally at h3
    unfold outstanding
    omega

/-- SRBF/DYCORS: every restart of the history came after the end of a run. -/
theorem Reach.restartsConv {sc : SrbfCfg} {w : Sys P} (h : Reach cfg w) (hsc : cfg.srbf = some sc)
    (hbs : cfg.asynchronous = true ∨ 0 < cfg.batchSize) : ∀ l q, l ++ [.restart q] <+: w.st.log →
    runFinished (failtol cfg sc) l = true :=
  ((restarts_preserved (conv_preserved cfg sc hsc hbs) (Q := fun l => runFinished (failtol cfg sc) l = true)
    fun w h hc _ _ => by rw [← h.eq]; exact hc).reach h).2

/-! ### Changes of the radius -/

/-- Every step of the control is directly followed by a change of the radius if and only if it turns, and there are no other
changes. -/
structure Changes (cfg : Config P) (sc : SrbfCfg) (w : Sys P) : Prop where
  ctrl : Ctrl cfg sc w
  turn : ∀ l f m, w.st.log = l ++ .adjusted f :: m →
    (m.head? = some .stepChange ↔ (control (failtol cfg sc) l).turns (failtol cfg sc) f = true)
  only : ∀ l m, w.st.log = l ++ .stepChange :: m → ∃ f l', l = l' ++ [.adjusted f]

theorem turns_iff {ftol : Int} {z : Srbf} {c : Ctl} (h : Agrees ftol z c) (hf : 1 ≤ ftol) (f : Val) :
    c.turns ftol f = true ↔ (c.next ftol f).wins = 0 ∧ (c.next ftol f).losses = 0 := by
  unfold Ctl.turns Ctl.next
  have := h.wins
  by_cases hs : significant c.best f
  · simp only [hs, if_true]
    by_cases hw : c.wins = 2
    · simp [hw]
    · simp [hw, show ¬ c.wins + 1 = 3 by omega]
  · simp only [hs, if_false]
    by_cases hl : (c.losses : Int) + 1 = ftol <;> simp [hl]

theorem Changes.of_same {sc : SrbfCfg} {w w' : Sys P} (h : Changes cfg sc w) (hc : Ctrl cfg sc w') (t : List (Event P))
    (hl : w'.st.log = w.st.log ++ t) (h1 : ∀ f, Event.adjusted f ∉ t) (h2 : Event.stepChange ∉ t) :
    Changes cfg sc w' := by
  refine ⟨hc, ?_, ?_⟩
  · intro l f m he
    rw [hl, List.append_eq_append_iff] at he
    rcases he with ⟨a, ha, hb⟩ | ⟨a, ha, hb⟩
    · cases a with
      | nil => exact absurd (by simp at hb; rw [hb]; simp) (h1 f)
      | cons e a => exact absurd (by rw [hb]; simp) (h1 f)
    · cases a with
      | nil => exact absurd (by simp at hb; rw [← hb]; simp) (h1 f)
      | cons e a =>
        simp only [List.cons_append, List.cons.injEq] at hb
        obtain ⟨rfl, rfl⟩ := hb
        rw [← h.turn l f a ha]
        cases a with
        | cons => simp
        | nil =>
          simp only [List.nil_append, List.head?_nil, reduceCtorEq, iff_false]
          intro hh
          exact h2 (List.mem_of_mem_head? hh)
  · intro l m he
    rw [hl, List.append_eq_append_iff] at he
    rcases he with ⟨a, ha, hb⟩ | ⟨a, ha, hb⟩
    · exact absurd (by rw [hb]; simp) h2
    · cases a with
      | nil => exact absurd (by simp at hb; rw [← hb]; simp) h2
      | cons e a =>
        simp only [List.cons_append, List.cons.injEq] at hb
        obtain ⟨rfl, rfl⟩ := hb
        exact h.only l a ha

theorem changes_preserved (cfg : Config P) (sc : SrbfCfg) (hsc : cfg.srbf = some sc)
    (hbs : cfg.asynchronous = true ∨ 0 < cfg.batchSize) : Preserved cfg (Changes cfg sc) := by
  have hC := ctrl_preserved cfg sc hsc hbs
  refine ⟨⟨?_, ?_, ?_, ?_, ?_, ?_, ?_, ?_, ?_, ?_, ?_, ?_, ?_, ?_⟩, fun o => ⟨hC.create o, ?_, ?_⟩⟩
  · intro w h a; exact h.of_same (hC.setTerm w h.1 a) [] (by simp) (by simp) (by simp)
  · intro w h a b c; exact h.of_same (hC.setPhase w h.1 a b c) [] (by simp) (by simp) (by simp)
  · intro w o n s' h a b c d e hg
    have hc := hC.gen w o n s' h.1 a b c d e hg
    rcases generateEvals_cases hg with ⟨ws, z, rfl, hz⟩ | ⟨_, rfl, hno⟩
    · exact h.of_same hc _ rfl (by simp) (by simp)
    · exact h.of_same hc [] (by simp) (by simp) (by simp)
  · intro w o h a b c d
    exact h.of_same (hC.restart w o h.1 a b c d) [_] (by rw [sampleRestart_eq]) (by simp) (by simp)
  · intro w h a b; exact h.of_same (hC.term w h.1 a b) _ rfl (by simp) (by simp)
  · intro w x q k h a b c d; exact h.of_same (hC.pop w x q k h.1 a b c d) _ rfl (by simp) (by simp)
  · intro w i p h hp; exact h.of_same (hC.accept w i p h.1 hp) _ rfl (by simp) (by simp)
  · intro w i p h hp hk
    exact h.of_same (hC.rejectInit w i p h.1 hp hk) [.rejected p.x .init] (by rw [onInitialRejected_eq]; rfl) (by simp)
      (by simp)
  · intro w i p h hp hk
    exact h.of_same (hC.rejectAdapt w i p h.1 hp hk) [.rejected p.x .adapt] (by rw [onAdaptReject_eq]; rfl) (by simp)
      (by simp)
  · intro w i r v h hr
    exact h.of_same (hC.completed w i r v h.1 hr) [.completed r.x r.kind v r.accAt] (by rw [recordCompleted_eq]; rfl)
      (by simp) (by simp)
  · intro w sc' z v h hsc' hz hc hv
    have hc' := hC.adjusted w sc' z v h.1 hsc' hz hc hv
    rw [hsc] at hsc'; cases hsc'
    obtain ⟨z1, h1, h2⟩ := h.1.z
    rw [hz] at h1; cases h1
    have hmv := (h2.adjust (mftol := maxfailtol cfg sc) (failtol_pos sc hbs) (minValue z.recordQueue v)).2
    rw [← turns_iff h2 (failtol_pos sc hbs)] at hmv
    refine ⟨hc', ?_, ?_⟩
    · intro l f m he
      rw [adjustStep_eq] at he
      simp only at he
      rw [List.append_eq_append_iff] at he
      rcases he with ⟨a, ha, hb⟩ | ⟨a, ha, hb⟩
      · cases a with
        | cons e a =>
          simp only [List.cons_append, List.nil_append, List.cons.injEq] at hb
          exfalso
          have hb := hb.2
          split at hb
          · cases a with
            | nil => simp at hb
            | cons e a => simp at hb
          · simp at hb
        | nil =>
          simp only [List.append_nil] at ha
          subst ha
          simp only [List.cons_append, List.nil_append, List.cons.injEq, Event.adjusted.injEq] at hb
          obtain ⟨rfl, hb⟩ := hb
          rw [← hmv, ← hb]
          clear hb
          split <;> simp_all
      · cases a with
        | nil =>
          simp only [List.append_nil] at ha
          subst ha
          simp only [List.cons_append, List.nil_append, List.cons.injEq, Event.adjusted.injEq] at hb
          obtain ⟨rfl, hb⟩ := hb
          rw [← hmv, hb]
          split <;> simp_all
        | cons e a =>
          simp only [List.cons_append, List.cons.injEq] at hb
          obtain ⟨rfl, rfl⟩ := hb
          rw [← h.turn l f a ha]
          cases a with
          | cons => simp
          | nil => simp
    · intro l m he
      rw [adjustStep_eq] at he
      simp only at he
      rw [List.append_eq_append_iff] at he
      rcases he with ⟨a, ha, hb⟩ | ⟨a, ha, hb⟩
      · cases a with
        | nil => simp at hb
        | cons e a =>
          simp only [List.cons_append, List.nil_append, List.cons.injEq] at hb
          obtain ⟨rfl, hb⟩ := hb
          split at hb
          · cases a with
            | nil => exact ⟨_, _, ha⟩
            | cons e a => simp at hb
          · simp at hb
      · cases a with
        | nil => simp at hb
        | cons e a =>
          simp only [List.cons_append, List.cons.injEq] at hb
          obtain ⟨rfl, rfl⟩ := hb
          exact h.only l a ha
  · intro w z v h hz a b; exact h.of_same (hC.queued w z v h.1 hz a b) [] (by simp) (by simp) (by simp)
  · intro w i r h hr
    exact h.of_same (hC.aborted w i r h.1 hr) [.aborted r.x r.kind] (by rw [onAborted_eq]; rfl) (by simp) (by simp)
  · intro w h
    refine h.of_same (hC.resume w h.1) [.crashed w.inflight, .resumed (if w.st.phase = .initial then w.st.Xpend else [])]
      ?_ (by simp) (by simp)
    simp [Sys.resumed, resume_eq, State.note]
  · intro l f m he
    simp only [Sys.create, create_eq] at he
    cases l with
    | nil => simp at he
    | cons e l => simp at he
  · intro l m he
    simp only [Sys.create, create_eq] at he
    cases l with
    | nil => simp at he
    | cons e l => simp at he

theorem Reach.changes {sc : SrbfCfg} {w : Sys P} (h : Reach cfg w) (hsc : cfg.srbf = some sc)
    (hbs : cfg.asynchronous = true ∨ 0 < cfg.batchSize) : Changes cfg sc w :=
  (changes_preserved cfg sc hsc hbs).reach h

/-- A result that was accepted before the last restart or change of the radius does not enter the step control. -/
theorem complete_stale {w w' : Sys P} (h : Reach cfg w) {i : Nat} {r : Rec P} {v : Val} (hr : w.recs[i]? = some r)
    (hn : r.accAt < lastChange w.st.log) (hst : w.step cfg (.complete i v) = some w') :
    w'.st.log = w.st.log ++ [.completed r.x r.kind v r.accAt] ∧ w'.st.srbf = w.st.srbf ∧
      w'.st.converged = w.st.converged ∧ w'.st.curX = w.st.curX ∧ w'.st.curFX = w.st.curFX ∧ w'.st.surr = w.st.surr := by
  have hev : ¬ r.evId > w.st.evLast := fun hh => by
    have := (h.ids.recIff r (List.mem_of_getElem? hr)).1 hh
    omega
  simp only [Sys.step, hr] at hst
  cases hst
  have e := recordCompleted_eq (w.st.note (.completed r.x r.kind v r.accAt)) r.x v r.evId
  simp only [State.note, hev, if_false] at e
  simp only [State.onCompleted, State.note, e]
  cases hk : r.kind with
  | init => simp [hk]
  | adapt =>
    simp only
    split
    · simp only [State.srbfCompleted, hev, if_false]
      simp_all
    · simp_all

end Verif.Strategy
