import Verif.Sop.Loss

/-! # Asynchronous runs of SOP with lost evaluations (C56) -/

set_option linter.unusedSectionVars false

namespace Verif.Sop

open Verif.Num Verif.Utils Verif.Strategy Verif.Spec
open List (Perm Sublist)

variable {d : ℕ} {c : Cfg d}

/-- Effect of an event on the generated points that were not evaluated yet. -/
noncomputable def unfinishedStep (l : List (Pt d)) : Event (Pt d) → List (Pt d)
  | .generated pts _ => l ++ pts
  | .completed x .adapt _ _ => l.erase x
  | _ => l

/-- The generated points whose evaluation has not been completed: running, waiting, or lost. -/
noncomputable def unfinished (log : List (Event (Pt d))) : List (Pt d) := log.foldl unfinishedStep []

theorem unfinished_snoc (l : List (Event (Pt d))) (e : Event (Pt d)) :
    unfinished (l ++ [e]) = unfinishedStep (unfinished l) e := by
  simp [unfinished, List.foldl_append]

/-- What the environment does: new points are only asked for when no initial evaluation is outstanding and two evaluated points
differ; the new point is not one of those still unfinished; initial proposals are rejected and initial evaluations killed only
in the initial phase.  Adaptive proposals may be rejected and adaptive evaluations killed at any time. -/
def Tolerated (c : Cfg d) (w : SopSys d) : Strategy.Op (Pt d) → Prop
  | .propose o => w.sys.st.batchQueue = [] → Going c.base w.sys.st →
      (∀ p ∈ w.sys.props, p.kind = .adapt) ∧ (∀ r ∈ w.sys.recs, r.kind = .adapt) ∧
      (∃ p ∈ completions w.sys.st.log, ∃ q ∈ completions w.sys.st.log,
        toUnitBox p.1 c.lb c.ub ≠ toUnitBox q.1 c.lb c.ub) ∧ o.pts 0 ∉ unfinished w.sys.st.log
  | .reject i => ∀ p, w.sys.props[i]? = some p → p.kind = .init → w.sys.st.phase = .initial
  | .abort i => ∀ r, w.sys.recs[i]? = some r → r.kind = .init → w.sys.st.phase = .initial
  | _ => True

/-- Runs with losses, and crashes at any time. -/
inductive Rough (c : Cfg d) : SopSys d → Prop
  | create (o : Oracle (Pt d)) : Rough c (SopSys.create c o)
  | step {w w' : SopSys d} (op : Strategy.Op (Pt d)) : Rough c w → Tolerated c w op → w.step c op = some w' → Rough c w'
  | resume {w : SopSys d} : Rough c w → Rough c ⟨w.sys.resumed, w.sop⟩

theorem Rough.reach {w : SopSys d} (h : Rough c w) : Reach c w := by
  induction h with
  | create o => exact .create o
  | step op _ _ hs ih => exact ih.step op hs
  | resume _ ih => exact ih.resume

/-- Before the first generation. -/
structure PreA (w : SopSys d) : Prop extends Pre w where
  unf : unfinished w.sys.st.log = []
  gen : generatedPts w.sys.st.log = []
  done : adaptDone w.sys.st.log = 0

/-- After the first generation. -/
structure PostA (c : Cfg d) (w : SopSys d) : Prop where
  F : ∃ F, w.sop.F = some F ∧ F.length = w.sop.evals.length
  phase : w.sys.st.phase = .adaptive
  props : ∀ p ∈ w.sys.props, p.kind = .adapt
  recs : ∀ r ∈ w.sys.recs, r.kind = .adapt
  perm : Perm (busyPts w.sop.centers) (unfinished w.sys.st.log)
  sub : w.sys.inflight.Subperm (unfinished w.sys.st.log)
  nodup : (newPts w.sop.centers).Nodup
  two : TwoPoints c w.sop.evals
  queue : w.sys.st.batchQueue = []
  count : (unfinished w.sys.st.log).length + adaptDone w.sys.st.log = (generatedPts w.sys.st.log).length

/-- The three ledgers are not changed. -/
def SameLedger (l l' : List (Event (Pt d))) : Prop :=
  unfinished l' = unfinished l ∧ generatedPts l' = generatedPts l ∧ adaptDone l' = adaptDone l

theorem SameLedger.rfl {l : List (Event (Pt d))} : SameLedger l l := ⟨Eq.refl _, Eq.refl _, Eq.refl _⟩

/-- Events that do not change the ledgers. -/
def neutral : Event (Pt d) → Bool
  | .generated _ _ => false
  | .completed _ .adapt _ _ => false
  | _ => true

theorem SameLedger.snoc {l : List (Event (Pt d))} {e : Event (Pt d)} (h : neutral e = true) : SameLedger l (l ++ [e]) := by
  refine ⟨?_, ?_, ?_⟩
  · rw [unfinished_snoc]
    cases e <;> first | rfl | (rename_i k _ _; cases k <;> first | rfl | simp [neutral] at h) | simp [neutral] at h
  · rw [generatedPts_append]
    cases e <;> first | (simp [neutral] at h; done) | simp [generatedPts]
  · rw [adaptDone_append]
    cases e <;> first | (simp [adaptDone]; done) | (rename_i k _ _; cases k <;> first | (simp [adaptDone]; done) | simp [neutral] at h)

theorem PreA.same {w w' : SopSys d} (h : PreA w) (hp : Pre w') (hl : SameLedger w.sys.st.log w'.sys.st.log) : PreA w' :=
  ⟨hp, by rw [hl.1]; exact h.unf, by rw [hl.2.1]; exact h.gen, by rw [hl.2.2]; exact h.done⟩

/-- Steps that keep the memory and the ledgers. -/
theorem PostA.same {w w' : SopSys d} (h : PostA c w) (hsop : w'.sop = w.sop) (hl : SameLedger w.sys.st.log w'.sys.st.log)
    (hph : w'.sys.st.phase = w.sys.st.phase) (hp : ∀ p ∈ w'.sys.props, p.kind = .adapt) (hr : ∀ r ∈ w'.sys.recs, r.kind = .adapt)
    (hin : w'.sys.inflight.Subperm w.sys.inflight) (hq : w'.sys.st.batchQueue = []) : PostA c w' :=
  ⟨by rw [hsop]; exact h.F, by rw [hph]; exact h.phase, hp, hr, by rw [hsop, hl.1]; exact h.perm, by rw [hl.1]; exact hin.trans h.sub,
    by rw [hsop]; exact h.nodup, by rw [hsop]; exact h.two, hq, by rw [hl.1, hl.2.1, hl.2.2]; exact h.count⟩

/-- What holds at a generation. -/
theorem gen_facts {w : SopSys d} (hi : PreA w ∨ PostA c w) :
    Perm (busyPts w.sop.centers) (unfinished w.sys.st.log) ∧ (∀ F, w.sop.F = some F → F.length = w.sop.evals.length) ∧
    (unfinished w.sys.st.log).length + adaptDone w.sys.st.log = (generatedPts w.sys.st.log).length := by
  rcases hi with hi | hi
  · refine ⟨?_, by rw [hi.F]; simp, by rw [hi.unf, hi.gen, hi.done]; rfl⟩
    rw [hi.centers, hi.unf]; exact .refl _
  · refine ⟨hi.perm, ?_, hi.count⟩
    intro F hF
    obtain ⟨F', hF', hl⟩ := hi.F
    rw [hF] at hF'
    simp only [Option.some.injEq] at hF'
    subst hF'
    exact hl

theorem Rough.inv (hs : c.base.srbf = none) (has : c.base.asynchronous = true)
    {w : SopSys d} (h : Rough c w) : PreA w ∨ PostA c w := by
  have hgc : genCount c.base = 1 := by unfold genCount; rw [if_pos has]
  induction h with
  | create o =>
    left
    refine ⟨⟨rfl, rfl, by simp [SopSys.create, Sys.create], by simp [SopSys.create, Sys.create], ?_⟩, ?_, ?_, ?_⟩
    · intro hph
      simp [SopSys.create, Sys.create, create_eq, State.blank] at hph
    all_goals simp [SopSys.create, Sys.create, create_eq, State.blank, unfinished, unfinishedStep, generatedPts, adaptDone]
  | @resume w hc ih =>
    have hlog : SameLedger w.sys.st.log w.sys.resumed.st.log := by
      simp only [Sys.resumed, resume_eq, State.note]
      have h1 := SameLedger.snoc (l := w.sys.st.log) (e := .crashed w.sys.inflight) rfl
      have h2 := SameLedger.snoc (l := w.sys.st.log ++ [.crashed w.sys.inflight])
        (e := .resumed (if w.sys.st.phase = .initial then w.sys.st.Xpend else [])) rfl
      exact ⟨h2.1.trans h1.1, h2.2.1.trans h1.2.1, h2.2.2.trans h1.2.2⟩
    rcases ih with ih | ih
    · left
      refine ih.same ⟨ih.F, ih.centers, by simp [Sys.resumed], by simp [Sys.resumed], ?_⟩ hlog
      intro hph
      simp only [Sys.resumed, resume_eq, State.note] at hph ⊢
      simp [hph, ih.phase hph]
    · right
      refine ih.same rfl hlog ?_ (by simp [Sys.resumed]) (by simp [Sys.resumed]) (by simp [Sys.resumed, Sys.inflight]) ?_
      · simp [Sys.resumed, resume_eq, State.note]
      · simp [Sys.resumed, resume_eq, State.note, ih.phase, ih.queue]
  | @step w w' op hc hal hstep ih =>
    have hr := hc.reach
    have hr' : Reach c w' := hr.step op hstep
    cases op with
    | propose o =>
      cases step_propose hs (hr.inv hs).conv hstep with
      | term ht =>
        have key : (termState w.sys.st).batchQueue = w.sys.st.batchQueue ∧ (termState w.sys.st).phase = w.sys.st.phase ∧
            SameLedger w.sys.st.log (termState w.sys.st).log := by
          unfold termState
          split
          · exact ⟨rfl, rfl, SameLedger.snoc rfl⟩
          · exact ⟨rfl, rfl, .rfl⟩
        obtain ⟨k1, k2, k3⟩ := key
        rcases ih with ih | ih
        · left
          exact ih.same ⟨ih.F, ih.centers, ih.props, ih.recs, by simp only [k1, k2]; exact ih.phase⟩ k3
        · right
          exact ih.same rfl k3 k2 ih.props ih.recs (List.Subperm.refl _) (k1.trans ih.queue)
      | queue x q hq hg =>
        rcases ih with ih | ih
        · left
          have hph : w.sys.st.phase = .initial := by
            cases hp : w.sys.st.phase with
            | initial => rfl
            | adaptive => rw [ih.phase hp] at hq; simp at hq
          refine ih.same ⟨ih.F, ih.centers, ?_, ih.recs, ?_⟩ (SameLedger.snoc rfl)
          · intro p hp
            simp only [proposeLast, List.mem_append, List.mem_singleton] at hp
            rcases hp with h | h
            · exact ih.props p h
            · rw [h, hph]; rfl
          · intro hph'
            have : w.sys.st.phase = .adaptive := hph'
            rw [hph] at this; simp at this
        · rw [ih.queue] at hq; simp at hq
      | gen x q z hpts hq hg ha hz =>
        obtain ⟨a1, a2, a3, a5⟩ := hal hq hg
        rw [hgc] at hpts
        have hq0 : q = [] ∧ x = o.pts 0 := by
          have hl := congrArg List.length hpts
          simp only [List.length_map, List.length_range, List.length_append, List.length_cons, List.length_nil] at hl
          have hq0 : q = [] := List.length_eq_zero_iff.mp (by omega)
          subst hq0
          simpa using hpts.symm
        obtain ⟨rfl, rfl⟩ := hq0
        simp only [List.nil_append] at hz ⊢
        obtain ⟨g1, g2, g3⟩ := gen_facts ih
        obtain ⟨p1, p2⟩ := generate_pts hz
        obtain ⟨F, hF, hlF⟩ := rankRows_full hz g2
        have two := two_of_completions (hr.inv hs) a3
        have hk := generate_keeps hz
        have hlog : (proposeLast w.sys (genState w.sys.st [o.pts 0]) [] (o.pts 0) .adapt).st.log =
            (w.sys.st.log ++ [.generated [o.pts 0] []]) ++ [.proposed (o.pts 0) .adapt] := rfl
        have hled := SameLedger.snoc (l := w.sys.st.log ++ [.generated [o.pts 0] []]) (e := .proposed (o.pts 0) .adapt) rfl
        have hunf : unfinished (proposeLast w.sys (genState w.sys.st [o.pts 0]) [] (o.pts 0) .adapt).st.log =
            unfinished w.sys.st.log ++ [o.pts 0] := by
          rw [hlog, hled.1, unfinished_snoc]; rfl
        have hgen : (generatedPts (proposeLast w.sys (genState w.sys.st [o.pts 0]) [] (o.pts 0) .adapt).st.log).length =
            (generatedPts w.sys.st.log).length + 1 := by
          rw [hlog, hled.2.1, generatedPts_append]; simp [generatedPts]
        have hdone : adaptDone (proposeLast w.sys (genState w.sys.st [o.pts 0]) [] (o.pts 0) .adapt).st.log =
            adaptDone w.sys.st.log := by
          rw [hlog, hled.2.2, adaptDone_append]; simp [adaptDone]
        have hswap : Perm ([o.pts 0] ++ busyPts w.sop.centers) (unfinished w.sys.st.log ++ [o.pts 0]) :=
          (g1.append_left _).trans List.perm_append_comm
        have hsub : w.sys.inflight.Subperm (unfinished w.sys.st.log) := by
          rcases ih with ih | ih
          · have h1 : w.sys.props = [] := by
              rw [List.eq_nil_iff_forall_not_mem]
              intro p h
              have := a1 p h; rw [ih.props p h] at this; simp at this
            have h2 : w.sys.recs = [] := by
              rw [List.eq_nil_iff_forall_not_mem]
              intro p h
              have := a2 p h; rw [ih.recs p h] at this; simp at this
            simp [Sys.inflight, h1, h2]
          · exact ih.sub
        right
        refine ⟨⟨F, hF, hlF⟩, rfl, ?_, a2, ?_, ?_, ?_, by rw [show (SopSys.sop _) = z from rfl, hk]; exact two, rfl, ?_⟩
        · intro p hp
          simp only [proposeLast, List.mem_append, List.mem_singleton] at hp
          rcases hp with h | h
          · exact a1 p h
          · rw [h]
        · rw [hunf]
          exact p2.trans hswap
        · rw [hunf]
          have h1 := inflight_proposeLast w.sys (genState w.sys.st [o.pts 0]) [] (o.pts 0) .adapt
          refine h1.subperm.trans ?_
          exact ((List.subperm_cons _).mpr hsub).trans (List.perm_append_singleton _ _).symm.subperm
        · refine (p1.trans (g1.append_left _)).nodup_iff.mpr ?_
          rw [List.singleton_append, List.nodup_cons]
          refine ⟨a5, ?_⟩
          rw [← g1.nodup_iff]
          rcases ih with ih | ih
          · rw [ih.centers]; exact List.nodup_nil
          · refine ih.nodup.sublist ?_
            rw [← newPts_unfinished]
            exact List.Sublist.filterMap _ List.filter_sublist
        · simp only
          rw [hgen, hdone, hunf, List.length_append, List.length_singleton]
          omega
      | genNone z hn hq hg ha hz => rw [hgc] at hn; simp at hn
      | wait hq hg ha hp => rw [has] at ha; simp at ha
    | complete i v =>
      obtain ⟨r, hrec, hsys, hsop⟩ := step_complete hs hstep
      obtain ⟨hn, hbq, hph, hev, hin, _⟩ := evals_completed hr hs hrec hsys
      have hmem := mem_of_getElem? hrec
      have hprops : w'.sys.props = w.sys.props := by rw [hsys]
      have hrecs : ∀ r' ∈ w'.sys.recs, r' ∈ w.sys.recs := by rw [hsys]; intro r' h; exact List.mem_of_mem_eraseIdx h
      have hlog : w'.sys.st.log = w.sys.st.log ++ [.completed r.x r.kind v r.accAt] := by
        rw [hsys]; simp only [recordCompleted_eq]; rfl
      rcases ih with ih | ih
      · have hk := ih.recs r hmem
        rw [hk] at hsop hlog
        simp only at hsop
        have hsop' : w'.sop = { w.sop with evals := w.sop.evals ++ [.new r.x v] } := by
          rw [hsop]; unfold Sop.onInitialCompleted; rw [hev, if_pos (Nat.zero_le _)]
        left
        refine ih.same ⟨by rw [hsop']; exact ih.F, by rw [hsop']; exact ih.centers, by rw [hprops]; exact ih.props,
          fun r' h => ih.recs r' (hrecs r' h), by rw [hph, hbq]; exact ih.phase⟩ ?_
        rw [hlog]
        exact SameLedger.snoc rfl
      · have hk := ih.recs r hmem
        rw [hk] at hsop hlog
        simp only at hsop
        have hxu : r.x ∈ unfinished w.sys.st.log := ih.sub.subset (hin.mem_iff.mpr (List.mem_cons_self ..))
        have hx : r.x ∈ busyPts w.sop.centers := ih.perm.mem_iff.mpr hxu
        have hunf : unfinished w'.sys.st.log = (unfinished w.sys.st.log).erase r.x := by
          rw [hlog, unfinished_snoc]; rfl
        have hunfp : Perm (unfinished w.sys.st.log) (r.x :: unfinished w'.sys.st.log) := by
          rw [hunf]; exact List.perm_cons_erase hxu
        obtain ⟨l, ce, rr, e1, e2, e3, e4, e5⟩ := mark_pts (w'.sys.st.numEvals.toNat - 1) hx ih.nodup
        right
        rcases onAdaptCompleted_spec hev hsop with ⟨ha, h3⟩ | ⟨ha, hb1, hb2, h3⟩ | ⟨ha, hb1, h3⟩
        · have hsp := adjustMemory_spec h3
          obtain ⟨_, _, _, _, _, _, hc', hF', _⟩ := hsp
          have harch := (adjustMemory_archive h3).trans rfl
          refine ⟨⟨_, hF', by simp⟩, by rw [hph]; exact ih.phase, by rw [hprops]; exact ih.props,
            fun r' h => ih.recs r' (hrecs r' h), ?_, ?_, by rw [hc', e4]; exact ih.nodup,
            TwoPoints.of_archive harch (ih.two.append _), by rw [hbq]; exact ih.queue, ?_⟩
          · rw [hc']
            exact (List.perm_cons _).mp (e5.trans (ih.perm.trans hunfp))
          · refine (List.subperm_cons r.x).mp ?_
            exact hin.symm.subperm.trans (ih.sub.trans hunfp.subperm)
          · have h1 := hunfp.length_eq
            have h2 := ih.count
            rw [hlog, generatedPts_append, adaptDone_append, ← hlog]
            have hg : generatedPts [Event.completed r.x .adapt v r.accAt] = [] := rfl
            have hd : adaptDone [Event.completed r.x .adapt v r.accAt] = 1 := rfl
            rw [hg, hd, List.append_nil]
            simp only [List.length_cons] at h1
            omega
        · rw [has] at ha; simp at ha
        · rw [has] at ha; simp at ha
    | accept i =>
      obtain ⟨h1, h2⟩ := step_other hstep (by simp) (by simp)
      unfold Sys.step at h2
      simp only at h2
      split at h2
      · simp at h2
      · rename_i p hp
        simp only [Option.some.injEq] at h2
        have hin : Perm w'.sys.inflight w.sys.inflight := by
          rw [← h2]
          unfold Sys.inflight
          simp only [List.map_append, List.map_cons, List.map_nil]
          have h3 := (perm_eraseIdx hp).map Proposal.x
          rw [List.map_cons] at h3
          refine Perm.trans ?_ (h3.append_right _).symm
          rw [← List.append_assoc]
          simp only [List.cons_append]
          exact List.perm_append_singleton _ _
        have hm := mem_of_getElem? hp
        have hbq : w'.sys.st.batchQueue = w.sys.st.batchQueue := by rw [← h2]; rfl
        have hph : w'.sys.st.phase = w.sys.st.phase := by rw [← h2]; rfl
        have hpr : ∀ p' ∈ w'.sys.props, p' ∈ w.sys.props := by rw [← h2]; intro p' h; exact List.mem_of_mem_eraseIdx h
        have hre : ∀ r' ∈ w'.sys.recs, r' ∈ w.sys.recs ∨ r'.kind = p.kind := by
          rw [← h2]; intro r' h
          simp only [List.mem_append, List.mem_singleton] at h
          rcases h with h | h
          · exact Or.inl h
          · right; rw [h]
        have hlog : SameLedger w.sys.st.log w'.sys.st.log := by rw [← h2]; exact SameLedger.snoc rfl
        rcases ih with ih | ih
        · left
          refine ih.same ⟨by rw [h1]; exact ih.F, by rw [h1]; exact ih.centers, fun p' h => ih.props p' (hpr p' h), ?_,
            by rw [hph, hbq]; exact ih.phase⟩ hlog
          intro r' hr'
          rcases hre r' hr' with h | h
          · exact ih.recs r' h
          · rw [h]; exact ih.props p hm
        · right
          refine ih.same h1 hlog hph (fun p' h => ih.props p' (hpr p' h)) ?_ hin.subperm (hbq.trans ih.queue)
          intro r' hr'
          rcases hre r' hr' with h | h
          · exact ih.recs r' h
          · rw [h]; exact ih.props p hm
    | reject i =>
      obtain ⟨h1, h2⟩ := step_other hstep (by simp) (by simp)
      unfold Sys.step at h2
      simp only at h2
      split at h2
      · simp at h2
      · rename_i p hp
        simp only [Option.some.injEq] at h2
        have al1 := hal p hp
        have hm := mem_of_getElem? hp
        have hin : Perm w.sys.inflight (p.x :: w'.sys.inflight) := by
          rw [← h2]
          unfold Sys.inflight
          have h3 := (perm_eraseIdx hp).map Proposal.x
          rw [List.map_cons] at h3
          exact h3.append_right _
        have hpr : ∀ p' ∈ w'.sys.props, p' ∈ w.sys.props := by rw [← h2]; intro p' h; exact List.mem_of_mem_eraseIdx h
        have hre : w'.sys.recs = w.sys.recs := by rw [← h2]
        rcases ih with ih | ih
        · have hk := ih.props p hm
          have hph0 := al1 hk
          rw [hk] at h2
          simp only [onInitialRejected_eq] at h2
          left
          refine ih.same ⟨by rw [h1]; exact ih.F, by rw [h1]; exact ih.centers, fun p' h => ih.props p' (hpr p' h),
            by rw [hre]; exact ih.recs, ?_⟩ (by rw [← h2]; exact SameLedger.snoc rfl)
          intro hph
          rw [← h2] at hph
          have : w.sys.st.phase = .adaptive := hph
          rw [hph0] at this; simp at this
        · have hk := ih.props p hm
          rw [hk] at h2
          simp only [onAdaptReject_eq, has] at h2
          have hbq : w'.sys.st.batchQueue = w.sys.st.batchQueue ++ [] := by rw [← h2]; rfl
          right
          refine ih.same h1 (by rw [← h2]; exact SameLedger.snoc rfl) (by rw [← h2]; rfl) (fun p' h => ih.props p' (hpr p' h))
            (by rw [hre]; exact ih.recs) ((List.sublist_cons_self _ _).subperm.trans hin.symm.subperm)
            (by rw [hbq, List.append_nil]; exact ih.queue)
    | abort i =>
      obtain ⟨h1, h2⟩ := step_other hstep (by simp) (by simp)
      unfold Sys.step at h2
      simp only at h2
      split at h2
      · simp at h2
      · rename_i r hrec
        have al := hal r hrec
        simp only [Option.some.injEq, onAborted_eq] at h2
        have hm := mem_of_getElem? hrec
        rcases ih with ih | ih
        · left
          refine ih.same ⟨by rw [h1]; exact ih.F, by rw [h1]; exact ih.centers, by rw [← h2]; exact ih.props, ?_, ?_⟩
            (by rw [← h2]; exact SameLedger.snoc rfl)
          · rw [← h2]; intro r' h; exact ih.recs r' (List.mem_of_mem_eraseIdx h)
          · intro hph
            rw [← h2] at hph
            have : w.sys.st.phase = .adaptive := hph
            rw [al (ih.recs r hm)] at this; simp at this
        · have hk := ih.recs r hm
          right
          refine ih.same h1 (by rw [← h2]; exact SameLedger.snoc rfl) (by rw [← h2]; rfl) (by rw [← h2]; exact ih.props) ?_ ?_ ?_
          · rw [← h2]; intro r' h; exact ih.recs r' (List.mem_of_mem_eraseIdx h)
          · have h3 := (perm_eraseIdx hrec).map Rec.x
            rw [← h2]
            unfold Sys.inflight
            simp only
            exact ((List.eraseIdx_sublist _ _).map _).append_left _ |>.subperm
          · rw [← h2]
            simp [State.note, hk, ih.queue]
    | update i =>
      obtain ⟨h1, h2⟩ := step_other hstep (by simp) (by simp)
      unfold Sys.step at h2
      simp only at h2
      split at h2
      · simp at h2
      · simp only [Option.some.injEq] at h2
        have : w' = w := by cases w; cases w'; simp_all
        rw [this]; exact ih

/-- A generation succeeds exactly when there is a free center. -/
theorem Rough.generate_iff (hs : c.base.srbf = none) (has : c.base.asynchronous = true) (hm : c.base.maxEvals ≠ c.base.numPts)
    {w : SopSys d} (h : Rough c w) (hq : w.sys.st.batchQueue = []) (hg : Going c.base w.sys.st)
    (h2 : ∃ p ∈ completions w.sys.st.log, ∃ q ∈ completions w.sys.st.log, toUnitBox p.1 c.lb c.ub ≠ toUnitBox q.1 c.lb c.ub)
    (o : Oracle (Pt d)) : (∃ w', w.step c (.propose o) = some w') ↔
      (generatedPts w.sys.st.log).length < adaptDone w.sys.st.log + c.ncenters := by
  have hr := h.reach
  constructor
  · rintro ⟨w', hw⟩
    by_contra hlt
    rw [async_exhausted hs has hr hq hg (by omega) o] at hw
    cases hw
  · intro hlt
    have hg1 : genCount c.base = 1 := by unfold genCount; rw [if_pos has]
    obtain ⟨g1, g2, g3⟩ := gen_facts (h.inv hs has)
    have two := two_of_completions (hr.inv hs) h2
    have hcount : w.sop.evals.length = w.sys.st.numEvals.toNat := by have := hr.count hs; omega
    obtain ⟨z, hz⟩ := generate_isSome (hr.cinv hs) hcount two (fun F hF => by rw [g2 F hF, hcount]) hm (pts := [o.pts 0])
      (by rw [g1.length_eq]; simp only [List.length_singleton]; omega)
    rw [step_propose_gen hs w (hr.inv hs).conv o hg hq (Or.inl has) (o.pts 0) [] (by rw [hg1]; rfl)]
    simp only [List.nil_append]
    rw [hz]
    exact ⟨_, rfl⟩

/-- Completions never raise. -/
theorem Rough.complete (hs : c.base.srbf = none) (has : c.base.asynchronous = true) {w : SopSys d} (h : Rough c w)
    {i : ℕ} (hi' : i < w.sys.recs.length) (v : Val) : ∃ w', w.step c (.complete i v) = some w' := by
  have hr := h.reach
  have hi := h.inv hs has
  have hrec : w.sys.recs[i]? = some w.sys.recs[i] := List.getElem?_eq_getElem hi'
  set r := w.sys.recs[i] with hrdef
  have hc : (w.sys.st.note (.completed r.x r.kind v r.accAt)).onCompleted c.base r.x r.kind v r.evId =
      (w.sys.st.note (.completed r.x r.kind v r.accAt)).recordCompleted r.x v r.evId := by
    unfold State.onCompleted
    rw [hs]
    cases r.kind <;> rfl
  unfold SopSys.step Sys.step
  simp only [hrec]
  rw [hc]
  cases hk : r.kind with
  | init => exact ⟨_, rfl⟩
  | adapt =>
    simp only
    have hpost : PostA c w := by
      rcases hi with hi | hi
      · have := hi.recs r (List.getElem_mem hi')
        rw [hk] at this; simp at this
      · exact hi
    let w1 : SopSys d := ⟨{ w.sys with
      st := (w.sys.st.note (.completed r.x r.kind v r.accAt)).recordCompleted r.x v r.evId
      recs := w.sys.recs.eraseIdx i }, w.sop⟩
    obtain ⟨hn, hbq, hph, hev, hin, hpe⟩ := evals_completed (w' := w1) hr hs hrec rfl
    have hx : r.x ∈ busyPts w.sop.centers :=
      hpost.perm.mem_iff.mpr (hpost.sub.subset (hin.mem_iff.mpr (List.mem_cons_self ..)))
    have hz : ∃ z', w.sop.onAdaptCompleted c w1.sys.st r.x v r.evId = some z' := by
      obtain ⟨l, ce, rr, e1, e2, e3, _, e5⟩ := mark_pts (w1.sys.st.numEvals.toNat - 1) hx hpost.nodup
      have h1 := append_cinv (SopRec.new r.x v) (hr.cinv hs)
      have hni : (archive { w.sop with evals := w.sop.evals ++ [SopRec.new r.x v] })[w1.sys.st.numEvals.toNat - 1]? = some (r.x, v) := by
        rw [hn]
        simp [archive, SopRec.new]
      have h2 := markCenter_cinv hni h1
      have two : TwoPoints c (w.sop.evals ++ [SopRec.new r.x v]) := hpost.two.append _
      unfold Sop.onAdaptCompleted
      rw [hev, if_pos (Nat.zero_le _)]
      simp only
      rw [if_pos has]
      refine adjustMemory_isSome h2 (by simp [hn]) two ?_
      intro j hj
      simp only [e3, processed, List.mem_singleton] at hj
      subst hj
      simp only [e3]
      exact ⟨{ ce with newIndex := some (w1.sys.st.numEvals.toNat - 1) }, _, by simp, rfl⟩
    obtain ⟨z', hz'⟩ := hz
    simp only [w1, hk] at hz'
    rw [hz']
    exact ⟨_, rfl⟩

end Verif.Sop
