import Verif.Sop.Stuck

/-! # C146: a SOP run that was killed -/

namespace Verif.Props

open Verif.Num Verif.Utils Verif.Strategy Verif.Spec Verif.Sop

variable {d : ℕ} {c : Cfg d}

/-- When `propose_action` succeeds. -/
theorem propose_isSome (hs : c.base.srbf = none) (w : SopSys d) (hcv : w.sys.st.converged = false) (o : Oracle (Pt d)) :
    (∃ w', w.step c (.propose o) = some w') ↔
      (Going c.base w.sys.st → w.sys.st.batchQueue = [] → c.base.asynchronous = true ∨ w.sys.st.pendingEvals = 0 →
        ∃ z, w.sop.generate c w.sys.st.numEvals.toNat ((List.range (genCount c.base)).map o.pts) = some z) := by
  constructor
  · rintro ⟨w', h⟩ hg hq ha
    cases step_propose hs hcv h with
    | term ht =>
      have := hg.budget
      rw [hg.notTerm] at ht
      simp at ht
      omega
    | queue x q hq' _ => rw [hq] at hq'; simp at hq'
    | gen x q z hpts _ _ _ hz => exact ⟨z, by rw [hpts]; exact hz⟩
    | genNone z hn _ _ _ hz => exact ⟨z, by rw [hn]; exact hz⟩
    | wait _ _ ha' hp => rw [ha'] at ha; simp [hp] at ha
  · intro h
    unfold SopSys.step
    simp only [base_propose c.base hs w.sys hcv { o with giveUp := false } rfl]
    by_cases ht : w.sys.st.terminate = true ∨ c.base.maxEvals ≤ w.sys.st.numEvals + w.sys.st.pendingEvals
    · simp only [if_pos ht]
      have hn : generatedNow w.sys.st.log (termState w.sys.st).log = none := by
        unfold termState
        by_cases hp : w.sys.st.pendingEvals = 0
        · rw [if_pos hp]; exact generatedNow_append _ _ []
        · rw [if_neg hp]; exact generatedNow_same _
      simp only [hn]
      exact ⟨_, rfl⟩
    · simp only [if_neg ht]
      have hg : Going c.base w.sys.st := by
        simp only [not_or, not_le, Bool.not_eq_true] at ht
        exact ⟨ht.1, ht.2⟩
      by_cases hq : w.sys.st.batchQueue = []
      · simp only [if_pos hq]
        by_cases ha : c.base.asynchronous = true ∨ w.sys.st.pendingEvals = 0
        · obtain ⟨z, hz⟩ := h hg hq ha
          simp only [if_pos ha]
          rcases hpop : popLast ((List.range (genCount c.base)).map o.pts) with _ | ⟨x, q⟩
          · have hn : generatedNow w.sys.st.log (genState w.sys.st ((List.range (genCount c.base)).map o.pts)).log =
                some ((List.range (genCount c.base)).map o.pts) := generatedNow_append _ _ []
            simp only [hn, hz]
            exact ⟨_, rfl⟩
          · have hn : generatedNow w.sys.st.log (proposeLast w.sys
                (genState w.sys.st ((List.range (genCount c.base)).map o.pts)) q x .adapt).st.log =
                some ((List.range (genCount c.base)).map o.pts) := by
              have : (proposeLast w.sys (genState w.sys.st ((List.range (genCount c.base)).map o.pts)) q x .adapt).st.log =
                  w.sys.st.log ++ .generated ((List.range (genCount c.base)).map o.pts) [] :: [.proposed x .adapt] := by
                simp [proposeLast, genState, State.note, State.makeProposal]
              rw [this]
              exact generatedNow_append _ _ _
            simp only [hn, hz]
            exact ⟨_, rfl⟩
        · simp only [if_neg ha]
          have hn := generatedNow_same w.sys.st.log
          simp only [hn]
          exact ⟨_, rfl⟩
      · simp only [if_neg hq]
        rcases hpop : popLast w.sys.st.batchQueue with _ | ⟨x, q⟩
        · exact absurd (popLast_none hpop) hq
        · have hn : generatedNow w.sys.st.log (proposeLast w.sys w.sys.st q x (kindOf w.sys.st.phase)).st.log = none :=
            generatedNow_append _ _ []
          simp only [hn]
          exact ⟨_, rfl⟩

theorem stuck_resumed (hs : c.base.srbf = none) {w : SopSys d} (h : Reach c w) (hg : generatedPts w.sys.st.log ≠ [])
    (hb : c.ncenters + w.sys.st.batchQueue.length < (busyPts w.sop.centers).length + genCount c.base) :
    Stuck c ⟨w.sys.resumed, w.sop⟩ := by
  have hp := h.adaptive hs hg
  refine ⟨by simpa [Sys.resumed, resume_eq, State.note] using hp, ?_⟩
  rw [resumed_load hp]
  exact hb

theorem resumed_same {w : SopSys d} (hp : w.sys.st.phase = .adaptive) :
    generatedPts w.sys.resumed.st.log = generatedPts w.sys.st.log ∧
      completions w.sys.resumed.st.log = completions w.sys.st.log ∧ w.sys.resumed.st.terminate = w.sys.st.terminate ∧
      w.sys.resumed.st.batchQueue = w.sys.st.batchQueue := by
  simp [Sys.resumed, resume_eq, State.note, generatedPts, completions, hp]

theorem stuck_conclusion (hs : c.base.srbf = none) {w : SopSys d} (h : Reach c w) (hg : generatedPts w.sys.st.log ≠ [])
    (hst : Stuck c ⟨w.sys.resumed, w.sop⟩) :
    (∀ w' : SopSys d, After c ⟨w.sys.resumed, w.sop⟩ w' →
      generatedPts w'.sys.st.log = generatedPts w.sys.st.log ∧
      (w'.sys.st.batchQueue = [] → Going c.base w'.sys.st → c.base.asynchronous = true ∨ w'.sys.inflight = [] →
        ∀ o, w'.step c (.propose o) = none)) ∧
    (w.sys.st.terminate = false →
      (((completions w.sys.st.log).length + w.sys.st.batchQueue.length : ℕ) : ℤ) < c.base.maxEvals →
      ∀ w' : SopSys d, After c ⟨w.sys.resumed, w.sop⟩ w' → Going c.base w'.sys.st) := by
  have hp := h.adaptive hs hg
  obtain ⟨e1, e2, e3, e4⟩ := resumed_same hp
  constructor
  · intro w' ha
    have hw := hst.after hs h.resume ha
    refine ⟨hw.2.1.trans e1, fun hq hgo hi o => hw.1.raises hs (ha.reach h.resume) hq hgo hi o⟩
  · intro ht hb w' ha
    refine hst.goes_on hs h.resume (e3.trans ht) ?_ ha
    show (((completions w.sys.resumed.st.log).length + load _ : ℕ) : ℤ) < _
    rw [resumed_load hp, e2]
    exact hb

/-- The manager is killed while a synchronous batch runs (more evaluations in flight than `ncenters - batch_size`; for
`batch_size = ncenters`: at least one), and the run is resumed from the checkpoint.  Then no point is ever generated again,
and every call of `propose_action` that finds the queue empty and nothing running raises while budget is left.  If the budget
is larger than what is evaluated and queued, the run never comes to an end. -/
theorem C146_sync_refuted (hs : c.base.srbf = none) (ha : c.base.asynchronous = false) {w : SopSys d} (h : Reach c w)
    (hg : generatedPts w.sys.st.log ≠ []) (hi : c.ncenters < w.sys.inflight.length + c.base.batchSize) :
    (∀ w' : SopSys d, After c ⟨w.sys.resumed, w.sop⟩ w' →
      generatedPts w'.sys.st.log = generatedPts w.sys.st.log ∧
      (w'.sys.st.batchQueue = [] → Going c.base w'.sys.st → w'.sys.inflight = [] →
        ∀ o, w'.step c (.propose o) = none)) ∧
    (w.sys.st.terminate = false →
      (((completions w.sys.st.log).length + w.sys.st.batchQueue.length : ℕ) : ℤ) < c.base.maxEvals →
      ∀ w' : SopSys d, After c ⟨w.sys.resumed, w.sop⟩ w' → Going c.base w'.sys.st) := by
  have hl := h.load_le hs ha hg
  have hgc : genCount c.base = c.base.batchSize := by simp [genCount, ha]
  obtain ⟨h1, h2⟩ := stuck_conclusion hs h hg (stuck_resumed hs h hg (by rw [hgc]; simp only [load] at hl; omega))
  exact ⟨fun w' hw => ⟨(h1 w' hw).1, fun a b e => (h1 w' hw).2 a b (.inr e)⟩, h2⟩

/-- Asynchronous: the same when `ncenters` generated points are neither evaluated nor queued at the moment of the crash
(`ncenters` workers were busy, or points were lost before). -/
theorem C146_async_refuted (hs : c.base.srbf = none) (ha : c.base.asynchronous = true) {w : SopSys d} (h : Reach c w)
    (hg : generatedPts w.sys.st.log ≠ [])
    (hl : adaptDone w.sys.st.log + c.ncenters + w.sys.st.batchQueue.length ≤ (generatedPts w.sys.st.log).length) :
    (∀ w' : SopSys d, After c ⟨w.sys.resumed, w.sop⟩ w' →
      generatedPts w'.sys.st.log = generatedPts w.sys.st.log ∧
      (w'.sys.st.batchQueue = [] → Going c.base w'.sys.st → ∀ o, w'.step c (.propose o) = none)) ∧
    (w.sys.st.terminate = false →
      (((completions w.sys.st.log).length + w.sys.st.batchQueue.length : ℕ) : ℤ) < c.base.maxEvals →
      ∀ w' : SopSys d, After c ⟨w.sys.resumed, w.sop⟩ w' → Going c.base w'.sys.st) := by
  have hle := h.generated_le hs
  have hgc : genCount c.base = 1 := by simp [genCount, ha]
  obtain ⟨h1, h2⟩ := stuck_conclusion hs h hg (stuck_resumed hs h hg (by rw [hgc]; omega))
  exact ⟨fun w' hw => ⟨(h1 w' hw).1, fun a b => (h1 w' hw).2 a b (.inl ha)⟩, h2⟩

/-- Killed at a moment when nothing is in flight, the resumed run has lost nothing: the state of the strategy and of the
memory of SOP is the one before the crash (only the record of events of the model is longer), and `propose_action` succeeds
if and only if it would have succeeded without the crash. -/
theorem C146_idle (hs : c.base.srbf = none) {w : SopSys d} (h : Reach c w) (hi : w.sys.inflight = []) :
    w.sys.resumed = { w.sys with st := { w.sys.st with log := w.sys.st.log ++ [.crashed [], .resumed []] } } ∧
    ∀ o, (∃ w', w.step c (.propose o) = some w') ↔
      ∃ w', SopSys.step c ⟨w.sys.resumed, w.sop⟩ (.propose o) = some w' := by
  have hp : w.sys.st.pendingEvals = 0 := by rw [C02_pending_exact h.base, hi]; rfl
  have hx : w.sys.st.Xpend = [] := by
    rw [List.eq_nil_iff_forall_not_mem]
    intro x hxm
    have := h.base.sourced.xpend x hxm
    rw [hi] at this
    cases this
  have he : w.sys.resumed = { w.sys with st := { w.sys.st with log := w.sys.st.log ++ [.crashed [], .resumed []] } } := by
    have h1 : w.sys.props = [] ∧ w.sys.recs = [] := by simpa [Sys.inflight] using hi
    rcases w with ⟨⟨st, props, recs⟩, z⟩
    simp only at h1 hp hx
    obtain ⟨rfl, rfl⟩ := h1
    rcases st
    simp only at hp hx
    subst hp hx
    simp [Sys.resumed, resume_eq, State.note, Sys.inflight]
  refine ⟨he, fun o => ?_⟩
  rw [propose_isSome hs w (h.inv hs).conv, propose_isSome hs ⟨w.sys.resumed, w.sop⟩ (h.resume.inv hs).conv, he]
  exact ⟨fun k g => k ⟨g.notTerm, g.budget⟩, fun k g => k ⟨g.notTerm, g.budget⟩⟩

/-- Synchronous, one center, batches of one point: the hypotheses are met while the first adaptive evaluation is in flight;
the run resumed from there raises at the first call of `propose_action`, with budget left. -/
example : ∃ w : SopSys 1, Sop.Reach (wcfg false 1 1) w ∧ generatedPts w.sys.st.log ≠ [] ∧
    (wcfg false 1 1).ncenters < w.sys.inflight.length + (wcfg false 1 1).base.batchSize ∧ w.sys.st.terminate = false ∧
    w.sys.st.batchQueue = [] ∧
    (((completions w.sys.st.log).length + w.sys.st.batchQueue.length : ℕ) : ℤ) < (wcfg false 1 1).base.maxEvals ∧
    ∀ o, SopSys.step (wcfg false 1 1) ⟨w.sys.resumed, w.sop⟩ (.propose o) = none := by
  obtain ⟨w, w1, hr, h1, hp, hre, hq, hpend, hnum, ht, hgp, had⟩ := warm_gen false 1 (by norm_num) (pt 0.5)
  have hr1 := hr.step _ h1
  have hg : generatedPts w1.sys.st.log ≠ [] := by rw [hgp]; simp
  have hi : (wcfg false 1 1).ncenters < w1.sys.inflight.length + (wcfg false 1 1).base.batchSize := by
    simp [wcfg, Sys.inflight, hp]
  have hb : (((completions w1.sys.st.log).length + w1.sys.st.batchQueue.length : ℕ) : ℤ) <
      (wcfg false 1 1).base.maxEvals := by
    have := (C03_history hr1.base).2.2
    rw [hnum] at this
    rw [hq]
    simp only [List.length_nil, Nat.add_zero]
    rw [← this]
    simp [wcfg]
  obtain ⟨k1, k2⟩ := C146_sync_refuted (c := wcfg false 1 1) rfl rfl hr1 hg hi
  have hph := hr1.adaptive rfl hg
  refine ⟨w1, hr1, hg, hi, ht, hq, hb, (k1 _ .refl).2 ?_ (k2 ht hb _ .refl) ?_⟩
  · rw [← hq]; exact (resumed_same hph).2.2.2
  · simp [Sys.resumed, Sys.inflight]

/-- Asynchronous, one center: one worker is enough. -/
example : ∃ w : SopSys 1, Sop.Reach (wcfg true 1 1) w ∧ generatedPts w.sys.st.log ≠ [] ∧
    adaptDone w.sys.st.log + (wcfg true 1 1).ncenters + w.sys.st.batchQueue.length ≤ (generatedPts w.sys.st.log).length := by
  obtain ⟨w, w1, hr, h1, hp, hre, hq, hpend, hnum, ht, hgp, had⟩ := warm_gen true 1 (by norm_num) (pt 0.5)
  exact ⟨w1, hr.step _ h1, by rw [hgp]; simp, by rw [hgp, had, hq]; simp [wcfg]⟩

/-- Nothing in flight after the initial design. -/
example : ∃ w : SopSys 1, Sop.Reach (wcfg false 1 1) w ∧ w.sys.inflight = [] ∧ w.sys.st.numEvals = 2 := by
  obtain ⟨w, hc, hsop, hq, hp, hr, hpend, hnum, _⟩ := warm false 1 1
  exact ⟨w, hc.reach, by simp [Sys.inflight, hp, hr], hnum⟩

end Verif.Props
