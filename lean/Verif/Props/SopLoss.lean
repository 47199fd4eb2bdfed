import Verif.Sop.Rough
import Verif.Props.Sop

/-! # C56, exact form for asynchronous runs -/

set_option linter.unusedSectionVars false

namespace Verif.Props

open Verif.Num Verif.Utils Verif.Strategy Verif.Spec Verif.Sop

variable {d : ℕ} {c : Cfg d}

/-- Asynchronous runs in which adaptive evaluations are killed and rejected and the manager is restarted at any time: a new
point can be generated if and only if fewer than `ncenters` generated points have not been evaluated.  No completion raises. -/
theorem C56_async_partial (hs : c.base.srbf = none) (ha : c.base.asynchronous = true) (hm : c.base.maxEvals ≠ c.base.numPts)
    {w : SopSys d} (h : Rough c w) :
    (∀ o, w.sys.st.batchQueue = [] → Going c.base w.sys.st → Tolerated c w (.propose o) →
      ((∃ w', w.step c (.propose o) = some w') ↔
        (generatedPts w.sys.st.log).length < adaptDone w.sys.st.log + c.ncenters)) ∧
    (∀ i v, i < w.sys.recs.length → ∃ w', w.step c (.complete i v) = some w') :=
  ⟨fun o hq hg hal => h.generate_iff hs ha hm hq hg (hal hq hg).2.2.1 o, fun _ v hi => h.complete hs ha hi v⟩

theorem rough_warm (k : ℕ) : ∃ w : SopSys 1, Rough (wcfg true 1 k) w ∧
    w.sop = ⟨[SopRec.new (pt 0) 0, SopRec.new (pt 1) 1], [], none⟩ ∧ w.sys.st.batchQueue = [] ∧
    w.sys.props = [] ∧ w.sys.recs = [] ∧ w.sys.st.pendingEvals = 0 ∧ w.sys.st.numEvals = 2 ∧ w.sys.st.terminate = false ∧
    generatedPts w.sys.st.log = [] ∧ adaptDone w.sys.st.log = 0 ∧ unfinished w.sys.st.log = [] := by
  have c0 : Rough (wcfg true 1 k) _ := Rough.create (worc (pt 0))
  have c1 := c0.step (.propose (worc (pt 0))) (fun h => by cases h) rfl
  have c2 := c1.step (.propose (worc (pt 0))) (fun h => by cases h) rfl
  have c3 := c2.step (.accept 0) trivial rfl
  have c4 := c3.step (.accept 0) trivial rfl
  have c5 := c4.step (.complete 1 0) trivial rfl
  have c6 := c5.step (.complete 0 1) trivial rfl
  exact ⟨_, c6, rfl, rfl, rfl, rfl, rfl, rfl, rfl, rfl, rfl, rfl⟩

/-- With two centers, one rejected proposal is tolerated and the next generation succeeds. -/
example : ∃ w w' : SopSys 1, Rough (wcfg true 1 2) w ∧ Event.rejected (pt 0.5) Kind.adapt ∈ w.sys.st.log ∧
    (generatedPts w.sys.st.log).length = 1 ∧ adaptDone w.sys.st.log = 0 ∧
    Tolerated (wcfg true 1 2) w (.propose (worc (pt 0.25))) ∧ w.step (wcfg true 1 2) (.propose (worc (pt 0.25))) = some w' := by
  obtain ⟨w, h, hsop, hq, hp, hr, hpend, hnum, ht, hgp, had, hunf⟩ := rough_warm 2
  have hs : (wcfg true 1 2).base.srbf = none := rfl
  have hg : Going (wcfg true 1 2).base w.sys.st := ⟨ht, by rw [hnum, hpend]; simp [wcfg]⟩
  have two : ∃ p ∈ completions w.sys.st.log, ∃ q ∈ completions w.sys.st.log,
      toUnitBox p.1 (wcfg true 1 2).lb (wcfg true 1 2).ub ≠ toUnitBox q.1 (wcfg true 1 2).lb (wcfg true 1 2).ub := by
    rw [← (h.reach.inv hs).arch]
    refine ⟨(pt 0, 0), by rw [archive, hsop]; simp [SopRec.new], (pt 1, 1), by rw [archive, hsop]; simp [SopRec.new], ?_⟩
    simp only [unit_pt]
    intro he
    have := congrFun he 0
    simp [pt] at this
  have hal : Tolerated (wcfg true 1 2) w (.propose (worc (pt 0.5))) := fun _ _ =>
    ⟨by simp [hp], by simp [hr], two, by rw [hunf]; simp⟩
  obtain ⟨w1, h1⟩ := ((C56_async_partial hs rfl (by simp [wcfg]) h).1 _ hq hg hal).mpr (by rw [hgp, had]; simp [wcfg])
  have r1 := h.step _ hal h1
  have hstep := step_propose_gen hs w (h.reach.inv hs).conv (worc (pt 0.5)) hg hq (Or.inl rfl) (pt 0.5) [] rfl
  rw [h1] at hstep
  obtain ⟨z, hz, he⟩ := Option.map_eq_some_iff.mp hstep.symm
  have hsys : w1.sys = proposeLast w.sys (genState w.sys.st ([] ++ [pt 0.5])) [] (pt 0.5) .adapt := by rw [← he]
  have hp1 : w1.sys.props = [{ x := pt 0.5, kind := .adapt }] := by rw [hsys]; simp [proposeLast, hp]
  have hr1 : w1.sys.recs = [] := by rw [hsys]; simp [proposeLast, hr]
  have hlog1 : w1.sys.st.log = w.sys.st.log ++ [.generated [pt 0.5] [], .proposed (pt 0.5) .adapt] := by
    rw [hsys]; simp [proposeLast, genState, State.note, State.makeProposal]
  obtain ⟨w2, h2, hs2⟩ : ∃ w2, w1.step (wcfg true 1 2) (.reject 0) = some w2 ∧ w2.sys = { w1.sys with
      st := (w1.sys.st.note (.rejected (pt 0.5) .adapt)).onAdaptReject (wcfg true 1 2).base (pt 0.5)
      props := [] } := by
    unfold SopSys.step Sys.step
    simp [hp1]
  have r2 := r1.step (.reject 0) (by intro p hp'; rw [hp1] at hp'; simp at hp'; subst hp'; simp) h2
  rw [onAdaptReject_eq] at hs2
  have hlog2 : w2.sys.st.log = w.sys.st.log ++ [.generated [pt 0.5] [], .proposed (pt 0.5) .adapt, .rejected (pt 0.5) .adapt] := by
    rw [hs2]; simp [State.note, hlog1]
  have hg2 : Going (wcfg true 1 2).base w2.sys.st := by
    refine ⟨by rw [hs2, hsys]; exact ht, ?_⟩
    rw [hs2, hsys]
    simp [proposeLast, genState, State.note, State.makeProposal, hnum, hpend, wcfg]
  have hq2 : w2.sys.st.batchQueue = [] := by
    rw [hs2, hsys]; simp [proposeLast, genState, State.note, State.makeProposal, wcfg]
  have hal2 : Tolerated (wcfg true 1 2) w2 (.propose (worc (pt 0.25))) := by
    intro _ _
    refine ⟨by rw [hs2]; simp, by rw [hs2]; simp [hr1], ?_, ?_⟩
    · have : completions w2.sys.st.log = completions w.sys.st.log := by
        rw [hlog2]; simp [completions]
      rw [this]; exact two
    · have : unfinished w2.sys.st.log = [pt 0.5] := by
        rw [hlog2]
        have : unfinished w.sys.st.log = [] := hunf
        unfold unfinished at this ⊢
        rw [List.foldl_append, this]
        simp [unfinishedStep]
      rw [this]
      intro hm
      simp only [List.mem_singleton] at hm
      have := congrFun hm 0
      simp [worc, pt] at this
      norm_num at this
  have hgp2 : (generatedPts w2.sys.st.log).length = 1 := by rw [hlog2, generatedPts_append, hgp]; rfl
  have had2 : adaptDone w2.sys.st.log = 0 := by rw [hlog2, adaptDone_append, had]; rfl
  obtain ⟨w', h'⟩ := ((C56_async_partial hs rfl (by simp [wcfg]) r2).1 _ hq2 hg2 hal2).mpr (by rw [hgp2, had2]; simp [wcfg])
  exact ⟨w2, w', r2, by rw [hlog2]; simp, hgp2, had2, hal2, h'⟩

end Verif.Props
