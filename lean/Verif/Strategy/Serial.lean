import Verif.Strategy.Inv7

/-!
# Controllers that answer each proposal at once

POAP controllers accept or reject a proposal right after `propose_action` returned it.  For such controllers the
radius of SRBF/DYCORS never leaves its range (in general it can, see `Verif.Props`).
-/

namespace Verif.Strategy

open Verif.Spec

variable {P : Type} [DecidableEq P] {cfg : Config P}

/-- Reachable with a controller that answers every proposal before anything else happens. -/
inductive ReachSerial (cfg : Config P) : Sys P → Prop
  | create (o : Oracle P) : ReachSerial cfg (Sys.create cfg o)
  | step {w w' : Sys P} (op : Op P) (hop : w.props = [] ∨ ∃ i, op = .accept i ∨ op = .reject i) :
    ReachSerial cfg w → w.step cfg op = some w' → ReachSerial cfg w'
  | resume {w : Sys P} : ReachSerial cfg w → ReachSerial cfg w.resumed

theorem ReachSerial.reach {w : Sys P} (h : ReachSerial cfg w) : Reach cfg w := by
  induction h with
  | create o => exact .create o
  | step op _ _ hs ih => exact .step op ih hs
  | resume _ ih => exact .resume ih

/-- After convergence nothing that is still in flight counts. -/
structure Quiet (sc : SrbfCfg) (w : Sys P) : Prop where
  radius : ∀ z, w.st.srbf = some z → ∃ k ≤ 6, z.radius = radiusAt k
  props : w.st.converged = true → w.props = []
  recs : w.st.converged = true → ∀ r ∈ w.recs, r.evId ≤ w.st.evLast

/-- In a converged state `propose_action` restarts or does nothing. -/
theorem proposeAction_converged {o : Oracle P} {s s' : State P} {a : Action P}
    (h : s.proposeAction cfg o = some (a, s')) (hc : s.converged = true) (hc' : s'.converged = true) :
    (∀ x k, a ≠ .eval x k) ∧ s'.evLast = s.evLast ∧ s'.srbf = s.srbf := by
  by_cases ht : s.terminate = true ∨ cfg.maxEvals ≤ s.numEvals + s.pendingEvals
  · rw [proposeAction_terminate ht] at h
    simp only [Option.some.injEq, Prod.mk.injEq] at h
    rw [← h.2]
    refine ⟨?_, rfl, rfl⟩
    intro x k
    rw [← h.1]; split <;> simp
  · simp only [not_or, not_le] at ht
    rw [proposeAction_going (by simpa using ht.1) ht.2, hc] at h
    simp only [if_true] at h
    split at h
    · split at h
      · have := (initProposal_keep h).2
        rw [sampleRestart_eq] at this
        simp only at this
        rw [this] at hc'; cases hc'
      · simp only [Option.some.injEq, Prod.mk.injEq] at h
        rw [← h.2, ← h.1]; simp
    · simp only [Option.some.injEq, Prod.mk.injEq] at h
      rw [← h.2, ← h.1]; simp

/-- If one step makes the run converge, the event marker was moved. -/
theorem moved_of_conv {sc : SrbfCfg} {z : Srbf} {c : Ctl} (hf : 1 ≤ failtol cfg sc)
    (h : Agrees (failtol cfg sc) z c) (hk : z.failcount < maxfailtol cfg sc) (hr : radiusMin < z.radius) (f : Val)
    (hc : (z.adjust (failtol cfg sc) (maxfailtol cfg sc) f).2.2 = true) :
    (z.adjust (failtol cfg sc) (maxfailtol cfg sc) f).2.1 = true := by
  by_contra hm
  have hm : (z.adjust (failtol cfg sc) (maxfailtol cfg sc) f).2.1 = false := by simpa using hm
  have ha := adjust_spec (failtol cfg sc) (maxfailtol cfg sc) z f
  have hg := h.adjust (mftol := maxfailtol cfg sc) hf f
  rcases ha.conv.1 hc with h1 | h1
  · by_cases hs : significant z.fbest f
    · have := (ha.improved hs).2
      rw [this] at h1
      unfold maxfailtol at h1; omega
    · have h2 := (ha.failed hs).2
      obtain ⟨hg1, hg2⟩ := hg
      have hs' : ¬ significant c.best f := by rw [← h.best]; exact hs
      rw [hm] at hg2
      have hw : (c.next (failtol cfg sc) f).wins = 0 := by
        unfold Ctl.next; rw [if_neg hs']; split <;> rfl
      have hl : (c.next (failtol cfg sc) f).losses ≠ 0 := by
        intro hh; simpa using hg2.2 ⟨hw, hh⟩
      obtain ⟨j, hj⟩ := hg1.sync
      have hl2 := hg1.losses
      rw [← hg1.fails] at hj
      rw [h2] at h1 hj
      unfold maxfailtol at h1 hk
      have e : z.failcount + 1 = 4 * failtol cfg sc := by omega
      rw [e] at hj
      have : ((4 : Int) - j) * failtol cfg sc = (c.next (failtol cfg sc) f).losses := by
        rw [sub_mul]; omega
      have hpos : (0 : Int) < (c.next (failtol cfg sc) f).losses := by omega
      rw [← this] at hpos hl2
      have hj4 : (0 : Int) < 4 - j := by
        by_contra hneg
        have : ((4 : Int) - j) * failtol cfg sc ≤ 0 :=
          mul_nonpos_of_nonpos_of_nonneg (by omega) (by omega)
        omega
      have : failtol cfg sc ≤ ((4 : Int) - j) * failtol cfg sc := by nlinarith
      omega
  · rw [ha.moved hm] at h1
    exact absurd h1 (not_le.2 hr)

theorem ReachSerial.quiet {sc : SrbfCfg} {w : Sys P} (h : ReachSerial cfg w) (hsc : cfg.srbf = some sc)
    (hbs : cfg.asynchronous = true ∨ 0 < cfg.batchSize) : Quiet sc w := by
  induction h with
  | create o =>
    constructor
    · intro z hz
      simp only [Sys.create, create_eq, State.blank, hsc, Option.map_some, Option.some.injEq] at hz
      exact ⟨0, by omega, by rw [← hz]; simp [radiusAt]⟩
    · intro _; rfl
    · intro _ r hr; simp [Sys.create] at hr
  | resume _ ih =>
    constructor
    · intro z hz; exact ih.radius z (by simpa [Sys.resumed, resume_eq, State.note] using hz)
    · intro _; rfl
    · intro _ r hr; simp [Sys.resumed] at hr
  | @step w w' op hop hw hs ih =>
    have hst := hw.reach.stepInv hsc hbs
    obtain ⟨z, hz, ⟨k, hk, hk5⟩, hb, hfb, hfc, hlt, _⟩ := hst.z
    obtain ⟨z2, hz2, hag⟩ := (hw.reach.ctrl hsc hbs).z
    rw [hz] at hz2; cases hz2
    cases op with
    | propose o =>
      have hprops : w.props = [] := by
        rcases hop with hop | ⟨i, hop | hop⟩
        · exact hop
        · cases hop
        · cases hop
      simp only [Sys.step] at hs
      split at hs
      · simp at hs
      all_goals
        rename_i s' he
        simp only [Option.some.injEq] at hs; subst hs
        obtain ⟨z', h1, h2, h3⟩ := proposeAction_srbf hsc hz he
        refine ⟨?_, ?_, ?_⟩
        · intro y hy
          have hy : s'.srbf = some y := hy
          rw [h1] at hy; cases hy
          rcases h2 with h2 | h2
          · rw [h2.radius]; exact ih.radius z hz
          · rw [h2.radius]; exact ⟨0, by omega, by simp [radiusAt, Srbf.sampleInitial]⟩
        · intro hc
          first
          | exact hprops
          | exact absurd rfl ((proposeAction_converged he (h3 hc) hc).1 _ _)
        · intro hc r hr
          have := (proposeAction_converged he (h3 hc) hc).2.1
          have h4 := ih.recs (h3 hc) r hr
          rw [← this] at h4; exact h4
    | accept i =>
      simp only [Sys.step] at hs
      split at hs
      · simp at hs
      · rename_i p hp
        simp only [Option.some.injEq] at hs; subst hs
        have hno : w.st.converged ≠ true := by
          intro hc; rw [ih.props hc] at hp; simp at hp
        exact ⟨ih.radius, fun hc => absurd hc hno, fun hc => absurd hc hno⟩
    | reject i =>
      simp only [Sys.step] at hs
      split at hs
      · simp at hs
      · rename_i p hp
        simp only [Option.some.injEq] at hs; subst hs
        have hno : w.st.converged ≠ true := by
          intro hc; rw [ih.props hc] at hp; simp at hp
        split
        · simp only [onInitialRejected_eq, State.note]
          exact ⟨ih.radius, fun hc => absurd hc hno, fun hc => absurd hc hno⟩
        · simp only [onAdaptReject_eq, State.note]
          exact ⟨ih.radius, fun hc => absurd hc hno, fun hc => absurd hc hno⟩
    | complete i v =>
      have hprops : w.props = [] := by
        rcases hop with hop | ⟨i, hop | hop⟩
        · exact hop
        · cases hop
        · cases hop
      simp only [Sys.step] at hs
      split at hs
      · simp at hs
      · rename_i r hr
        simp only [Option.some.injEq] at hs; subst hs
        have hb : Quiet sc (Sys.mk ((w.st.note (.completed r.x r.kind v r.accAt)).recordCompleted r.x v r.evId)
            w.props (w.recs.eraseIdx i)) := by
          refine ⟨?_, fun _ => hprops, ?_⟩
          · intro y hy; rw [recordCompleted_eq] at hy; exact ih.radius y hy
          · intro hc q hq; rw [recordCompleted_eq] at hc ⊢; exact ih.recs hc q (mem_of_eraseIdx hq)
        simp only [State.onCompleted]
        split
        · exact hb
        · split
          · rename_i sc' z1 hsc' hz1
            rw [hsc] at hsc'; cases hsc'
            rw [recordCompleted_eq] at hz1
            have hz1 : w.st.srbf = some z1 := hz1
            rw [hz] at hz1; cases hz1
            unfold State.srbfCompleted
            split
            · rename_i hnew
              have hnew : r.evId > w.st.evLast := by rw [recordCompleted_eq] at hnew; exact hnew
              have hnc : w.st.converged = false := by
                cases hcv : w.st.converged with
                | false => rfl
                | true =>
                  have := ih.recs hcv r (mem_of_getElem? hr)
                  omega
              split
              · rw [adjustStep_eq]
                generalize minValue z.recordQueue v = f
                have ha := adjust_spec (failtol cfg sc) (maxfailtol cfg sc) z f
                refine ⟨?_, fun _ => hprops, ?_⟩
                · intro y hy
                  simp only [Option.some.injEq] at hy
                  rw [← hy]
                  obtain ⟨k', hk', hle⟩ := ha.radius k hk
                  exact ⟨k', by have := hk5 hnc; omega, hk'⟩
                · intro hc q hq
                  simp only [Bool.or_eq_true] at hc
                  have hcc : (z.adjust (failtol cfg sc) (maxfailtol cfg sc) f).2.2 = true := by
                    rcases hc with hc | hc
                    · rw [recordCompleted_eq] at hc
                      have hc : w.st.converged = true := hc
                      rw [hnc] at hc; cases hc
                    · exact hc
                  have hmv := moved_of_conv (failtol_pos sc hbs) hag (hlt hnc) (by
                    rw [hk]; by_contra hneg
                    have := (radiusAt_le_min_iff k).1 (not_lt.1 hneg)
                    have := hk5 hnc; omega) f hcc
                  simp only [hmv, if_true]
                  rw [recordCompleted_eq]
                  have := hw.reach.ids.recLt q (mem_of_eraseIdx hq)
                  exact Nat.le_of_lt this
              · refine ⟨?_, fun _ => hprops, ?_⟩
                · intro y hy
                  simp only [Option.some.injEq] at hy
                  rw [← hy]; exact ih.radius z hz
                · intro hc q hq; rw [recordCompleted_eq] at hc ⊢; exact ih.recs hc q (mem_of_eraseIdx hq)
            · exact hb
          · exact hb
    | abort i =>
      simp only [Sys.step] at hs
      split at hs
      · simp at hs
      · rename_i r hr
        simp only [Option.some.injEq] at hs; subst hs
        simp only [onAborted_eq, State.note]
        exact ⟨ih.radius, ih.props, fun hc q hq => ih.recs hc q (mem_of_eraseIdx hq)⟩
    | update i =>
      simp only [Sys.step] at hs
      split at hs
      · simp at hs
      · simp only [Option.some.injEq] at hs; subst hs
        exact ih

end Verif.Strategy
