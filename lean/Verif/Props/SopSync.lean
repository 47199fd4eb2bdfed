import Verif.Loop.SopSyncRun
import Verif.Props.SopWhole
import Verif.Props.Order

/-! # Property C142: SOP in synchronous mode does not depend on the workers -/

namespace Verif.Props

open Verif.Num Verif.Utils Verif.Cand Verif.Design Verif.Strategy Verif.Spec Verif.Loop Verif.Sop

variable {d : ℕ} {L : SopSetup d} {S : Surr d} {f : Pt d → Val} {D : List (Pt d)} {rs : ℕ → SopRnd d} {K : Obj d}
  {Bad : List (Pt d) → Prop} [Hereditary Bad]

/-- The archive at the beginning of a batch. -/
theorem chain_archive (hs : L.base.srbf = none) {k : ℕ} {b : State (Pt d)} {z : Sop d} {ps : List (Pt d)}
    (h : SopChain L S f D rs k b z ps) : (archive z).Perm (ps.map fun x => (x, f x)) := by
  induction h with
  | start => simp [archive]
  | @next k b z z' ps popped done g w hc hw hq hi hv hg hz ih =>
    have e : archive z' = archive w.sop := by unfold archive; rw [generate_keeps hz]
    have hp := hw.base.perm
    rw [hi, List.append_nil] at hp
    rw [e, hw.evals, List.map_append]
    exact ih.append (hp.symm.map _)

/-- If nothing is running, the evaluations are those of the proposed points. -/
theorem sopSync_done {Q : SopSys d → SopRnd d → Prop} (hs : L.base.srbf = none) (ha : L.base.asynchronous = false) (hn : 0 < L.base.numPts)
    (hbs : 0 < L.base.batchSize) (hub : ∀ w r, Q w r → NoEqualValues L w) {w : SopSys d} (h : SopSyncRun Q L S f D rs w)
    (hi : w.sys.inflight = []) : (completions w.sys.st.log).Perm ((proposals w.sys.st.log).map fun x => (x, f x)) := by
  obtain ⟨k, b, z, ps, popped, done, hch, hw, hps⟩ := h.within hs ha hn hbs hub
  have hp := hw.base.perm
  rw [hi, List.append_nil] at hp
  rw [← (h.reach.inv hs).arch, hw.evals, hps, List.map_append]
  exact (chain_archive hs hch).append (hp.symm.map _)

/-- If nothing is queued, the design was proposed. -/
theorem sopSync_design {Q : SopSys d → SopRnd d → Prop} (hs : L.base.srbf = none) (ha : L.base.asynchronous = false) (hn : 0 < L.base.numPts)
    (hbs : 0 < L.base.batchSize) (hub : ∀ w r, Q w r → NoEqualValues L w) {w : SopSys d} (h : SopSyncRun Q L S f D rs w)
    (hq : w.sys.st.batchQueue = []) (hD : D.length = L.base.numPts) : D ⊆ proposals w.sys.st.log := by
  obtain ⟨k, b, z, ps, popped, done, hch, hw, hps⟩ := h.within hs ha hn hbs hub
  have hsub : D ⊆ (State.create L.base (sopOracle L D [])).batchQueue := by
    rw [create_eq]
    show D ⊆ (List.range L.base.numPts).map (fun i => D.getD i L.prob.lb) ++ _
    rw [map_getD_range hD]
    exact List.subset_append_left _ _
  rw [hps]
  intro x hx
  have hx := hsub hx
  rcases Nat.eq_zero_or_pos k with rfl | hk
  · cases hch
    have e := hw.base.queue
    rw [hq, List.nil_append] at e
    rw [e] at hx
    exact List.mem_append_right _ (List.mem_reverse.mp hx)
  · obtain ⟨b', z', ps', h1, h2⟩ := hch.before 0 hk
    cases h1
    exact List.mem_append_left _ (h2.subset (by simpa using hx))

/-- States of the program with the surrogate object `K` in which nothing is rejected, killed or lost: the design `D`, then
proposals, acceptances and completions with the values of `f` in any order.  `rs n` are the random outcomes of a proposal after `n`
others.  `Q` is a condition on the states in which a proposal is asked for and the draws. -/
inductive SopSyncObj (Q : SopSys d → SopRnd d → Prop) (L : SopSetup d) (K : Obj d) (f : Pt d → Val) (D : List (Pt d)) (rs : ℕ → SopRnd d) :
    SopObjSys d → Prop
  | create : SopSyncObj Q L K f D rs (sopObjCreate L D)
  | ask {W W' : SopObjSys d} : SopSyncObj Q L K f D rs W → Q W.sop (rs (proposals W.sop.sys.st.log).length) →
      sopObjStep L K f W (.propose (rs (proposals W.sop.sys.st.log).length)) = some W' → SopSyncObj Q L K f D rs W'
  | accept {W W' : SopObjSys d} (i : ℕ) : SopSyncObj Q L K f D rs W → sopObjStep L K f W (.accept i) = some W' →
      SopSyncObj Q L K f D rs W'
  | complete {W W' : SopObjSys d} (i : ℕ) : SopSyncObj Q L K f D rs W → sopObjStep L K f W (.complete i) = some W' →
      SopSyncObj Q L K f D rs W'

theorem SopSyncObj.reach {Q : SopSys d → SopRnd d → Prop} {W : SopObjSys d} (h : SopSyncObj Q L K f D rs W) : Sop.Reach L.cfg W.sop := by
  have step : ∀ {W W' : SopObjSys d} {e : SEv d}, Sop.Reach L.cfg W.sop → sopObjStep L K f W e = some W' →
      Sop.Reach L.cfg W'.sop := by
    intro W W' e hr hs
    simp only [sopObjStep, Option.map_eq_some_iff] at hs
    obtain ⟨w', hw, rfl⟩ := hs
    cases e with
    | propose r =>
      simp only [sopLoopStep, Option.bind_eq_some_iff] at hw
      obtain ⟨pts, _, hw⟩ := hw
      exact .step _ hr hw
    | complete i =>
      simp only [sopLoopStep, Option.bind_eq_some_iff] at hw
      obtain ⟨r, _, hw⟩ := hw
      exact .step _ hr hw
    | resume =>
      simp only [sopLoopStep, Option.some.injEq] at hw
      rw [← hw]; exact .resume hr
    | accept i => exact .step (.accept i) hr hw
    | reject i => exact .step (.reject i) hr hw
    | abort i => exact .step (.abort i) hr hw
    | update i => exact .step (.update i) hr hw
  induction h with
  | create => exact .create _
  | ask _ _ hs ih => exact step ih hs
  | accept i _ hs ih => exact step ih hs
  | complete i _ hs ih => exact step ih hs

/-- The object has the data of the strategy. -/
theorem SopSyncObj.data (hp : L.base.srbf = none) {Q : SopSys d → SopRnd d → Prop} {W : SopObjSys d} (h : SopSyncObj Q L K f D rs W) :
    NoMultiColumn W.calls ∧ dataOf d W.calls = surrData W.sop.sys.st := by
  induction h with
  | create =>
    refine ⟨cols_append (a := [.reset]) (by intro xx fx h; simp at h) (cols_known _), ?_⟩
    have := dataOf_known ([.reset] : List (Surrogate.Op d)) (knownExtras L.base)
    simp only [List.singleton_append] at this
    simp only [sopObjCreate, this]
    simp [SopSys.create, Sys.create, create_eq, SopSetup.cfg, dataOf, surrData]
  | @ask W W' h hq hs ih =>
    have hcv := h.reach.inv hp
    simp only [sopObjStep, Option.map_eq_some_iff] at hs
    obtain ⟨w', hw, rfl⟩ := hs
    simp only [sopLoopStep, Option.bind_eq_some_iff] at hw
    obtain ⟨pts, _, hst⟩ := hw
    have key : w'.sys.st.surr = W.sop.sys.st.surr := by
      cases step_propose (c := L.cfg) hp hcv.conv hst with
      | term ht => simp only [termState]; split_ifs <;> rfl
      | queue x q hq hg => rfl
      | gen x q z hpts hq hg ha hz => rfl
      | genNone z hn hq hg ha hz => rfl
      | wait hq hg ha hp => rfl
    have e : surrData w'.sys.st = surrData W.sop.sys.st := by unfold surrData; rw [key]
    rw [e]
    unfold sopCallsOf
    simp only
    split_ifs
    · exact ⟨cols_append ih.1 (by intro xx fx h; simp at h), by rw [dataOf_predict]; exact ih.2⟩
    · rw [List.append_nil]; exact ih
  | @accept W W' i h hs ih =>
    simp only [sopObjStep, Option.map_eq_some_iff] at hs
    obtain ⟨w', hw, rfl⟩ := hs
    obtain ⟨_, h3⟩ := step_other (c := L.cfg) (op := .accept i) hw (by simp) (by simp)
    have e : surrData w'.sys.st = surrData W.sop.sys.st := by
      simp only [Sys.step] at h3
      split at h3
      · cases h3
      · simp only [Option.some.injEq] at h3
        rw [← h3]; rfl
    show NoMultiColumn (W.calls ++ []) ∧ dataOf d (W.calls ++ []) = _
    rw [List.append_nil, e]; exact ih
  | @complete W W' i h hs ih =>
    have hre := h.reach
    have hcv := hre.inv hp
    simp only [sopObjStep, Option.map_eq_some_iff] at hs
    obtain ⟨w', hw, rfl⟩ := hs
    simp only [sopLoopStep, Option.bind_eq_some_iff] at hw
    obtain ⟨r, hrec, hst⟩ := hw
    obtain ⟨r', hr', hs', _⟩ := step_complete (c := L.cfg) hp hst
    rw [hrec] at hr'
    cases hr'
    have hid : W.sop.sys.st.evLast < r.evId := by
      rw [hcv.evLast]
      have hi := hre.base.ids
      have := hi.idsNe _ (hi.recMem r (List.mem_of_getElem? hrec))
      rw [hcv.evLast] at this
      omega
    have hc : sopCallsOf L f W.sop (.complete i) = [addCall r.x (f r.x)] := by
      simp only [sopCallsOf, hrec, if_pos hid]
    rw [hc]
    refine ⟨cols_append ih.1 (cols_add [(r.x, f r.x)]), ?_⟩
    rw [dataOf_addCall, ih.2, hs', recordCompleted_eq]
    simp only [surrData, State.note, gt_iff_lt, if_pos hid, List.map_append, List.map_cons, List.map_nil]

/-- The data of the surrogate: the known points, then the completed evaluations. -/
theorem SopSyncObj.surr (hp : L.base.srbf = none) {Q : SopSys d → SopRnd d → Prop} {W : SopObjSys d} (h : SopSyncObj Q L K f D rs W) :
    W.sop.sys.st.surr = knownExtras L.base ++ completions W.sop.sys.st.log := by
  induction h with
  | create => simp [sopObjCreate, SopSys.create, Sys.create, create_eq, completions, SopSetup.cfg]
  | @ask W W' h hq hs ih =>
    have hcv := h.reach.inv hp
    simp only [sopObjStep, Option.map_eq_some_iff] at hs
    obtain ⟨w', hw, rfl⟩ := hs
    simp only [sopLoopStep, Option.bind_eq_some_iff] at hw
    obtain ⟨pts, _, hst⟩ := hw
    have key : w'.sys.st.surr = W.sop.sys.st.surr ∧ completions w'.sys.st.log = completions W.sop.sys.st.log := by
      cases step_propose (c := L.cfg) hp hcv.conv hst with
      | term ht => simp only [termState]; split_ifs <;> simp [State.note, completions]
      | queue x q hq hg => simp [proposeLast, State.note, State.makeProposal, completions]
      | gen x q z hpts hq hg ha hz => simp [proposeLast, genState, State.note, State.makeProposal, completions]
      | genNone z hn hq hg ha hz => simp [genState, State.note, completions]
      | wait hq hg ha hp => exact ⟨rfl, rfl⟩
    show w'.sys.st.surr = _ ++ completions w'.sys.st.log
    rw [key.1, key.2, ih]
  | @accept W W' i h hs ih =>
    simp only [sopObjStep, Option.map_eq_some_iff] at hs
    obtain ⟨w', hw, rfl⟩ := hs
    obtain ⟨_, h3⟩ := step_other (c := L.cfg) (op := .accept i) hw (by simp) (by simp)
    have e : w'.sys.st.surr = W.sop.sys.st.surr := by
      simp only [Sys.step] at h3
      split at h3
      · cases h3
      · simp only [Option.some.injEq] at h3
        rw [← h3]; rfl
    show w'.sys.st.surr = _ ++ completions w'.sys.st.log
    rw [e, ih, (other_keeps h3 (by simp) (by simp)).1]
  | @complete W W' i h hs ih =>
    have hre := h.reach
    have hcv := hre.inv hp
    simp only [sopObjStep, Option.map_eq_some_iff] at hs
    obtain ⟨w', hw, rfl⟩ := hs
    simp only [sopLoopStep, Option.bind_eq_some_iff] at hw
    obtain ⟨r, hrec, hst⟩ := hw
    obtain ⟨r', hr', hs', _⟩ := step_complete (c := L.cfg) hp hst
    rw [hrec] at hr'
    cases hr'
    have hid : W.sop.sys.st.evLast < r.evId := by
      rw [hcv.evLast]
      have hi := hre.base.ids
      have := hi.idsNe _ (hi.recMem r (List.mem_of_getElem? hrec))
      rw [hcv.evLast] at this
      omega
    show w'.sys.st.surr = _ ++ completions w'.sys.st.log
    rw [hs', recordCompleted_eq]
    simp only [State.note, gt_iff_lt, if_pos hid, Strategy.completions_append, ih, List.append_assoc]
    simp [completions]

/-- Whatever the object: it may be replaced by a new one that gets the data, and it never predicted from `Bad` data. -/
theorem SopSyncObj.run (hs : Sane L.base) (hp : L.base.srbf = none) (ha : L.base.asynchronous = false) (hK : Steady Bad K)
    (hD : D.length = L.base.numPts) (hB : ¬ Bad D) {W : SopObjSys d} (h : SopSyncObj (fun w _ => NoEqualValues L w) L K f D rs W) :
    SopSyncRun (fun w _ => NoEqualValues L w) L (freshSurr Bad K) f D rs W.sop ∧ ¬ Failed Bad W.calls := by
  have hbs : 0 < L.base.batchSize := by
    rcases hs.batch with h | h
    · rw [ha] at h; cases h
    · exact h
  induction h with
  | create =>
    refine ⟨.create, ?_⟩
    rintro ⟨o₁, x, o₂, he, _⟩
    have : Surrogate.Op.predict x ∈ (sopObjCreate L D).calls := by rw [he]; simp
    simp [sopObjCreate, addKnown] at this
  | @ask W W' h hq hstep ih =>
    obtain ⟨ih1, ih2⟩ := ih
    obtain ⟨hcol, hdat⟩ := h.data hp
    have good : wantsPoints L.base W.sop.sys.st → dataOf d W.calls ≠ [] ∧ ¬ Bad ((dataOf d W.calls).map Prod.fst) := by
      intro hw
      have hi : W.sop.sys.inflight = [] := (pending_zero h.reach).mp (by
        rcases hw.2.2.2.2 with h | h
        · rw [ha] at h; cases h
        · exact h)
      have hDs := sopSync_design hp ha hs.design hbs (fun _ _ h => h) ih1 hw.2.2.2.1 hD
      have hdone := sopSync_done hp ha hs.design hbs (fun _ _ h => h) ih1 hi
      have hsub : D ⊆ (dataOf d W.calls).map Prod.fst := by
        intro x hx
        rw [hdat, surrData, h.surr hp]
        have : (x, f x) ∈ completions W.sop.sys.st.log := hdone.mem_iff.mpr (List.mem_map.mpr ⟨x, hDs hx, rfl⟩)
        refine List.mem_map.mpr ⟨(x, ((f x : ℚ) : ℝ)), List.mem_map.mpr ⟨(x, f x), List.mem_append_right _ this, rfl⟩, rfl⟩
      refine ⟨fun h0 => ?_, fun hb => hB (Hereditary.mono hsub hb)⟩
      rw [h0] at hsub
      have := List.subset_nil.mp hsub
      have := hs.design
      simp_all
    simp only [sopObjStep, Option.map_eq_some_iff] at hstep
    obtain ⟨w', hw', rfl⟩ := hstep
    refine ⟨.ask (K W.calls) ih1 hq (fun hw => ?_) hw', ?_⟩
    · obtain ⟨hne, hnb⟩ := good hw
      have key := hK W.calls (scratch (dataOf d W.calls)) (surrData W.sop.sys.st) (surrData W.sop.sys.st) hcol (scratch_ok _)
        (by rw [scratch_data]) hne hnb ih2 (scratch_notFailed _)
      rw [hdat] at key hne hnb
      simp only [freshSurr]
      rw [if_pos ⟨hne, hnb⟩]
      exact key.1
    · unfold sopCallsOf
      simp only
      split_ifs with hw
      · intro hf
        obtain ⟨_, hf | ⟨_, _, _, hf⟩⟩ := failed_snoc hf
        · exact ih2 hf
        · exact (good hw.1).2 hf
      · rw [List.append_nil]; exact ih2
  | @accept W W' i h hstep ih =>
    simp only [sopObjStep, Option.map_eq_some_iff] at hstep
    obtain ⟨w', hw', rfl⟩ := hstep
    refine ⟨.accept i ih.1 hw', ?_⟩
    show ¬ Failed Bad (W.calls ++ [])
    rw [List.append_nil]; exact ih.2
  | @complete W W' i h hstep ih =>
    simp only [sopObjStep, Option.map_eq_some_iff] at hstep
    obtain ⟨w', hw', rfl⟩ := hstep
    refine ⟨.complete i ih.1 hw', ?_⟩
    intro hf
    refine ih.2 (failed_append hf fun x hx => ?_).2
    simp only [sopCallsOf] at hx
    split at hx
    · split_ifs at hx <;> simp [addCall] at hx
    · simp at hx

/-- What is asked for in the states in which points are generated: the values found so far are pairwise different. -/
def Unequal (L : SopSetup d) (w : SopSys d) (_ : SopRnd d) : Prop := NoEqualValues L w

theorem sane_batch (hs : Sane L.base) (ha : L.base.asynchronous = false) : 0 < L.base.batchSize := by
  rcases hs.batch with h | h
  · rw [ha] at h; cases h
  · exact h

/-- **C142.**  SOP in synchronous mode: the proposed points, one after the other, do not depend on the workers.  Of two runs with the
same initial design, the same random outcomes and the same objective function, in which nothing is rejected or lost, one is the
beginning of the other, whatever the orders in which evaluations are accepted and completed; provided that the values of the
evaluations are pairwise different whenever points are generated (otherwise it is false: `C142_ties_refuted`).  The predictions of the
surrogate depend only on the set of its data. -/
theorem C142_order_partial (hs : Sane L.base) (hp : L.base.srbf = none) (ha : L.base.asynchronous = false) (hK : Steady Bad K)
    (hD : D.length = L.base.numPts) (hB : ¬ Bad D) {W W' : SopObjSys d} (h : SopSyncObj (Unequal L) L K f D rs W)
    (h' : SopSyncObj (Unequal L) L K f D rs W') :
    proposals W.sop.sys.st.log <+: proposals W'.sop.sys.st.log ∨ proposals W'.sop.sys.st.log <+: proposals W.sop.sys.st.log :=
  sopSyncRun_prefix (freshSurr_orderFree hK) hp ha hs.design (sane_batch hs ha) (fun _ _ h => h) (h.run hs hp ha hK hD hB).1
    (h'.run hs hp ha hK hD hB).1

/-- The same for what was found: if both runs have evaluated equally many points and nothing is running, the same evaluations were
made, in possibly different order. -/
theorem C142_results_partial (hs : Sane L.base) (hp : L.base.srbf = none) (ha : L.base.asynchronous = false) (hK : Steady Bad K)
    (hD : D.length = L.base.numPts) (hB : ¬ Bad D) {W W' : SopObjSys d} (h : SopSyncObj (Unequal L) L K f D rs W)
    (h' : SopSyncObj (Unequal L) L K f D rs W') (hi : W.sop.sys.inflight = []) (hi' : W'.sop.sys.inflight = [])
    (hn : (completions W.sop.sys.st.log).length = (completions W'.sop.sys.st.log).length) :
    (completions W.sop.sys.st.log).Perm (completions W'.sop.sys.st.log) := by
  have p := sopSync_done hp ha hs.design (sane_batch hs ha) (fun _ _ h => h) (h.run hs hp ha hK hD hB).1 hi
  have p' := sopSync_done hp ha hs.design (sane_batch hs ha) (fun _ _ h => h) (h'.run hs hp ha hK hD hB).1 hi'
  have hlen : (proposals W.sop.sys.st.log).length = (proposals W'.sop.sys.st.log).length := by
    have := p.length_eq
    have := p'.length_eq
    simp only [List.length_map] at *
    omega
  have heq : proposals W.sop.sys.st.log = proposals W'.sop.sys.st.log := by
    rcases C142_order_partial hs hp ha hK hD hB h h' with h | h
    · exact h.eq_of_length hlen
    · exact (h.eq_of_length hlen.symm).symm
  rw [heq] at p
  exact p.trans p'.symm

/-- SOP with the default RBF interpolant. -/
theorem C142_rbf_partial {eta : ℝ} {trans : List ℝ → List ℝ} {lu : ℕ → Surrogate.Mat → Surrogate.LuOut}
    {chol : ℕ → Surrogate.Mat → Option Surrogate.Mat} (ok : ProbOk L.prob) (hs : Sane L.base) (hp : L.base.srbf = none)
    (ha : L.base.asynchronous = false) (heta : 0 < eta) (htr : OrderFree trans) (hlu : Surrogate.LuSpec lu) (hchol : Surrogate.CholSpec chol)
    (hD : D.length = L.base.numPts) (hB : ¬ OnHyperplane D) {W W' : SopObjSys d}
    (h : SopSyncObj (Unequal L) L (rbfObj (defaultPar L.prob eta trans lu chol)) f D rs W)
    (h' : SopSyncObj (Unequal L) L (rbfObj (defaultPar L.prob eta trans lu chol)) f D rs W') :
    (proposals W.sop.sys.st.log <+: proposals W'.sop.sys.st.log ∨ proposals W'.sop.sys.st.log <+: proposals W.sop.sys.st.log) ∧
    (W.sop.sys.inflight = [] → W'.sop.sys.inflight = [] → (completions W.sop.sys.st.log).length = (completions W'.sop.sys.st.log).length →
      (completions W.sop.sys.st.log).Perm (completions W'.sop.sys.st.log)) := by
  have hst := rbf_steady _ _ ok.lt eta heta trans htr lu chol hlu hchol
  exact ⟨C142_order_partial hs hp ha hst hD hB h h', fun hi hi' hn => C142_results_partial hs hp ha hst hD hB h h' hi hi' hn⟩

/-- SOP with the Gaussian process. -/
theorem C142_gp_partial {trans : List ℝ → List ℝ} {hyp : List (List (Pt d) × List ℝ) → Surrogate.Hyper d} (hs : Sane L.base)
    (hp : L.base.srbf = none) (ha : L.base.asynchronous = false) (hh : OrderFreeHyp hyp) (htr : OrderFree trans)
    (hD : D.length = L.base.numPts) {W W' : SopObjSys d}
    (h : SopSyncObj (Unequal L) L (gpObj L.prob.lb L.prob.ub trans hyp) f D rs W)
    (h' : SopSyncObj (Unequal L) L (gpObj L.prob.lb L.prob.ub trans hyp) f D rs W') :
    (proposals W.sop.sys.st.log <+: proposals W'.sop.sys.st.log ∨ proposals W'.sop.sys.st.log <+: proposals W.sop.sys.st.log) ∧
    (W.sop.sys.inflight = [] → W'.sop.sys.inflight = [] → (completions W.sop.sys.st.log).length = (completions W'.sop.sys.st.log).length →
      (completions W.sop.sys.st.log).Perm (completions W'.sop.sys.st.log)) := by
  have hst := gp_steady (lb := L.prob.lb) (ub := L.prob.ub) htr hh
  have hB : ¬ (fun P : List (Pt d) => P = []) D := by
    intro h0
    have h0 : D = [] := h0
    have := hs.design
    rw [← hD, h0] at this
    simp at this
  exact ⟨C142_order_partial hs hp ha hst hD hB h h', fun hi hi' hn => C142_results_partial hs hp ha hst hD hB h h' hi hi' hn⟩

end Verif.Props
