import Verif.Sop.Early
import Verif.Sop.Witness
import Verif.Props.Strategy

/-! # SOP with idle workers during the initial phase (C93) -/

namespace Verif.Props

open Verif.Num Verif.Utils Verif.Strategy Verif.Sop Verif.Spec

variable {d : ℕ} {c : Cfg d}

/-- The first time that new points have to be generated (the queue is empty, the budget is not used up, and the run is
asynchronous or nothing is running), `propose_action` succeeds if and only if two points at different places of the box have
been evaluated; the candidate search does not matter. -/
theorem C93_first_partial (hs : c.base.srbf = none) (hb : 0 < genCount c.base) (hk : genCount c.base ≤ c.ncenters)
    (hm : c.base.maxEvals ≠ c.base.numPts) {w : SopSys d} (h : Sop.Reach c w) (hn : generatedPts w.sys.st.log = [])
    (hq : w.sys.st.batchQueue = []) (hg : Going c.base w.sys.st)
    (ha : c.base.asynchronous = true ∨ w.sys.st.pendingEvals = 0) (o : Oracle (Pt d)) :
    (∃ w', w.step c (.propose o) = some w') ↔
      ∃ p ∈ completions w.sys.st.log, ∃ q ∈ completions w.sys.st.log,
        toUnitBox p.1 c.lb c.ub ≠ toUnitBox q.1 c.lb c.ub := first_generation hs hb hk hm h hn hq hg ha o

/-- The states of the theorem are reached, with either outcome: the run with both design points evaluated. -/
example : ∃ w : SopSys 1, Sop.Reach (wcfg true 1 1) w ∧ generatedPts w.sys.st.log = [] ∧ w.sys.st.batchQueue = [] ∧
    Going (wcfg true 1 1).base w.sys.st ∧ ∃ w', w.step (wcfg true 1 1) (.propose (worc (pt 0.5))) = some w' := by
  obtain ⟨w, hc, hsop, hq, _, _, hp, hn, ht, _, hgen, _⟩ := warm true 1 1
  have hg : Going (wcfg true 1 1).base w.sys.st := ⟨ht, by rw [hp, hn]; simp [wcfg]⟩
  refine ⟨w, hc.reach, hgen, hq, hg, (C93_first_partial rfl (by simp [genCount, wcfg]) (by simp [genCount, wcfg])
    (by simp [wcfg]) hc.reach hgen hq hg (Or.inl rfl) _).mpr ?_⟩
  rw [← (hc.reach.inv rfl).arch, hsop]
  refine ⟨(pt 0, 0), by simp [archive, SopRec.new], (pt 1, 1), by simp [archive, SopRec.new], ?_⟩
  rw [unit_pt, unit_pt]
  intro he
  have := congrFun he 0
  simp [pt] at this

/-- If the points handed out so far lie at different places of the box, none was given up or lost in a crash, and at least two
fewer are running than were handed out, then the first generation succeeds: a design of `n` points and at most `n - 2` workers
are safe. -/
theorem C93_workers_partial (hs : c.base.srbf = none) (hb : 0 < genCount c.base) (hk : genCount c.base ≤ c.ncenters)
    (hm : c.base.maxEvals ≠ c.base.numPts) {w : SopSys d} (h : Sop.Reach c w) (hn : generatedPts w.sys.st.log = [])
    (hq : w.sys.st.batchQueue = []) (hg : Going c.base w.sys.st)
    (ha : c.base.asynchronous = true ∨ w.sys.st.pendingEvals = 0)
    (hd : droppedBy c.base.asynchronous w.sys.st.log = []) (hc : crashedBy w.sys.st.log = [])
    (hdist : ((queuedBy w.sys.st.log).map fun x => toUnitBox x c.lb c.ub).Nodup)
    (hw : w.sys.inflight.length + 2 ≤ (queuedBy w.sys.st.log).length) (o : Oracle (Pt d)) :
    ∃ w', w.step c (.propose o) = some w' := by
  refine (C93_first_partial hs hb hk hm h hn hq hg ha o).mpr ?_
  have hp := C06_conservation h.base
  rw [hq, hd, hc, List.nil_append, List.append_nil, List.append_nil] at hp
  have hl := hp.length_eq
  simp only [List.length_append, List.length_map] at hl
  have hnd := (hp.map fun x => toUnitBox x c.lb c.ub).nodup_iff.mp hdist
  rw [List.map_append, List.map_map] at hnd
  have hnd2 := (List.nodup_append.mp hnd).2.1
  rcases hcs : completions w.sys.st.log with _ | ⟨p, _ | ⟨q, rest⟩⟩
  · rw [hcs] at hl; simp at hl; omega
  · rw [hcs] at hl; simp at hl; omega
  · rw [hcs] at hnd2
    refine ⟨p, by simp, q, by simp, fun he => ?_⟩
    simp only [List.map_cons, Function.comp, List.nodup_cons, List.mem_cons, not_or] at hnd2
    exact hnd2.1.1 he

/-- Both points of a design of two are evaluated, nothing is running. -/
example : ∃ w : SopSys 1, ∃ w', w.step (wcfg true 1 1) (.propose (worc (pt 0.5))) = some w' := by
  have c0 : Sop.Reach (wcfg true 1 1) _ := Sop.Reach.create (worc (pt 0))
  have c1 := c0.step (.propose (worc (pt 0))) rfl
  have c2 := c1.step (.propose (worc (pt 0))) rfl
  have c3 := c2.step (.accept 0) rfl
  have c4 := c3.step (.accept 0) rfl
  have c5 := c4.step (.complete 1 0) rfl
  have c6 := c5.step (.complete 0 1) rfl
  refine ⟨_, C93_workers_partial rfl (by simp [genCount, wcfg]) (by simp [genCount, wcfg]) (by simp [wcfg]) c6 rfl rfl
    ⟨rfl, by decide⟩ (Or.inl rfl) rfl rfl ?_ (Nat.le_refl 2) (worc (pt 0.5))⟩
  change [toUnitBox (pt 0) _ _, toUnitBox (pt 1) _ _].Nodup
  rw [unit_pt, unit_pt]
  simp only [List.nodup_cons, List.mem_singleton, List.not_mem_nil, not_false_eq_true, List.nodup_nil, and_self, and_true]
  intro he
  have := congrFun he 0
  simp [pt] at this

/-- Otherwise the strategy raises an exception instead of giving the idle worker a point: if at most one point has been
evaluated, every call of `propose_action` that finds the queue empty fails, whatever the candidate search would return. -/
theorem C93_few_refuted (hs : c.base.srbf = none) (hb : 0 < genCount c.base) (hk : genCount c.base ≤ c.ncenters)
    (hm : c.base.maxEvals ≠ c.base.numPts) {w : SopSys d} (h : Sop.Reach c w) (hn : generatedPts w.sys.st.log = [])
    (hq : w.sys.st.batchQueue = []) (hg : Going c.base w.sys.st)
    (ha : c.base.asynchronous = true ∨ w.sys.st.pendingEvals = 0)
    (hw : (queuedBy w.sys.st.log).length ≤ w.sys.inflight.length + 1) (o : Oracle (Pt d)) :
    w.step c (.propose o) = none := by
  rw [← Option.not_isSome_iff_eq_none, Option.isSome_iff_exists,
    C93_first_partial hs hb hk hm h hn hq hg ha o]
  rintro ⟨p, hp, q, hq', hne⟩
  have hl := (C06_conservation h.base).length_eq
  simp only [hq, List.length_append, List.length_map, List.length_nil] at hl
  have h1 : (completions w.sys.st.log).length ≤ 1 := by omega
  rcases hcs : completions w.sys.st.log with _ | ⟨a, _ | ⟨b, rest⟩⟩
  · rw [hcs] at hp; simp at hp
  · rw [hcs] at hp hq'
    simp only [List.mem_singleton] at hp hq'
    rw [hp, hq'] at hne
    exact hne rfl
  · rw [hcs] at h1; simp at h1

/-- Such a run: a design of two points, three workers.  Two workers evaluate the design, the third asks for a point. -/
theorem C93_refuted : ∃ w : SopSys 1, Sop.Reach (wcfg true 1 4) w ∧ w.sys.inflight.length = 2 ∧
    w.sys.st.log = [.start [pt 0, pt 1], .proposed (pt 1) .init, .accepted (pt 1) .init 1, .proposed (pt 0) .init,
      .accepted (pt 0) .init 2] ∧ Going (wcfg true 1 4).base w.sys.st ∧
    ∀ o, w.step (wcfg true 1 4) (.propose o) = none := by
  have c0 : Sop.Reach (wcfg true 1 4) _ := Sop.Reach.create (worc (pt 0))
  have c1 := c0.step (.propose (worc (pt 0))) rfl
  have c2 := c1.step (.accept 0) rfl
  have c3 := c2.step (.propose (worc (pt 0))) rfl
  have c4 := c3.step (.accept 0) rfl
  refine ⟨_, c4, rfl, rfl, ⟨rfl, by decide⟩, fun o => ?_⟩
  exact C93_few_refuted rfl (by simp [genCount, wcfg]) (by simp [genCount, wcfg]) (by simp [wcfg]) c4 rfl rfl
    ⟨rfl, by decide⟩ (Or.inl rfl) (by exact Nat.le_refl 2 |>.trans (by decide)) o

/-- Also a synchronous run raises if the evaluated points coincide in the unit box, as for a design of a single point. -/
theorem C93_single_refuted (hs : c.base.srbf = none) (hb : 0 < genCount c.base) (hk : genCount c.base ≤ c.ncenters)
    (hm : c.base.maxEvals ≠ c.base.numPts) {w : SopSys d} (h : Sop.Reach c w) (hn : generatedPts w.sys.st.log = [])
    (hq : w.sys.st.batchQueue = []) (hg : Going c.base w.sys.st)
    (ha : c.base.asynchronous = true ∨ w.sys.st.pendingEvals = 0)
    (hsame : ∃ x, ∀ p ∈ completions w.sys.st.log, p.1 = x) (o : Oracle (Pt d)) : w.step c (.propose o) = none := by
  rw [← Option.not_isSome_iff_eq_none, Option.isSome_iff_exists,
    C93_first_partial hs hb hk hm h hn hq hg ha o]
  obtain ⟨x, hx⟩ := hsame
  rintro ⟨p, hp, q, hq', hne⟩
  rw [hx p hp, hx q hq'] at hne
  exact hne rfl

/-- A synchronous run with a design of one point, which is evaluated. -/
example : ∃ w : SopSys 1, ∀ o, w.step { wcfg false 1 1 with base := { (wcfg false 1 1).base with numPts := 1 } } (.propose o) = none := by
  have c0 : Sop.Reach { wcfg false 1 1 with base := { (wcfg false 1 1).base with numPts := 1 } } _ := Sop.Reach.create (worc (pt 0))
  have c1 := c0.step (.propose (worc (pt 0))) rfl
  have c2 := c1.step (.accept 0) rfl
  have c3 := c2.step (.complete 0 5) rfl
  exact ⟨_, C93_single_refuted rfl (by simp [genCount, wcfg]) (by simp [genCount, wcfg]) (by simp [wcfg]) c3 rfl rfl
    ⟨rfl, by decide⟩ (Or.inr rfl) ⟨pt 0, by intro p hp; have : p ∈ [(pt 0, (5 : Val))] := hp; simp at this; rw [this]⟩⟩

end Verif.Props
