import Verif.Sop.Fresh

/-! # Runs of SOP that end in an exception (C56), and failures that are not in a row (C54) -/

set_option linter.unusedSectionVars false

namespace Verif.Sop

open Verif.Num Verif.Utils Verif.Strategy Verif.Spec
open List (Perm Sublist)

variable {d : ℕ} {c : Cfg d}

/-- Asynchronous: when `ncenters` more points were generated than adaptive evaluations completed, the next generation raises. -/
theorem async_exhausted (hs : c.base.srbf = none) (ha : c.base.asynchronous = true) {w : SopSys d} (h : Reach c w)
    (hq : w.sys.st.batchQueue = []) (hg : Going c.base w.sys.st)
    (hlost : adaptDone w.sys.st.log + c.ncenters ≤ (generatedPts w.sys.st.log).length) (o : Oracle (Pt d)) :
    w.step c (.propose o) = none := by
  have hg1 : genCount c.base = 1 := by unfold genCount; rw [if_pos ha]
  rw [step_propose_gen hs w (h.inv hs).conv o hg hq (Or.inl ha) (o.pts 0) [] (by rw [hg1]; rfl)]
  have hle := h.generated_le hs
  rw [generate_none (h.cinv hs) (by simp only [List.nil_append, List.length_singleton]; omega)]
  rfl

/-- The completion of an adaptive evaluation raises if the memory is updated and a center has no evaluated point. -/
theorem complete_raises (hs : c.base.srbf = none) {w : SopSys d} (h : Reach c w) (ha : c.base.asynchronous = false) {i : ℕ}
    {r : Rec (Pt d)} (hr : w.sys.recs[i]? = some r) (hk : r.kind = .adapt) (hq : w.sys.st.batchQueue = [])
    (hp : w.sys.st.pendingEvals = 1) (hn : (newPts w.sop.centers).length < c.ncenters) (v : Val) :
    w.step c (.complete i v) = none := by
  cases hst : w.step c (.complete i v) with
  | none => rfl
  | some w' =>
    exfalso
    have hev := ((h.step _ hst).inv hs).evLast
    have hci := (h.step _ hst).cinv hs
    obtain ⟨r', hr', hsys, hsop⟩ := step_complete hs hst
    rw [hr] at hr'
    simp only [Option.some.injEq] at hr'
    subst hr'
    rw [hk] at hsop
    simp only at hsop
    obtain ⟨hnum, hq', _, _, _, hp'⟩ := evals_completed h hs hr hsys
    rcases onAdaptCompleted_spec hev hsop with ⟨hb, _⟩ | ⟨_, _, _, h3⟩ | ⟨_, hb, _⟩
    · rw [ha] at hb; simp at hb
    · have hnew : newPts (markCenter w.sop.centers r.x (w'.sys.st.numEvals.toNat - 1)).1 = newPts w.sop.centers := mark_new _ _ _
      -- a position without new point
      have : ∃ j < c.ncenters, ∀ ce, (markCenter w.sop.centers r.x (w'.sys.st.numEvals.toNat - 1)).1[j]? = some ce → ce.newIndex = none := by
        by_contra hcon
        push Not at hcon
        have hl : c.ncenters ≤ (markCenter w.sop.centers r.x (w'.sys.st.numEvals.toNat - 1)).1.length := by
          rcases Nat.eq_zero_or_pos c.ncenters with h0 | h0
          · omega
          · obtain ⟨ce, hce, _⟩ := hcon (c.ncenters - 1) (by omega)
            have := (List.getElem?_eq_some_iff.mp hce).1
            omega
        have hfin : ∀ ce ∈ (markCenter w.sop.centers r.x (w'.sys.st.numEvals.toNat - 1)).1, ce.newPoint ≠ none := by
          obtain ⟨_, _, _, _, _, _, hcen, _⟩ := adjustMemory_spec h3
          simp only at hcen
          rw [← hcen] at hcon hl ⊢
          have hlen : w'.sop.centers.length = c.ncenters := by
            rcases hci.len with h0 | h0
            · rw [h0] at hl ⊢; simp at hl; simp [hl]
            · exact h0
          intro ce hce
          obtain ⟨j, hj⟩ := List.mem_iff_getElem?.mp hce
          obtain ⟨ce', hce', hni⟩ := hcon j (by rw [← hlen]; exact (List.getElem?_eq_some_iff.mp hj).1)
          rw [hj] at hce'
          simp only [Option.some.injEq] at hce'
          subst hce'
          obtain ⟨ni, hni⟩ := Option.ne_none_iff_exists'.mp hni
          obtain ⟨x, _, hx, _⟩ := hci.new ce hce ni hni
          rw [hx]; simp
        have hall : (newPts (markCenter w.sop.centers r.x (w'.sys.st.numEvals.toNat - 1)).1).length =
            (markCenter w.sop.centers r.x (w'.sys.st.numEvals.toNat - 1)).1.length := by
          unfold newPts
          rw [List.filterMap_length_eq_length]
          intro ce hce
          exact Option.isSome_iff_ne_none.mpr (hfin ce hce)
        rw [hnew] at hall
        omega
      obtain ⟨j, hj, hnone⟩ := this
      rw [adjustMemory_none (i := j) (by simp [processed, hj]) hnone] at h3
      simp at h3
    · exact hb ⟨by rw [hq']; exact hq, by rw [hp', hp]; rfl⟩

/-! ## Concrete runs -/

/-- The first generation, one point. -/
theorem warm_gen (async : Bool) (k : ℕ) (hk : 0 < k) (x : Pt 1) : ∃ w w1 : SopSys 1, Reach (wcfg async 1 k) w ∧
    w.step (wcfg async 1 k) (.propose (worc x)) = some w1 ∧ w1.sys.props = [{ x := x, kind := .adapt }] ∧ w1.sys.recs = [] ∧
    w1.sys.st.batchQueue = [] ∧ w1.sys.st.pendingEvals = 1 ∧ w1.sys.st.numEvals = 2 ∧ w1.sys.st.terminate = false ∧
    generatedPts w1.sys.st.log = [x] ∧ adaptDone w1.sys.st.log = 0 := by
  obtain ⟨w, hc, hsop, hq, hp, hr, hpend, hnum, ht, hph, hgp, had⟩ := warm async 1 k
  have hrr := hc.reach
  have hs : (wcfg async 1 k).base.srbf = none := rfl
  have hg : Going (wcfg async 1 k).base w.sys.st := ⟨ht, by rw [hnum, hpend]; simp [wcfg]⟩
  have hg1 : genCount (wcfg async 1 k).base = 1 := by cases async <;> rfl
  have hstep := step_propose_gen hs w (hrr.inv hs).conv (worc x) hg hq (Or.inr hpend) x [] (by rw [hg1]; rfl)
  obtain ⟨z, hz⟩ := generate_isSome (c := wcfg async 1 k) (z := w.sop) (n := w.sys.st.numEvals.toNat) (pts := [] ++ [x]) (hrr.cinv hs)
    (by rw [hsop, hnum]; rfl)
    (by
      rw [hsop]
      refine ⟨SopRec.new (pt 0) 0, by simp, SopRec.new (pt 1) 1, by simp, ?_⟩
      simp only [SopRec.new, unit_pt]
      intro he
      have := congrFun he 0
      simp [pt] at this)
    (by rw [hsop]; simp) (by simp [wcfg]) (by rw [hsop]; simp [busyPts, wcfg]; omega)
  rw [hz] at hstep
  refine ⟨w, _, hrr, hstep, ?_, ?_, rfl, ?_, ?_, ?_, ?_, ?_⟩
  · simp [proposeLast, hp]
  · simp [proposeLast, hr]
  · simp [proposeLast, State.note, State.makeProposal, genState, hpend]
  · simp [proposeLast, State.note, State.makeProposal, genState, hnum]
  · simp [proposeLast, State.note, State.makeProposal, genState, ht]
  · simp only [proposeLast, State.note, State.makeProposal, genState, generatedPts_append, hgp]
    rfl
  · simp only [proposeLast, State.note, State.makeProposal, genState, adaptDone_append, had]
    rfl

/-- Asynchronous, one center: after a single rejected proposal no point can be generated any more. -/
theorem witness_reject : ∃ w1 w2 : SopSys 1, Reach (wcfg true 1 1) w1 ∧ w1.step (wcfg true 1 1) (.reject 0) = some w2 ∧
    Going (wcfg true 1 1).base w2.sys.st ∧ w2.sys.inflight = [] ∧
    ∀ o, w2.step (wcfg true 1 1) (.propose o) = none := by
  obtain ⟨w, w1, hr, h1, hp, hre, hq, hpend, hnum, ht, hgp, had⟩ := warm_gen true 1 (by norm_num) (pt 0.5)
  have hr1 := hr.step _ h1
  obtain ⟨w2, h2, hs2⟩ : ∃ w2, w1.step (wcfg true 1 1) (.reject 0) = some w2 ∧ w2.sys = { w1.sys with
      st := (w1.sys.st.note (.rejected (pt 0.5) .adapt)).onAdaptReject (wcfg true 1 1).base (pt 0.5)
      props := [] } := by
    unfold SopSys.step Sys.step
    simp [hp]
  have hr2 := hr1.step _ h2
  rw [onAdaptReject_eq] at hs2
  have hq2 : w2.sys.st.batchQueue = [] := by rw [hs2]; simp [State.note, hq, wcfg]
  have hg2 : Going (wcfg true 1 1).base w2.sys.st := by
    refine ⟨by rw [hs2]; exact ht, ?_⟩
    rw [hs2]
    simp [State.note, hnum, hpend, wcfg]
  refine ⟨w1, w2, hr1, h2, hg2, by rw [hs2]; simp [Sys.inflight, hre], ?_⟩
  refine async_exhausted rfl rfl hr2 hq2 hg2 ?_
  rw [hs2]
  simp only [State.note, adaptDone_append, generatedPts_append, hgp, had]
  simp [generatedPts, adaptDone, wcfg]

/-- Synchronous, batches of one point, two centers: the completion of the first adaptive evaluation raises. -/
theorem witness_batch : ∃ w2 : SopSys 1, Reach (wcfg false 1 2) w2 ∧ w2.sys.recs.length = 1 ∧
    ∀ v, w2.step (wcfg false 1 2) (.complete 0 v) = none := by
  obtain ⟨w, w1, hr, h1, hp, hre, hq, hpend, hnum, ht, hgp, had⟩ := warm_gen false 2 (by norm_num) (pt 0.5)
  have hr1 := hr.step _ h1
  have hacc : w1.step (wcfg false 1 2) (.accept 0) = some ⟨{
      st := (w1.sys.st.note (.accepted (pt 0.5) .adapt w1.sys.st.evNext)).onAccept
      props := w1.sys.props.eraseIdx 0
      recs := w1.sys.recs ++ [{ x := pt 0.5, kind := .adapt, evId := w1.sys.st.evNext, accAt := w1.sys.st.log.length }] }, w1.sop⟩ := by
    unfold SopSys.step Sys.step
    simp [hp]
  have hr2 := hr1.step _ hacc
  refine ⟨_, hr2, by simp [hre], ?_⟩
  intro v
  refine complete_raises rfl hr2 rfl (i := 0) (r := { x := pt 0.5, kind := .adapt, evId := w1.sys.st.evNext, accAt := w1.sys.st.log.length })
    (by simp [hre]) rfl hq hpend ?_ v
  have := hr1.newPts_le rfl
  rw [hgp] at this
  simp only [List.length_singleton] at this
  have h2 : (wcfg false 1 2).ncenters = 2 := rfl
  rw [h2]
  simp only
  omega

/-- Synchronous, one center: an initial evaluation that is aborted after the queue has run empty is repeated; its
completion raises. -/
theorem witness_abort : ∃ w : SopSys 1, Reach (wcfg false 1 1) w ∧ w.sys.recs.map Rec.x = [pt 0] ∧
    generatedPts w.sys.st.log = [] ∧ ∀ v, w.step (wcfg false 1 1) (.complete 0 v) = none := by
  have c0 : Reach (wcfg false 1 1) _ := Reach.create (worc (pt 0))
  have c1 := c0.step (.propose (worc (pt 0))) rfl
  have c2 := c1.step (.propose (worc (pt 0))) rfl
  have c3 := c2.step (.accept 0) rfl
  have c4 := c3.step (.accept 0) rfl
  have c5 := c4.step (.complete 0 1) rfl
  have c6 := c5.step (.propose (worc (pt 0))) rfl
  have c7 := c6.step (.abort 0) rfl
  have c8 := c7.step (.propose (worc (pt 0))) rfl
  have c9 := c8.step (.accept 0) rfl
  refine ⟨_, c9, rfl, rfl, ?_⟩
  intro v
  exact complete_raises rfl c9 rfl (i := 0) rfl rfl rfl rfl (by exact Nat.zero_lt_one) v

/-! ## Failures that are not in a row -/

theorem Dominated.congr {e e' : List (SopRec d)} (h : e.map (fun r => (r.x, r.fx)) = e'.map (fun r => (r.x, r.fx))) {i : ℕ}
    (hd : Dominated c e i) : Dominated c e' i := by
  have key : ∀ (j : ℕ) (r : SopRec d), e[j]? = some r → ∃ r' : SopRec d, e'[j]? = some r' ∧ r'.x = r.x ∧ r'.fx = r.fx := by
    intro j r hr
    have := congrArg (fun l => l[j]?) h
    simp only [List.getElem?_map, hr, Option.map_some] at this
    obtain ⟨r', h1, h2⟩ := Option.map_eq_some_iff.mp this.symm
    simp only [Prod.mk.injEq] at h2
    exact ⟨r', h1, h2⟩
  have key' : ∀ r ∈ e', ∃ r' ∈ e, r'.x = r.x := by
    intro r hr
    have : (r.x, r.fx) ∈ e.map (fun r => (r.x, r.fx)) := by rw [h]; exact List.mem_map.mpr ⟨r, hr, rfl⟩
    obtain ⟨r', h1, h2⟩ := List.mem_map.mp this
    simp only [Prod.mk.injEq] at h2
    exact ⟨r', h1, h2.1⟩
  have near : ∀ j m, IsNearest c e j m → IsNearest c e' j m := by
    rintro j m ⟨r, hr, ⟨a, ha, he⟩, hpos, hmin⟩
    obtain ⟨r', hr', hx, _⟩ := key j r hr
    obtain ⟨k, hk⟩ := List.mem_iff_getElem?.mp ha
    obtain ⟨a', ha', hax, _⟩ := key k a hk
    refine ⟨r', hr', ⟨a', List.mem_iff_getElem?.mpr ⟨k, ha'⟩, by rw [hx, hax]; exact he⟩, hpos, ?_⟩
    intro b hb
    obtain ⟨b', hb', hbx⟩ := key' b hb
    rw [hx, ← hbx]
    exact hmin b' hb'
  obtain ⟨l, r, r', m, m', h1, h2, h3, h4, h5, h6⟩ := hd
  obtain ⟨s, hs1, _, hs2⟩ := key l r h1
  obtain ⟨s', hs1', _, hs2'⟩ := key i r' h2
  exact ⟨l, s, s', m, m', hs1, hs1', near l m h3, near i m' h4, by rw [hs2, hs2']; exact h5, h6⟩

theorem Idle1.fail95 {w : SopSys 1} {L : List (Pt 1 × Val)} {r0 : SopRec 1} (h : Idle1 w L r0)
    (hL : ∀ p ∈ L, p = (pt 0.95, 5)) (hn : L.length < 16) (ht : r0.ntabu ≠ 2) :
    ∃ w3, Idle1 w3 (L ++ [(pt 0.95, 5)]) (let r1 := r0.fail.tick; if r1.nfail > 3 then r1.makeTabu else r1) := by
  refine h.failing (by omega) ht 0.95 1 5 1 (by norm_num) (by simp) (by norm_num) ?_
  intro p hp
  simp only [List.cons_append, List.mem_cons, List.mem_append, List.not_mem_nil, or_false] at hp
  rcases hp with rfl | hp | rfl
  · exact ⟨1, rfl, by norm_num [abs_of_pos]⟩
  · rw [hL p hp]; exact ⟨0.95, rfl, by norm_num [abs_of_pos]⟩
  · exact ⟨0.95, rfl, by norm_num [abs_of_pos]⟩

/-- Three failures, a success, one more failure: the center is tabu. -/
theorem witness_row : ∃ a b e f : SopSys 1, Reach (wcfg true 1 1) a ∧ a.sop.centers.map Center.index = [0] ∧
    a.sys.recs.map Rec.x = [pt 0.475] ∧ (a.sop.evals[0]?).map SopRec.nfail = some 3 ∧
    a.step (wcfg true 1 1) (.complete 0 1) = some b ∧ ¬ Dominated (wcfg true 1 1) b.sop.evals a.sop.evals.length ∧
    Reach (wcfg true 1 1) e ∧ e.sop.evals = b.sop.evals ∧ e.sop.centers.map Center.index = [0] ∧
    e.step (wcfg true 1 1) (.complete 0 5) = some f ∧ (f.sop.evals[0]?).map SopRec.ntabu = some 1 := by
  obtain ⟨w, h⟩ := idle_start
  obtain ⟨w, h⟩ := h.fail95 (by simp) (by simp) (by simp [SopRec.new])
  obtain ⟨w, h⟩ := h.fail95 (by simp) (by simp) (by simp [SopRec.new, SopRec.fail, SopRec.tick])
  obtain ⟨w, h⟩ := h.fail95 (by simp) (by simp) (by simp [SopRec.new, SopRec.fail, SopRec.tick])
  simp [SopRec.new, SopRec.fail, SopRec.tick] at h
  have hA : (w.sop.evals ++ [SopRec.new (pt 0.475) 1]).map (fun r => (r.x, r.fx)) =
      [(pt 0, 0), (pt 1, 1), (pt 0.95, 5), (pt 0.95, 5), (pt 0.95, 5), (pt 0.475, 1)] := by
    rw [List.map_append]
    have := h.arch
    unfold archive at this
    rw [this]; rfl
  have hnd : ¬ Dominated (wcfg true 1 1) (w.sop.evals ++ [SopRec.new (pt 0.475) 1]) 5 := by
    refine not_dominated_of hA (i := 5) rfl (t := 0.475) ?_ ?_
    · intro p hp
      simp only [List.mem_cons, List.not_mem_nil, or_false] at hp
      rcases hp with rfl | rfl | rfl | rfl | rfl | rfl
      all_goals
        rw [udist_pt]; intro h0
        first | (norm_num at h0; done) | norm_num [abs_of_pos]
    · intro p hp hlt
      simp only [List.mem_cons, List.not_mem_nil, or_false] at hp
      rcases hp with rfl | rfl | rfl | rfl | rfl | rfl
      · exact ⟨(pt 0.475, 1), by simp, by rw [udist_pt]; norm_num, by rw [udist_pt]; norm_num [abs_of_neg]⟩
      all_goals norm_num at hlt
  obtain ⟨a, b, ra, ea, ia, _, xa, sa, h2⟩ := round1 h (by simp) (by simp) (pt 0.475) 1 (by norm_num) false (by
    simpa using hnd)
  have hA2 : (b.sop.evals ++ [SopRec.new (pt 0.95) 5]).map (fun r => (r.x, r.fx)) =
      [(pt 0, 0), (pt 1, 1), (pt 0.95, 5), (pt 0.95, 5), (pt 0.95, 5), (pt 0.475, 1), (pt 0.95, 5)] := by
    rw [List.map_append]
    have := h2.arch
    unfold archive at this
    rw [this]; rfl
  have hlen : a.sop.evals.length = 5 := by
    rw [ea]
    have := congrArg List.length h.arch
    simpa [archive] using this
  obtain ⟨e, f, re, ee, ie, _, xe, se, h3⟩ := round1 h2 (by simp) (by simp [SopRec.tick]) (pt 0.95) 5 (by norm_num) true (by
    simp only [iff_true]
    refine dominated_of hA2 (h2.two.append _) (i := 6) (l := 0) (x := pt 0.95) (v := 5) (y := pt 0) (u := 0) (x' := pt 1) (v' := 1)
      rfl rfl (by simp) (by norm_num) (by rw [udist_pt]; norm_num) ?_
    intro p hp
    simp only [List.mem_cons, List.not_mem_nil, or_false] at hp
    rcases hp with rfl | rfl | rfl | rfl | rfl | rfl | rfl
    all_goals
      rw [udist_pt, udist_pt]; intro h0
      first | (norm_num at h0; done) | norm_num [abs_of_pos])
  refine ⟨a, b, e, f, ra, ia, xa, by rw [ea, h.first]; rfl, sa, ?_, re, ee, ie, se, ?_⟩
  · rw [hlen]
    intro hd
    refine hnd (hd.congr ?_)
    rw [hA]
    have := h2.arch
    unfold archive at this
    rw [this]; rfl
  · rw [h3.first]
    simp [SopRec.tick, SopRec.fail, SopRec.makeTabu]

end Verif.Sop
