import Verif.Sop.Select
import Mathlib.Tactic.IntervalCases

/-! # Concrete runs of SOP -/

set_option linter.unusedSectionVars false

namespace Verif.Sop

open Verif.Num Verif.Utils Verif.Strategy Verif.Spec
open List (Perm Sublist)

/-- A point of the line. -/
def pt (t : ℝ) : Pt 1 := fun _ => t

/-- One-dimensional runs on `[0, 1]`, two initial points, budget 20. -/
def wcfg (async : Bool) (batch ncenters : ℕ) : Cfg 1 where
  base := { asynchronous := async, batchSize := batch, maxEvals := 20, useRestarts := false, numPts := 2, extras := [], srbf := none }
  lb := pt 0
  ub := pt 1
  ncenters := ncenters

/-- Design points 0 and 1, adaptive points `x`. -/
def worc (x : Pt 1) : Oracle (Pt 1) := { design := fun n => if n = 0 then pt 0 else pt 1, pts := fun _ => x, giveUp := false }

theorem unit_pt (async : Bool) (b k : ℕ) (t : ℝ) : toUnitBox (pt t) (wcfg async b k).lb (wcfg async b k).ub = pt t := by
  funext i
  simp [toUnitBox, wcfg, pt]

/-- The two initial points are evaluated: 0 has value 0, 1 has value 1. -/
theorem warm (async : Bool) (batch ncenters : ℕ) : ∃ w : SopSys 1, Calm (wcfg async batch ncenters) w ∧
    w.sop = ⟨[SopRec.new (pt 0) 0, SopRec.new (pt 1) 1], [], none⟩ ∧ w.sys.st.batchQueue = [] ∧
    w.sys.props = [] ∧ w.sys.recs = [] ∧ w.sys.st.pendingEvals = 0 ∧ w.sys.st.numEvals = 2 ∧ w.sys.st.terminate = false ∧
    w.sys.st.phase = .initial ∧ generatedPts w.sys.st.log = [] ∧ adaptDone w.sys.st.log = 0 := by
  have c0 : Calm (wcfg async batch ncenters) _ := Calm.create (worc (pt 0))
  have c1 := c0.step (.propose (worc (pt 0))) (fun h => by cases h) rfl
  have c2 := c1.step (.propose (worc (pt 0))) (fun h => by cases h) rfl
  have c3 := c2.step (.accept 0) trivial rfl
  have c4 := c3.step (.accept 0) trivial rfl
  have c5 := c4.step (.complete 1 0) trivial rfl
  have c6 := c5.step (.complete 0 1) trivial rfl
  exact ⟨_, c6, rfl, rfl, rfl, rfl, rfl, rfl, rfl, rfl, rfl, rfl⟩


/-! ## One round in an asynchronous run -/

section
variable {d : ℕ} {c : Cfg d}

theorem gen_step (hs : c.base.srbf = none) (ha : c.base.asynchronous = true) (hm : c.base.maxEvals ≠ c.base.numPts)
    {w : SopSys d} (hc : Calm c w) (hq : w.sys.st.batchQueue = []) (hg : Going c.base w.sys.st) {o : Oracle (Pt d)}
    (hal : Allowed c w (.propose o)) : ∃ w1, w.step c (.propose o) = some w1 ∧ Calm c w1 ∧
      w1.sys = proposeLast w.sys (genState w.sys.st [o.pts 0]) [] (o.pts 0) .adapt ∧
      w.sop.generate c w.sop.evals.length [o.pts 0] = some w1.sop := by
  obtain ⟨w1, h1⟩ := (hc.live hs (Or.inl ha) hm).1 o hal
  have hr := hc.reach
  have hg1 : genCount c.base = 1 := by unfold genCount; rw [if_pos ha]
  have hstep := step_propose_gen hs w (hr.inv hs).conv o hg hq (Or.inl ha) (o.pts 0) [] (by rw [hg1]; rfl)
  rw [h1] at hstep
  obtain ⟨z, hz, he⟩ := Option.map_eq_some_iff.mp hstep.symm
  have hn : w.sys.st.numEvals.toNat = w.sop.evals.length := by have := hr.count hs; omega
  rw [hn] at hz
  exact ⟨w1, h1, hc.step _ hal h1, by rw [← he]; rfl, by rw [← he]; exact hz⟩

theorem complete_step (hs : c.base.srbf = none) (ha : c.base.asynchronous = true) (hm : c.base.maxEvals ≠ c.base.numPts)
    {w : SopSys d} (hc : Calm c w) {i : ℕ} {r : Rec (Pt d)} (hr : w.sys.recs[i]? = some r) (hk : r.kind = .adapt) (v : Val) :
    ∃ w3, w.step c (.complete i v) = some w3 ∧ Calm c w3 ∧ w3.sys = { w.sys with
        st := (w.sys.st.note (.completed r.x r.kind v r.accAt)).recordCompleted r.x v r.evId
        recs := w.sys.recs.eraseIdx i } ∧
      Sop.adjustMemory c (w.sop.evals.length + 1) (markCenter w.sop.centers r.x w.sop.evals.length).2
        { w.sop with evals := w.sop.evals ++ [SopRec.new r.x v]
                     centers := (markCenter w.sop.centers r.x w.sop.evals.length).1 } = some w3.sop := by
  obtain ⟨w3, h3⟩ := (hc.live hs (Or.inl ha) hm).2 i v (List.getElem?_eq_some_iff.mp hr).1
  have hc3 := hc.step (.complete i v) trivial h3
  obtain ⟨r', hr', hsys, hsop⟩ := step_complete hs h3
  rw [hr] at hr'
  simp only [Option.some.injEq] at hr'
  subst hr'
  rw [hk] at hsop
  simp only at hsop
  obtain ⟨hn, _⟩ := evals_completed hc.reach hs hr hsys
  refine ⟨w3, h3, hc3, hsys, ?_⟩
  rcases onAdaptCompleted_spec (hc3.reach.inv hs).evLast hsop with ⟨_, h⟩ | ⟨hb, _⟩ | ⟨hb, _⟩
  · rw [hn] at h; simpa using h
  · rw [ha] at hb; simp at hb
  · rw [ha] at hb; simp at hb

end

theorem eucl_pt (s t : ℝ) : eucl (pt s) (pt t) = |s - t| := by
  unfold eucl pt
  simp [Real.sqrt_sq_eq_abs]

/-- Idle states of the run with one center; the point 0 has value 0, the others have larger values and are not tabu. -/
structure Idle1 (w : SopSys 1) (L : List (Pt 1 × Val)) (r0 : SopRec 1) : Prop where
  calm : Calm (wcfg true 1 1) w
  queue : w.sys.st.batchQueue = []
  props : w.sys.props = []
  recs : w.sys.recs = []
  term : w.sys.st.terminate = false
  arch : archive w.sop = (pt 0, 0) :: (pt 1, 1) :: L
  first : w.sop.evals[0]? = some r0
  rest : ∀ j r, 0 < j → w.sop.evals[j]? = some r → 0 < r.fx ∧ r.ntabu = 0
  noBusy : ∀ ce ∈ w.sop.centers, ce.newIndex ≠ none
  fresh : Fresh w.sop
  stale : L ≠ [] → w.sop.F = some (w.sop.evals.map (fRow (wcfg true 1 1)))

theorem idle_start : ∃ w, Idle1 w [] (SopRec.new (pt 0) 0) := by
  obtain ⟨w, hc, hsop, hq, hp, hr, _, _, ht, _⟩ := warm true 1 1
  refine ⟨w, hc, hq, hp, hr, ht, by rw [hsop]; rfl, by rw [hsop]; rfl, ?_, by rw [hsop]; simp,
    by rw [hsop]; intro F hF; simp at hF, by simp⟩
  intro j r hj hr
  rw [hsop] at hr
  rcases j with _ | _ | j
  · simp at hj
  · simp only [List.getElem?_cons_succ, List.getElem?_cons_zero, Option.some.injEq] at hr
    subst hr
    exact ⟨by simp [SopRec.new], rfl⟩
  · simp at hr

/-- Is the entry `i` of the archive dominated by another one, i.e. has a larger value and a smaller distance to its nearest
neighbour? -/
def Dominated (c : Cfg d) (evals : List (SopRec d)) (i : ℕ) : Prop :=
  ∃ l r r' m m', evals[l]? = some r ∧ evals[i]? = some r' ∧ IsNearest c evals l m ∧ IsNearest c evals i m' ∧
    r.fx < r'.fx ∧ m' < m

theorem keep_xf (fails : Bool) (r0 : SopRec 1) :
    (let r1 := (if fails then r0.fail else r0).tick; if r1.nfail > 3 then r1.makeTabu else r1).x = r0.x ∧
    (let r1 := (if fails then r0.fail else r0).tick; if r1.nfail > 3 then r1.makeTabu else r1).fx = r0.fx := by
  have hx0' : ∀ r : SopRec 1, r.tick.x = r.x ∧ r.tick.fx = r.fx := by
    intro r; unfold SopRec.tick; split
    · split <;> exact ⟨rfl, rfl⟩
    · exact ⟨rfl, rfl⟩
  have h1 : ((if fails then r0.fail else r0).tick).x = r0.x ∧ ((if fails then r0.fail else r0).tick).fx = r0.fx := by
    rw [(hx0' _).1, (hx0' _).2]
    cases fails <;> exact ⟨rfl, rfl⟩
  simp only
  generalize (if fails then r0.fail else r0).tick = q at h1 ⊢
  by_cases hq : q.nfail > 3
  · rw [if_pos hq]; exact h1
  · rw [if_neg hq]; exact h1

/-- One round around the best point: the new point `x` is evaluated. -/
theorem round1 {w : SopSys 1} {L : List (Pt 1 × Val)} {r0 : SopRec 1} (h : Idle1 w L r0) (hn : L.length < 18)
    (ht : r0.ntabu ≠ 2) (x : Pt 1) (v : Val) (hv : 0 < v) (fails : Bool)
    (hf : Dominated (wcfg true 1 1) (w.sop.evals ++ [SopRec.new x v]) (L.length + 2) ↔ fails = true) :
    ∃ w2 w3, Reach (wcfg true 1 1) w2 ∧ w2.sop.evals = w.sop.evals ∧ w2.sop.centers.map Center.index = [0] ∧
      w2.sop.centers.map Center.newPoint = [some x] ∧ w2.sys.recs.map Rec.x = [x] ∧
      w2.step (wcfg true 1 1) (.complete 0 v) = some w3 ∧
      Idle1 w3 (L ++ [(x, v)]) (let r1 := (if fails then r0.fail else r0).tick; if r1.nfail > 3 then r1.makeTabu else r1) := by
  have hs : (wcfg true 1 1).base.srbf = none := rfl
  have ha : (wcfg true 1 1).base.asynchronous = true := rfl
  have hm : (wcfg true 1 1).base.maxEvals ≠ (wcfg true 1 1).base.numPts := by simp [wcfg]
  have hr := h.calm.reach
  obtain ⟨n, hnL⟩ : ∃ n, n = L.length + 2 := ⟨_, rfl⟩
  rw [← hnL] at hf
  have hlen : w.sop.evals.length = n := by
    have := congrArg List.length h.arch
    simp only [archive, List.length_map, List.length_cons] at this
    omega
  have hx0 : r0.x = pt 0 ∧ r0.fx = 0 := by
    have := congrArg (fun l => l[0]?) h.arch
    simp only [archive, List.getElem?_map, h.first, Option.map_some, List.getElem?_cons_zero, Option.some.injEq,
      Prod.mk.injEq] at this
    exact this
  have hin : w.sys.inflight = [] := by simp [Sys.inflight, h.props, h.recs]
  have hpend := (pending_zero hr).mpr hin
  have hcount := hr.count hs
  have hg : Going (wcfg true 1 1).base w.sys.st := by
    refine ⟨h.term, ?_⟩
    rw [hpend, hcount, hlen]
    simp only [wcfg]
    omega
  have h0lt : 0 < w.sop.evals.length := (List.getElem?_eq_some_iff.mp h.first).1
  have hal : Allowed (wcfg true 1 1) w (.propose (worc x)) := by
    intro _ _ _
    refine ⟨by simp [h.props], by simp [h.recs], ?_, ?_, ?_⟩
    · rw [← (hr.inv hs).arch]
      rw [h.arch]
      refine ⟨(pt 0, 0), by simp, (pt 1, 1), by simp, ?_⟩
      simp only [unit_pt]
      intro he
      have := congrFun he 0
      simp [pt] at this
    · rw [hin]; simp [genCount, wcfg]
    · rw [hin]; simp [genCount, wcfg]
  obtain ⟨w1, hstep1, hc1, hsys1, hgen⟩ := gen_step hs ha hm h.calm h.queue hg hal
  have hpt : (worc x).pts 0 = x := rfl
  rw [hpt] at hsys1 hgen
  have hk := generate_keeps hgen
  have hbest : IsBest w.sop 0 := by
    refine ⟨h0lt, ?_, by simp⟩
    intro i hi
    unfold valueAt
    rw [h.first]
    simp only [Option.elim, hx0.2]
    rw [List.getElem?_eq_getElem hi]
    rcases Nat.eq_zero_or_pos i with rfl | hpos
    · have := h.first
      rw [List.getElem?_eq_getElem h0lt] at this
      simp only [Option.some.injEq] at this
      simp [this, hx0.2]
    · have := (h.rest i _ hpos (List.getElem?_eq_getElem hi)).1
      exact this.le
  have hts : tabuStatus w.sop 0 ≠ 2 := by
    unfold tabuStatus
    rw [if_neg]
    · rw [h.first]; exact ht
    · rintro ⟨ce, hce, hni, _⟩
      exact h.noBusy ce hce hni
  have hfilter : (w.sop.centers.filter fun ce => ce.newIndex.isNone) = [] := by
    rw [List.filter_eq_nil_iff]
    intro ce hce hne
    exact h.noBusy ce hce (by simpa using hne)
  obtain ⟨F, idx, _, _, _, _, g1, g2, _, g4⟩ := generate_selected (hr.cinv hs) h.fresh hgen
  rw [hfilter] at g1 g2
  simp only [List.map_nil, List.nil_append, List.length_nil] at g1 g2
  have hidx : idx = [0] := by
    have hl1 : idx.length = 1 := by rw [g2]; rfl
    have hne : idx ≠ [] := by intro h0; rw [h0] at hl1; simp at hl1
    have := g4 0 hbest hts hne
    obtain ⟨a, rfl⟩ := List.length_eq_one_iff.mp hl1
    simpa using this
  have hbusy0 : busyPts w.sop.centers = [] := by
    unfold busyPts
    rw [List.filterMap_eq_nil_iff]
    intro ce hce
    rw [if_neg]
    simpa using h.noBusy ce hce
  obtain ⟨p1, p2⟩ := generate_pts hgen
  rw [hbusy0, List.append_nil] at p1 p2
  rw [hidx] at g1
  obtain ⟨ce, hce, hceI⟩ : ∃ ce, w1.sop.centers = [ce] ∧ ce.index = 0 := by
    have hl1 : w1.sop.centers.length = 1 := by have := congrArg List.length g1; simpa using this
    obtain ⟨ce, hce⟩ := List.length_eq_one_iff.mp hl1
    rw [hce] at g1
    exact ⟨ce, hce, by simpa using g1⟩
  have hceP : ce.newPoint = some x ∧ ce.newIndex = none := by
    rw [hce] at p2
    unfold busyPts at p2
    have hx := p2.mem_iff.mpr (List.mem_singleton.mpr rfl)
    simp only [List.filterMap_cons, List.filterMap_nil] at hx
    by_cases hnone : ce.newIndex.isNone = true
    · rw [if_pos hnone] at hx
      refine ⟨?_, by simpa using hnone⟩
      cases hnp : ce.newPoint with
      | none => rw [hnp] at hx; simp at hx
      | some y => rw [hnp] at hx; simp only [List.mem_singleton] at hx; rw [hx]
    · rw [if_neg hnone] at hx; simp at hx
  -- accept
  have hprops1 : w1.sys.props = [{ x := x, kind := .adapt }] := by rw [hsys1]; simp [proposeLast, h.props]
  have hrecs1 : w1.sys.recs = [] := by rw [hsys1]; simp [proposeLast, h.recs]
  have hacc : w1.step (wcfg true 1 1) (.accept 0) = some ⟨{
      st := (w1.sys.st.note (.accepted x .adapt w1.sys.st.evNext)).onAccept
      props := w1.sys.props.eraseIdx 0
      recs := w1.sys.recs ++ [{ x := x, kind := .adapt, evId := w1.sys.st.evNext, accAt := w1.sys.st.log.length }] }, w1.sop⟩ := by
    unfold SopSys.step Sys.step
    simp [hprops1]
  have hc2 := hc1.step (.accept 0) trivial hacc
  generalize hw2 : (⟨{
      st := (w1.sys.st.note (.accepted x .adapt w1.sys.st.evNext)).onAccept
      props := w1.sys.props.eraseIdx 0
      recs := w1.sys.recs ++ [{ x := x, kind := .adapt, evId := w1.sys.st.evNext, accAt := w1.sys.st.log.length }] }, w1.sop⟩ : SopSys 1) = w2 at hc2
  have hsop2 : w2.sop = w1.sop := by rw [← hw2]
  have hprops2 : w2.sys.props = [] := by rw [← hw2]; simp [hprops1]
  have hrecs2 : w2.sys.recs = [{ x := x, kind := .adapt, evId := w1.sys.st.evNext, accAt := w1.sys.st.log.length }] := by
    rw [← hw2]; simp [hrecs1]
  have hq2 : w2.sys.st.batchQueue = [] := by
    rw [← hw2]
    change w1.sys.st.batchQueue = []
    rw [hsys1]; rfl
  have hterm2 : w2.sys.st.terminate = false := by
    rw [← hw2]
    change w1.sys.st.terminate = false
    rw [hsys1]; exact h.term
  -- complete
  obtain ⟨w3, hstep3, hc3, hsys3, hadj⟩ := complete_step hs ha hm hc2 (i := 0) (by rw [hrecs2]; rfl) rfl v
  have hev2 : w2.sop.evals = w.sop.evals := by rw [hsop2, hk]
  simp only [hev2, hlen] at hadj
  have hmark : markCenter w2.sop.centers x n = ([{ ce with newIndex := some n }], some 0) := by
    rw [hsop2, hce]
    unfold markCenter
    rw [if_pos hceP.1]
  rw [hmark] at hadj
  simp only at hadj
  obtain ⟨ds, hds, hget⟩ := adjustMemory_get hadj
  obtain ⟨_, _, _, _, _, _, hcen3, hF3, hlen3⟩ := adjustMemory_spec hadj
  simp only at hget hds hcen3
  have hlt : n < (w.sop.evals ++ [SopRec.new x v]).length := by simp [hlen]
  obtain ⟨row, hrow, hrank⟩ := rank_one_iff hds hlt
  have hfail : ∀ j, failsAt (rankRows ((w.sop.evals ++ [SopRec.new x v]).map (fRow (wcfg true 1 1))) ds)
      [{ ce with newIndex := some n }] j 0 = (decide (j = 0) && fails) := by
    intro j
    unfold failsAt
    simp only [List.getElem?_cons_zero, Option.bind_some, hrow, hceI]
    have hb : (decide (row.rank ≠ 1)) = fails := by
      have : row.rank ≠ 1 ↔ fails = true := by
        rw [← hf]
        unfold Dominated
        exact (not_congr hrank).trans not_not
      by_cases hfa : fails = true
      · rw [hfa]; simpa using this.mpr hfa
      · have h1 : row.rank = 1 := by by_contra hne; exact hfa (this.mp hne)
        simp only [Bool.not_eq_true] at hfa
        rw [hfa]; simpa using h1
    rw [hb]
    by_cases hj : j = 0
    · simp [hj]
    · have : ¬ (0 = j) := fun h => hj h.symm
      simp [hj, this]
  have huses : ∀ j, usesAt [{ ce with newIndex := some n }] j 0 = decide (j = 0) := by
    intro j
    unfold usesAt
    simp only [List.getElem?_cons_zero, hceI]
    by_cases hj : j = 0
    · simp [hj]
    · have : ¬ (0 = j) := fun h => hj h.symm
      simp [hj, this]
  have hproc : processed (wcfg true 1 1) (some 0) = [0] := rfl
  simp only [hproc, List.countP_cons, List.countP_nil, List.any_cons, List.any_nil, Bool.or_false, hfail, huses] at hget
  have hget0 : w3.sop.evals[0]? = some (let r1 := (if fails then r0.fail else r0).tick; if r1.nfail > 3 then r1.makeTabu else r1) := by
    rw [hget 0, List.getElem?_append_left h0lt, h.first]
    cases fails <;> simp
  have hgetj : ∀ j, 0 < j → w3.sop.evals[j]? = ((w.sop.evals ++ [SopRec.new x v])[j]?).map SopRec.tick := by
    intro j hj
    rw [hget j]
    have hj0 : j ≠ 0 := by omega
    simp [hj0]
  have hrest : ∀ j r, 0 < j → (w.sop.evals ++ [SopRec.new x v])[j]? = some r →
      0 < r.fx ∧ r.ntabu = 0 := by
    intro j r hj hr
    by_cases hjl : j < w.sop.evals.length
    · rw [List.getElem?_append_left hjl] at hr
      exact h.rest j r hj hr
    · rw [List.getElem?_append_right (by omega)] at hr
      have : j - w.sop.evals.length = 0 := by
        have := (List.getElem?_eq_some_iff.mp hr).1
        simpa using this
      rw [this] at hr
      simp only [List.getElem?_cons_zero, Option.some.injEq] at hr
      subst hr
      exact ⟨hv, rfl⟩
  have htick : ∀ r : SopRec 1, r.ntabu = 0 → r.tick = r := by
    intro r hr
    unfold SopRec.tick
    rw [if_neg (by omega)]
  have hx0' : ∀ r : SopRec 1, r.tick.x = r.x ∧ r.tick.fx = r.fx := by
    intro r; unfold SopRec.tick; split
    · split <;> exact ⟨rfl, rfl⟩
    · exact ⟨rfl, rfl⟩
  refine ⟨w2, w3, hc2.reach, hev2, ?_, ?_, ?_, hstep3, hc3, ?_, ?_, ?_, ?_, ?_, hget0, ?_, ?_, ?_, fun _ => hF3⟩
  · rw [hsop2, g1]
  · rw [hsop2, hce]; simp [hceP.1]
  · rw [hrecs2]; rfl
  · rw [hsys3]; simp only [recordCompleted_eq]; exact hq2
  · rw [hsys3]; exact hprops2
  · rw [hsys3, hrecs2]; rfl
  · rw [hsys3]; simp only [recordCompleted_eq]; exact hterm2
  · rw [adjustMemory_archive hadj]
    simp only [archive, List.map_append]
    have := h.arch
    unfold archive at this
    rw [this]
    rfl
  · intro j r hj hr
    rw [hgetj j hj] at hr
    obtain ⟨r', hr', rfl⟩ := Option.map_eq_some_iff.mp hr
    have := hrest j r' hj hr'
    rw [htick r' this.2]
    exact this
  · intro a ha'
    rw [hcen3] at ha'
    simp only [List.mem_singleton] at ha'
    rw [ha']; simp
  · intro F hF
    rw [hF3] at hF
    simp only [Option.some.injEq] at hF
    subst hF
    simp

/-! ## Domination in terms of the archive -/

section
variable {d : ℕ} {c : Cfg d}

theorem nearest_exists {evals : List (SopRec d)} (h : TwoPoints c evals) {i : ℕ} (hi : i < evals.length) :
    ∃ m, IsNearest c evals i m := by
  obtain ⟨ds, hds⟩ := distCol_two h
  obtain ⟨m, _, hm⟩ := distCol_nearest hds hi
  exact ⟨m, hm⟩

/-- The unit-box distance between two points. -/
noncomputable def udist (c : Cfg d) (x y : Pt d) : ℝ := eucl (toUnitBox x c.lb c.ub) (toUnitBox y c.lb c.ub)

theorem dominated_of {z : List (SopRec d)} {A : List (Pt d × Val)} (hA : z.map (fun r => (r.x, r.fx)) = A)
    (h2 : TwoPoints c z) {i l : ℕ} {x y x' : Pt d} {v u v' : Val} (hi : A[i]? = some (x, v)) (hl : A[l]? = some (y, u))
    (hx' : (x', v') ∈ A) (hlt : u < v) (hne : udist c x x' ≠ 0)
    (hfar : ∀ p ∈ A, udist c y p.1 ≠ 0 → udist c x x' < udist c y p.1) : Dominated c z i := by
  subst hA
  rw [List.getElem?_map] at hi hl
  obtain ⟨ri, hri, hei⟩ := Option.map_eq_some_iff.mp hi
  obtain ⟨rl, hrl, hel⟩ := Option.map_eq_some_iff.mp hl
  simp only [Prod.mk.injEq] at hei hel
  obtain ⟨mi, hmi⟩ := nearest_exists h2 (List.getElem?_eq_some_iff.mp hri).1
  obtain ⟨ml, hml⟩ := nearest_exists h2 (List.getElem?_eq_some_iff.mp hrl).1
  refine ⟨l, rl, ri, ml, mi, hrl, hri, hml, hmi, by rw [hei.2, hel.2]; exact hlt, ?_⟩
  obtain ⟨r, hr, _, _, hmin⟩ := hmi
  rw [hri] at hr
  simp only [Option.some.injEq] at hr
  subst hr
  obtain ⟨r, hr, ⟨r2, hr2, he2⟩, hpos, _⟩ := hml
  rw [hrl] at hr
  simp only [Option.some.injEq] at hr
  subst hr
  obtain ⟨r3, hr3, he3⟩ := List.mem_map.mp hx'
  simp only [Prod.mk.injEq] at he3
  have h1 : mi ≤ udist c x x' := by
    have := hmin r3 hr3
    rw [hei.1, he3.1] at this
    exact this hne
  have h2 := hfar (r2.x, r2.fx) (List.mem_map.mpr ⟨r2, hr2, rfl⟩)
  rw [hel.1] at he2
  simp only at h2
  have he : udist c y r2.x = ml := he2
  rw [he] at h2
  exact lt_of_le_of_lt h1 (h2 (ne_of_gt hpos))

theorem not_dominated_of {z : List (SopRec d)} {A : List (Pt d × Val)} (hA : z.map (fun r => (r.x, r.fx)) = A)
    {i : ℕ} {x : Pt d} {v : Val} (hi : A[i]? = some (x, v)) {t : ℝ}
    (hfar : ∀ p ∈ A, udist c x p.1 ≠ 0 → t ≤ udist c x p.1)
    (hnear : ∀ p ∈ A, p.2 < v → ∃ q ∈ A, udist c p.1 q.1 ≠ 0 ∧ udist c p.1 q.1 ≤ t) : ¬ Dominated c z i := by
  subst hA
  rintro ⟨l, rl, ri, ml, mi, hrl, hri, hml, hmi, hlt, hm⟩
  rw [List.getElem?_map, hri] at hi
  simp only [Option.map_some, Option.some.injEq, Prod.mk.injEq] at hi
  obtain ⟨r, hr, ⟨r2, hr2, he2⟩, hpos, _⟩ := hmi
  rw [hri] at hr
  simp only [Option.some.injEq] at hr
  subst hr
  obtain ⟨r, hr, _, _, hmin⟩ := hml
  rw [hrl] at hr
  simp only [Option.some.injEq] at hr
  subst hr
  obtain ⟨q, hq, hq1, hq2⟩ := hnear (rl.x, rl.fx) (List.mem_map.mpr ⟨rl, List.mem_iff_getElem?.mpr ⟨l, hrl⟩, rfl⟩)
    (by rw [← hi.2]; exact hlt)
  obtain ⟨r3, hr3, rfl⟩ := List.mem_map.mp hq
  have h1 := hmin r3 hr3 hq1
  have h2 := hfar (r2.x, r2.fx) (List.mem_map.mpr ⟨r2, hr2, rfl⟩)
  rw [← hi.1] at h2
  have he : udist c ri.x r2.x = mi := he2
  simp only at h2
  rw [he] at h2
  have h3 := h2 (ne_of_gt hpos)
  unfold udist at hq2
  simp only at hq2
  linarith

end

theorem udist_pt (async : Bool) (b k : ℕ) (s t : ℝ) : udist (wcfg async b k) (pt s) (pt t) = |s - t| := by
  unfold udist
  rw [unit_pt, unit_pt, eucl_pt]

theorem Idle1.two {w : SopSys 1} {L : List (Pt 1 × Val)} {r0 : SopRec 1} (h : Idle1 w L r0) : TwoPoints (wcfg true 1 1) w.sop.evals := by
  have key : ∀ p ∈ archive w.sop, ∃ r ∈ w.sop.evals, (r.x, r.fx) = p := by
    intro p hp
    obtain ⟨r, hr, he⟩ := List.mem_map.mp hp
    exact ⟨r, hr, he⟩
  obtain ⟨r1, h1, e1⟩ := key (pt 0, 0) (by rw [h.arch]; simp)
  obtain ⟨r2, h2, e2⟩ := key (pt 1, 1) (by rw [h.arch]; simp)
  simp only [Prod.mk.injEq] at e1 e2
  refine ⟨r1, h1, r2, h2, ?_⟩
  rw [e1.1, e2.1, unit_pt, unit_pt]
  intro he
  have := congrFun he 0
  simp [pt] at this

/-- A round whose new point is dominated by the point 0. -/
theorem Idle1.failing {w : SopSys 1} {L : List (Pt 1 × Val)} {r0 : SopRec 1} (h : Idle1 w L r0) (hn : L.length < 18)
    (ht : r0.ntabu ≠ 2) (t t' : ℝ) (v v' : Val) (hv : 0 < v) (ht' : (pt t', v') ∈ (pt 1, 1) :: L) (hne : |t - t'| ≠ 0)
    (hfar : ∀ p ∈ (pt 1, 1) :: L ++ [(pt t, v)], ∃ s, p.1 = pt s ∧ |t - t'| < |s|) :
    ∃ w3, Idle1 w3 (L ++ [(pt t, v)]) (let r1 := r0.fail.tick; if r1.nfail > 3 then r1.makeTabu else r1) := by
  have hA : (w.sop.evals ++ [SopRec.new (pt t) v]).map (fun r => (r.x, r.fx)) =
      (pt 0, 0) :: (pt 1, 1) :: L ++ [(pt t, v)] := by
    rw [List.map_append]
    have := h.arch
    unfold archive at this
    rw [this]; rfl
  obtain ⟨_, w3, _, _, _, _, _, _, h3⟩ := round1 h hn ht (pt t) v hv true (by
    simp only [iff_true]
    refine dominated_of hA (h.two.append _) (l := 0) (x := pt t) (v := v) (y := pt 0) (u := 0) (x' := pt t') (v' := v')
      ?_ (by simp) ?_ hv ?_ ?_
    · simp
    · simp only [List.cons_append, List.mem_cons, List.mem_append] at ht' ⊢
      tauto
    · rw [udist_pt]; exact hne
    · intro p hp hp0
      simp only [List.cons_append, List.mem_cons] at hp
      rcases hp with rfl | hp
      · simp [udist_pt] at hp0
      · obtain ⟨s, hs, hlt⟩ := hfar p (by simpa using hp)
        rw [udist_pt, hs, udist_pt]
        simpa using hlt)
  exact ⟨w3, h3⟩

/-! ## The best point on the tabu list, and the ranks (C53, C55) -/

/-- The archive: 0 is best, the others are 1, 0.2 and five times 0.21. -/
def tabuList : List (Pt 1 × Val) := [(pt 0.2, 1 / 2), (pt 0.21, 5), (pt 0.21, 5), (pt 0.21, 5), (pt 0.21, 5), (pt 0.21, 5)]

theorem idle_success : ∃ w, Idle1 w [(pt 0.2, 1 / 2)] (SopRec.new (pt 0) 0) := by
  obtain ⟨w, h⟩ := idle_start
  have hA : (w.sop.evals ++ [SopRec.new (pt 0.2) (1 / 2)]).map (fun r => (r.x, r.fx)) =
      [(pt 0, 0), (pt 1, 1), (pt 0.2, 1 / 2)] := by
    rw [List.map_append]
    have := h.arch
    unfold archive at this
    rw [this]; rfl
  obtain ⟨_, w3, _, _, _, _, _, _, h3⟩ := round1 h (by simp) (by simp [SopRec.new]) (pt 0.2) (1 / 2) (by norm_num) false (by
    simp only [Bool.false_eq_true, iff_false]
    refine not_dominated_of hA (i := 2) rfl (t := 0.2) ?_ ?_
    · intro p hp
      simp only [List.mem_cons, List.not_mem_nil, or_false] at hp
      rcases hp with rfl | rfl | rfl
      · rw [udist_pt]; intro _; norm_num [abs_of_pos]
      · rw [udist_pt]; intro _; norm_num [abs_of_neg]
      · rw [udist_pt]; intro h0; norm_num at h0
    · intro p hp hlt
      simp only [List.mem_cons, List.not_mem_nil, or_false] at hp
      rcases hp with rfl | rfl | rfl
      · exact ⟨(pt 0.2, 1 / 2), by simp, by rw [udist_pt]; norm_num, by rw [udist_pt]; norm_num [abs_of_neg]⟩
      · norm_num at hlt
      · norm_num at hlt)
  refine ⟨w3, ?_⟩
  have : (let r1 := (if false = true then (SopRec.new (pt 0) 0 : SopRec 1).fail else SopRec.new (pt 0) 0).tick;
      if r1.nfail > 3 then r1.makeTabu else r1) = SopRec.new (pt 0) 0 := by
    simp [SopRec.tick, SopRec.new]
  rw [this] at h3
  exact h3

theorem Idle1.fail21 {w : SopSys 1} {L : List (Pt 1 × Val)} {r0 : SopRec 1} (h : Idle1 w ((pt 0.2, 1 / 2) :: L) r0)
    (hL : ∀ p ∈ L, p = (pt 0.21, 5)) (hn : L.length < 16) (ht : r0.ntabu ≠ 2) :
    ∃ w3, Idle1 w3 ((pt 0.2, 1 / 2) :: (L ++ [(pt 0.21, 5)])) (let r1 := r0.fail.tick; if r1.nfail > 3 then r1.makeTabu else r1) := by
  refine h.failing (by simp; omega) ht 0.21 0.2 5 (1 / 2) (by norm_num) (by simp) (by norm_num) ?_
  intro p hp
  simp only [List.cons_append, List.mem_cons, List.mem_append, List.not_mem_nil, or_false] at hp
  rcases hp with rfl | rfl | hp | rfl
  · exact ⟨1, rfl, by norm_num [abs_of_pos]⟩
  · exact ⟨0.2, rfl, by norm_num [abs_of_pos]⟩
  · rw [hL p hp]; exact ⟨0.21, rfl, by norm_num [abs_of_pos]⟩
  · exact ⟨0.21, rfl, by norm_num [abs_of_pos]⟩

theorem idle_tabu : ∃ w r0, Idle1 w tabuList r0 ∧ r0.ntabu = 2 := by
  obtain ⟨w, h⟩ := idle_success
  obtain ⟨w, h⟩ := h.fail21 (by simp) (by simp) (by simp [SopRec.new])
  obtain ⟨w, h⟩ := h.fail21 (by simp) (by simp) (by simp [SopRec.new, SopRec.fail, SopRec.tick])
  obtain ⟨w, h⟩ := h.fail21 (by simp) (by simp) (by simp [SopRec.new, SopRec.fail, SopRec.tick])
  obtain ⟨w, h⟩ := h.fail21 (by simp) (by simp) (by simp [SopRec.new, SopRec.fail, SopRec.tick])
  obtain ⟨w, h⟩ := h.fail21 (by simp) (by simp) (by simp [SopRec.new, SopRec.fail, SopRec.tick, SopRec.makeTabu])
  exact ⟨w, _, h, by simp [SopRec.new, SopRec.fail, SopRec.tick, SopRec.makeTabu]⟩

/-- In an idle state a new point can be generated. -/
theorem Idle1.gen {w : SopSys 1} {L : List (Pt 1 × Val)} {r0 : SopRec 1} (h : Idle1 w L r0) (hn : L.length < 18) (x : Pt 1) :
    ∃ w1, w.step (wcfg true 1 1) (.propose (worc x)) = some w1 ∧ Calm (wcfg true 1 1) w1 ∧
      w.sop.generate (wcfg true 1 1) w.sop.evals.length [x] = some w1.sop := by
  have hs : (wcfg true 1 1).base.srbf = none := rfl
  have hr := h.calm.reach
  have hin : w.sys.inflight = [] := by simp [Sys.inflight, h.props, h.recs]
  have hlen : w.sop.evals.length = L.length + 2 := by
    have := congrArg List.length h.arch
    simpa [archive] using this
  have hg : Going (wcfg true 1 1).base w.sys.st := by
    refine ⟨h.term, ?_⟩
    rw [(pending_zero hr).mpr hin, hr.count hs, hlen]
    simp only [wcfg]
    omega
  have hal : Allowed (wcfg true 1 1) w (.propose (worc x)) := by
    intro _ _ _
    refine ⟨by simp [h.props], by simp [h.recs], ?_, by rw [hin]; simp [genCount, wcfg], by rw [hin]; simp [genCount, wcfg]⟩
    rw [← (hr.inv hs).arch, h.arch]
    refine ⟨(pt 0, 0), by simp, (pt 1, 1), by simp, ?_⟩
    simp only [unit_pt]
    intro he
    have := congrFun he 0
    simp [pt] at this
  obtain ⟨w1, h1, h2, _, h4⟩ := gen_step hs rfl (by simp [wcfg]) h.calm h.queue hg hal
  exact ⟨w1, h1, h2, h4⟩

theorem witness_tabu : ∃ w w' x, Reach (wcfg true 1 1) w ∧ IsBest w.sop 0 ∧ (∀ i, ¬ Processing w.sop i) ∧
    w.step (wcfg true 1 1) (.propose (worc x)) = some w' ∧ w'.sop.evals = w.sop.evals ∧
    w'.sop.centers.map Center.index = [2] ∧
    tabuStatus w.sop 1 = 0 ∧ tabuStatus w.sop 2 = 0 ∧
    ¬ Dominated (wcfg true 1 1) w.sop.evals 1 ∧ Dominated (wcfg true 1 1) w.sop.evals 2 := by
  obtain ⟨w, r0, h, htab⟩ := idle_tabu
  obtain ⟨w', hstep, _, hgen⟩ := h.gen (by simp [tabuList]) (pt 0.5)
  have hr := h.calm.reach
  have hs : (wcfg true 1 1).base.srbf = none := rfl
  have hA := h.arch
  unfold archive at hA
  have hval : ∀ i, valueAt w.sop i = (((archive w.sop)[i]?).elim 0 Prod.snd) := by
    intro i
    unfold valueAt archive
    rw [List.getElem?_map]
    cases w.sop.evals[i]? <;> rfl
  rw [h.arch] at hval
  have hlen : w.sop.evals.length = 8 := by
    have := congrArg List.length hA
    simpa [tabuList] using this
  have hnop : ∀ i, ¬ Processing w.sop i := by
    rintro i ⟨ce, hce, hni, _⟩
    exact h.noBusy ce hce hni
  have htabs : ∀ i, tabuStatus w.sop i = (w.sop.evals[i]?).elim 0 SopRec.ntabu := by
    intro i; unfold tabuStatus; rw [if_neg (hnop i)]
  have ht0 : tabuStatus w.sop 0 = 2 := by rw [htabs, h.first]; exact htab
  have htj : ∀ j, 0 < j → tabuStatus w.sop j = 0 := by
    intro j hj
    rw [htabs]
    cases hj' : w.sop.evals[j]? with
    | none => rfl
    | some r => exact (h.rest j r hj hj').2
  have hbest : IsBest w.sop 0 := by
    refine ⟨by omega, ?_, by simp⟩
    intro i hi
    rw [hval 0, hval i]
    rw [hlen] at hi
    interval_cases i <;> simp [tabuList]
  have hfilter : (w.sop.centers.filter fun ce => ce.newIndex.isNone) = [] := by
    rw [List.filter_eq_nil_iff]
    intro ce hce hne
    exact h.noBusy ce hce (by simpa using hne)
  obtain ⟨F, idx, _, _, _, gF, g1, g2, g3, _⟩ := generate_selected (hr.cinv hs) h.fresh hgen
  rw [hfilter] at g1 g2
  simp only [List.map_nil, List.nil_append, List.length_nil] at g1 g2
  have hst := h.stale (by simp [tabuList])
  have hF : F = w.sop.evals.map (fRow (wcfg true 1 1)) := by
    have := gF (by rw [hst]; simp)
    rw [hst] at this
    simpa using this.symm
  have hrank : ∀ i, rankAt F i = ⊤ := by
    intro i
    unfold rankAt
    rw [hF, List.getElem?_map]
    cases w.sop.evals[i]? <;> rfl
  have hl1 : idx.length = 1 := by rw [g2]; rfl
  obtain ⟨a, rfl⟩ := List.length_eq_one_iff.mp hl1
  obtain ⟨ord, ch, ⟨hperm, b, hb, _, hsort⟩, hgr, hpre, hmem⟩ := g3 (by simp)
  have hb0 : b = 0 := by
    rcases Nat.eq_zero_or_pos b with h0 | h0
    · exact h0
    · have h1 := hb.2.2 0 h0
      have h2 := hbest.2.1 b hb.1
      exact absurd h2 (not_le.mpr h1)
  subst hb0
  have hsort := hsort ht0
  have hlo : ord.length = 8 := by rw [hperm.length_eq]; simp [hlen]
  obtain ⟨hd, tl, rfl⟩ : ∃ hd tl, ord = hd :: tl := by
    cases ord with
    | nil => simp at hlo
    | cons x y => exact ⟨x, y, rfl⟩
  have hin : hd ∈ ch := by
    rw [hgr.iff [] hd tl rfl]
    simp
  have hha : hd = a := by simpa using hpre.subset hin
  have hle : ∀ j < 8, j ≠ hd → LexLe (tabuStatus w.sop) (rankAt F) (valueAt w.sop) hd j := by
    intro j hj hne
    have : j ∈ hd :: tl := hperm.mem_iff.mpr (by rw [List.mem_range, hlen]; exact hj)
    rcases List.mem_cons.mp this with h0 | h0
    · exact absurd h0 hne
    · exact (List.pairwise_cons.mp hsort).1 j h0
  have hdlt : hd < 8 := by
    have : hd ∈ List.range w.sop.evals.length := hperm.mem_iff.mp (by simp)
    rw [List.mem_range, hlen] at this
    exact this
  have hv2 : valueAt w.sop 2 = 1 / 2 := by rw [hval]; rfl
  have ha2 : a = 2 := by
    rw [← hha]
    by_contra hne
    have h2 := hle 2 (by norm_num) (fun h => hne h.symm)
    unfold LexLe at h2
    rw [hrank, hrank, htj 2 (by norm_num), hv2] at h2
    rcases h2 with h2 | ⟨h2, h2' | ⟨_, h2'⟩⟩
    · omega
    · exact absurd h2' (lt_irrefl _)
    · rw [hval] at h2'
      have hne0 : hd ≠ 0 := by intro h0; rw [h0, ht0] at h2; omega
      interval_cases hd
      · exact hne0 rfl
      · norm_num [tabuList] at h2'
      · exact hne rfl
      all_goals norm_num [tabuList] at h2'
  refine ⟨w, w', pt 0.5, hr, hbest, hnop, hstep, generate_keeps hgen, by rw [g1, ha2], htj 1 (by norm_num), htj 2 (by norm_num), ?_, ?_⟩
  · refine not_dominated_of hA (i := 1) rfl (t := 0.79) ?_ ?_
    · intro p hp
      simp only [tabuList, List.mem_cons, List.not_mem_nil, or_false] at hp
      rcases hp with rfl | rfl | rfl | rfl | rfl | rfl | rfl | rfl
      all_goals
        rw [udist_pt]; intro h0
        first | (norm_num at h0; done) | norm_num [abs_of_pos]
    · intro p hp hlt
      simp only [tabuList, List.mem_cons, List.not_mem_nil, or_false] at hp
      have key : p = (pt 0, 0) ∨ p = (pt 0.2, 1 / 2) := by
        rcases hp with rfl | rfl | rfl | rfl | rfl | rfl | rfl | rfl
        · exact Or.inl rfl
        · norm_num at hlt
        · exact Or.inr rfl
        all_goals norm_num at hlt
      rcases key with rfl | rfl
      · exact ⟨(pt 0.2, 1 / 2), by simp [tabuList], by rw [udist_pt]; norm_num, by rw [udist_pt]; norm_num [abs_of_neg]⟩
      · exact ⟨(pt 0, 0), by simp, by rw [udist_pt]; norm_num, by rw [udist_pt]; norm_num [abs_of_pos]⟩
  · refine dominated_of hA h.two (i := 2) (l := 0) (x := pt 0.2) (v := 1 / 2) (y := pt 0) (u := 0) (x' := pt 0.21) (v' := 5)
      rfl rfl (by simp [tabuList]) (by norm_num) (by rw [udist_pt]; norm_num) ?_
    intro p hp
    simp only [tabuList, List.mem_cons, List.not_mem_nil, or_false] at hp
    rcases hp with rfl | rfl | rfl | rfl | rfl | rfl | rfl | rfl
    all_goals
      rw [udist_pt, udist_pt]; intro h0
      first | (norm_num at h0; done) | norm_num [abs_of_pos]

end Verif.Sop
