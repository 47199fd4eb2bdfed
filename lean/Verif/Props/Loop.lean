import Verif.Loop.Once

/-! # Properties C74 and C76: the whole loop of strategy, design and auxiliary problem -/

namespace Verif.Props

open Verif.Num Verif.Utils Verif.Cand Verif.Design Verif.Strategy Verif.Spec Verif.Loop

variable {d : ℕ} {L : Setup d}

/-! ## C74: every evaluated point is feasible -/

/-- SRBF, DYCORS, EI and LCB with any of the three designs: for every problem with integer bounds on the integer variables,
feasible extra points, every surrogate, all random draws and every history of answers, values, aborts, crashes and
restarts, all points ever queued, proposed, running, pending or recorded satisfy the bounds and the integrality
constraints. -/
theorem C74_feasible (ok : ProbOk L.prob) (hbs : BatchOk L.cfg) (hx : ∀ e ∈ L.cfg.extras, Feasible L.prob e.1)
    {w : Sys (Pt d)} (h : LoopReach L w) :
    (∀ x ∈ w.st.batchQueue, Feasible L.prob x) ∧ (∀ x ∈ proposals w.st.log, Feasible L.prob x) ∧
    (∀ x ∈ w.inflight, Feasible L.prob x) ∧ (∀ x ∈ w.st.Xpend, Feasible L.prob x) ∧
    (∀ x ∈ w.st.X, Feasible L.prob x) :=
  C62_feasible hx (h.reachF ok hbs hx)

/-! ## C76: no point is evaluated twice -/

/-- EI with positive `ei_tol` and `dtol`, and LCB with positive `dtol`, in a run without restarts and without extra points
of unknown value: no point is proposed while it is queued, running or completed, so that no point is evaluated twice, and
`Xpend` lists exactly the points that are proposed or running. -/
theorem C76_once_partial (ok : ProbOk L.prob) (hm : Separating L.method) (hur : L.cfg.useRestarts = false)
    (hx : ∀ e ∈ L.cfg.extras, e.2 ≠ none) {w : Sys (Pt d)} (h : LoopReach L w) :
    ((completions w.st.log).map Prod.fst ++ w.inflight ++ w.st.batchQueue).Nodup ∧ w.st.Xpend.Perm w.inflight := by
  have ho := h.reach.once (h.fresh ok hm hur hx)
  refine ⟨?_, (C05_xpend_partial h.reach).2 ho.opens⟩
  rw [List.nodup_iff_count]
  intro x
  have := ho.count x
  simp only [Sys.inflight, List.count_append]
  omega

/-- Asynchronous mode, two design points, no restarts. -/
def loopCfg (extras : List (Pt 1 × Option Val)) : Config (Pt 1) where
  asynchronous := true
  batchSize := 1
  maxEvals := 10
  useRestarts := false
  numPts := 2
  extras := extras
  srbf := none

/-- Nothing in flight, initial phase, queue `q`, completed evaluations `c`. -/
structure Idle (cfg : Config (Pt d)) (w : Sys (Pt d)) (q : List (Pt d)) (c : List (Pt d × Val)) : Prop where
  term : w.st.terminate = false
  conv : w.st.converged = false
  queue : w.st.batchQueue = q
  phase : w.st.phase = .initial
  num : w.st.numEvals = c.length
  pend : w.st.pendingEvals = 0
  xpend : w.st.Xpend = []
  props : w.props = []
  recs : w.recs = []
  ev : w.st.evLast = 0
  ev' : 0 < w.st.evNext
  curX : w.st.curX = c.map Prod.fst
  curFX : w.st.curFX = c.map Prod.snd
  fX : w.st.fX = (known cfg.extras).map Prod.snd ++ c.map Prod.snd
  X : w.st.X = (known cfg.extras).map Prod.fst ++ c.map Prod.fst
  surr : w.st.surr = known cfg.extras ++ c
  log : completions w.st.log = c
  srbf : w.st.srbf = cfg.srbf.map fun _ =>
    { status := 0, failcount := 0, radius := 2 / 10, fbest := none, recordQueue := [], nextWeight := 0 }

theorem Idle.cycle {L : Setup d} {w : Sys (Pt d)} {q : List (Pt d)} {x : Pt d} {c : List (Pt d × Val)} {D : List (Pt d)}
    (hD : DesignOf L.prob L.cfg.numPts D) (hm : (c.length : ℤ) < L.cfg.maxEvals) (h : LoopReach L w)
    (hi : Idle L.cfg w (q ++ [x]) c) (v : Val) : ∃ w', LoopReach L w' ∧ Idle L.cfg w' q (c ++ [(x, v)]) := by
  have hw : ¬ wantsPoints L.cfg w.st := by
    rintro ⟨_, _, _, h4, _⟩; rw [hi.queue] at h4; simp at h4
  have h1 : w.step L.cfg (.propose (oracleOf L D none)) = some { w with
      st := (State.makeProposal { w.st with batchQueue := q } x).note (.proposed x .init)
      props := [{ x := x, kind := .init }] } := by
    have : w.st.proposeAction L.cfg (oracleOf L D none) =
        some (.eval x .init, State.makeProposal { w.st with batchQueue := q } x) := by
      rw [proposeAction_going hi.term (by rw [hi.num, hi.pend, add_zero]; exact hm)]
      simp only [hi.conv, Bool.false_eq_true, if_false, hi.queue, hi.phase, State.initProposal, popLast]
      simp
    simp only [Sys.step, this, hi.props, List.nil_append]
  have r1 := LoopReach.propose D none h hD (fun hh => absurd hh hw) (fun _ => rfl) h1
  have r2 := LoopReach.other (.accept 0) r1 (by simp) rfl
  have r3 := LoopReach.other (.complete 0 v) r2 (by simp) (by
    simp only [Sys.step, hi.recs, List.nil_append, List.getElem?_cons_zero, hi.props]
    rfl)
  refine ⟨_, r3, ?_⟩
  have hev : w.st.evNext > w.st.evLast := by rw [hi.ev]; exact hi.ev'
  constructor <;> simp [State.onCompleted, recordCompleted_eq, State.note, State.onAccept, State.makeProposal, hi.term,
    hi.conv, hi.phase, hi.num, hi.pend, hi.xpend, hi.ev, hi.curX, hi.curFX, hi.fX, hi.X, hi.surr, hi.ev', completions_append, hi.log,
    hi.recs, hi.srbf]
  simp [completions]

/-- A run: the two design points are evaluated, then `c` is generated and proposed. -/
theorem loop_demo (p : OptProb 1) (m : Method) (extras : List (Pt 1 × Option Val)) (hx : ∀ e ∈ extras, e.2 ≠ none)
    (a b c : Pt 1) (v1 v2 : Val)
    (hD : DesignOf p 2 [a, b])
    (hg : ∀ s : State (Pt 1), s.curX = [b, a] → s.curFX = [v1, v2] → s.Xpend = [] →
      s.fX = (known extras).map Prod.snd ++ [v1, v2] → GenOf ⟨p, loopCfg extras, m⟩ s 1 (some [c])) :
    ∃ w, LoopReach ⟨p, loopCfg extras, m⟩ w ∧ w.inflight = [c] ∧ (completions w.st.log).map Prod.fst = [b, a] ∧
      w.st.X = (known extras).map Prod.fst ++ [b, a] := by
  have r0 : LoopReach ⟨p, loopCfg extras, m⟩ _ := LoopReach.create [a, b] hD
  have he : unknownExtras (loopCfg extras) = [] := by
    unfold unknownExtras
    rw [List.filterMap_eq_nil_iff]
    intro e he
    cases hv : e.2 with
    | none => exact absurd hv (hx e he)
    | some v => simp
  have i0 : Idle (loopCfg extras) (Sys.create (loopCfg extras) (oracleOf ⟨p, loopCfg extras, m⟩ [a, b] none)) ([a] ++ [b]) [] := by
    have hk := known_eq (cfg := loopCfg extras)
    constructor <;> simp [Sys.create, create_eq, State.blank, he, hk]
    · rfl
    · rfl
  obtain ⟨w1, r1, i1⟩ := i0.cycle hD (by norm_num [loopCfg]) r0 v1
  obtain ⟨w2, r2, i2⟩ := Idle.cycle (q := []) (x := a) (L := ⟨p, loopCfg extras, m⟩) hD (by norm_num [loopCfg]) r1 i1 v2
  have hw : wantsPoints (loopCfg extras) w2.st :=
    ⟨i2.term, by rw [i2.num, i2.pend]; norm_num [loopCfg], i2.conv, i2.queue, .inl rfl⟩
  have hgen : GenOf ⟨p, loopCfg extras, m⟩ w2.st 1 (some [c]) := hg _ i2.curX i2.curFX i2.xpend i2.fX
  have hs : ∃ w3, w2.step (loopCfg extras) (.propose (oracleOf ⟨p, loopCfg extras, m⟩ [a, b] (some [c]))) = some w3 ∧
      w3.props = [{ x := c, kind := .adapt }] ∧ w3.recs = [] ∧ completions w3.st.log = completions w2.st.log ∧
      w3.st.X = w2.st.X := by
    have : ∃ s, w2.st.proposeAction (loopCfg extras) (oracleOf ⟨p, loopCfg extras, m⟩ [a, b] (some [c])) =
        some (.eval c .adapt, s) ∧ completions s.log = completions w2.st.log ∧ s.X = w2.st.X := by
      rw [proposeAction_going i2.term (by rw [i2.num, i2.pend]; norm_num [loopCfg])]
      simp only [i2.conv, Bool.false_eq_true, if_false, i2.queue, List.isEmpty_nil, if_true, State.adaptBranch,
        loopCfg, State.generateEvals, oracleOf, Option.isNone_some, State.afterGenerate, Bool.and_false,
        State.adaptProposal, popLast]
      refine ⟨_, rfl, ?_, rfl⟩
      simp [State.makeProposal, completions]
    obtain ⟨s, h1, h2, h3⟩ := this
    refine ⟨{ w2 with st := s.note (.proposed c .adapt), props := w2.props ++ [{ x := c, kind := .adapt }] },
      by simp only [Sys.step, h1], by simp [i2.props], i2.recs, ?_, h3⟩
    simp only [State.note, completions_append, h2]
    simp [completions]
  obtain ⟨w3, h1, h2, h3, h4, h5⟩ := hs
  refine ⟨w3, .propose [a, b] (some [c]) r2 hD (fun _ => hgen) (fun h => absurd hw h) h1, ?_, ?_, ?_⟩
  · simp [Sys.inflight, h2, h3]
  · rw [h4, i2.log]; rfl
  · rw [h5, i2.X]; rfl

theorem rint_zero' : rint 0 = 0 := by simpa using rint_intCast 0

theorem rint_one' : rint 1 = 1 := by simpa using rint_intCast 1

theorem design_unit (p : OptProb 1) (hl : p.lb = fun _ => 0) (hu : p.ub = fun _ => 1) :
    DesignOf p 2 [fun _ => 0, fun _ => 1] := by
  refine .inr (.inr ⟨by simp [twoFactorialInit], ?_⟩)
  have h0 : roundVars (fromUnitBox (Fin.cons 0 Fin.elim0 : Pt 1) p.lb p.ub) p.intVar p.lb p.ub = fun _ => 0 := by
    funext i
    obtain rfl : i = 0 := Fin.ext (by omega)
    rw [roundVars_apply]
    simp [fromUnitBox, hl, hu, clip]
    simp [rint_zero']
  have h1 : roundVars (fromUnitBox (Fin.cons 1 Fin.elim0 : Pt 1) p.lb p.ub) p.intVar p.lb p.ub = fun _ => 1 := by
    funext i
    obtain rfl : i = 0 := Fin.ext (by omega)
    rw [roundVars_apply]
    simp [fromUnitBox, hl, hu, clip]
    simp [rint_one']
  simp only [twoFactorialPoints, product01, List.flatMap_cons, List.flatMap_nil, List.map_cons, List.map_nil,
    List.append_nil, List.cons_append, List.nil_append, h0, h1]

theorem lcb_gen_at (t : ℝ) (ht : t ≤ 1 / 2) (extras : List (Pt 1 × Option Val)) (v : Val) (hv : lowest ((known extras).map Prod.snd ++ [v, v]) = v)
    (s : State (Pt 1)) (h1 : s.curX = [fun _ => 1, fun _ => 0]) (h2 : s.curFX = [v, v]) (h3 : s.Xpend = [])
    (h4 : s.fX = (known extras).map Prod.snd ++ [v, v]) :
    GenOf ⟨unitProb, loopCfg extras, .lcb 2 (some 0) t⟩ s 1 (some [fun _ => 1 / 2]) := by
  refine ⟨1, ![fun _ => 1, fun _ => 0], ![(v : ℝ), (v : ℝ)], by simp [h1], by simp [h2], rfl, 0, fun _ => (v : ℝ) - 10,
    fun _ => 1, [midRun], rfl, ?_, ?_⟩
  · intro r hr q i
    rw [List.mem_singleton.mp hr]; norm_num [midRun]
  · rw [h3, h4, hv]
    symm
    refine lcbGaLoop_one (midRun_best _) ?_
    have hr : roundVars (fun _ => 1 / 2 : Pt 1) unitProb.intVar unitProb.lb unitProb.ub = fun _ => 1 / 2 := by
      simp [roundVars, unitProb]
    rw [hr]
    have hfar : Separated t (fun _ => 1 / 2 : Pt 1) [fun _ => 1, fun _ => 0] := by
      intro y hy
      simp only [List.mem_cons, List.not_mem_nil, or_false] at hy
      rcases hy with rfl | rfl
      · simp only [eucl, Fin.sum_univ_one]
        rw [Real.sqrt_sq_eq_abs, abs_of_neg (by norm_num)]; linarith
      · simp only [eucl, Fin.sum_univ_one]
        rw [Real.sqrt_sq_eq_abs, abs_of_pos (by norm_num)]; linarith
    change lcbMerit (fun _ => (v : ℝ) - 10) (fun _ => 1) 2 (fun _ => 1) [fun _ => 0] t (fun _ => 1 / 2 : Pt 1) ≤ _
    unfold lcbMerit
    rw [minDist_eq, if_neg (fun hc => absurd ((le_nearestDist_iff (by simp) _).mpr hfar) (not_le.mpr hc.2))]
    rw [WithTop.coe_le_coe, tolOf]; simp only [Option.getD_some]; linarith

theorem lcb_gen (extras : List (Pt 1 × Option Val)) (v : Val) (hv : lowest ((known extras).map Prod.snd ++ [v, v]) = v)
    (s : State (Pt 1)) (h1 : s.curX = [fun _ => 1, fun _ => 0]) (h2 : s.curFX = [v, v]) (h3 : s.Xpend = [])
    (h4 : s.fX = (known extras).map Prod.snd ++ [v, v]) :
    GenOf ⟨unitProb, loopCfg extras, .lcb 2 (some 0) 0.1⟩ s 1 (some [fun _ => 1 / 2]) :=
  lcb_gen_at 0.1 (by norm_num) extras v hv s h1 h2 h3 h4

/-- The hypotheses of `C74_feasible` and `C76_once_partial` are met by a run with adaptive points. -/
example : ∃ w, LoopReach ⟨unitProb, loopCfg [], .lcb 2 (some 0) 0.1⟩ w ∧ w.inflight = [fun _ => 1 / 2] ∧
    (completions w.st.log).map Prod.fst = [fun _ => 1, fun _ => 0] := by
  obtain ⟨w, h1, h2, h3, _⟩ := loop_demo unitProb (.lcb 2 (some 0) 0.1) [] (by simp) (fun _ => 0) (fun _ => 1) (fun _ => 1 / 2) 0 0
    (design_unit _ rfl rfl) (fun s a b c e => lcb_gen [] 0 (by simp [known, lowest]) s a b c e)
  exact ⟨w, h1, h2, h3⟩

example : ProbOk unitProb ∧ Separating (.lcb 2 (some 0) 0.1) ∧ BatchOk (loopCfg []) :=
  ⟨unitProb_ok, by norm_num [Separating], .inl rfl⟩

/-- The integer problem `{0, 1}`. -/
noncomputable def bitProb : OptProb 1 := { lb := fun _ => 0, ub := fun _ => 1, intVar := [0] }

theorem bitProb_ok : ProbOk bitProb :=
  ⟨fun _ => by norm_num [bitProb], fun i _ => ⟨0, by simp [bitProb]⟩, fun i _ => ⟨1, by simp [bitProb]⟩⟩

/-- A population of points 0. -/
noncomputable def zeroRun : GARun 1 0 := { unit := fun _ _ => 0, gens := [] }

theorem zeroRun_best {α : Type} [LinearOrder α] (f : Pt 1 → α) :
    (optimize bitProb.ga f zeroRun.unit zeroRun.gens).best = fun _ => 0 := by
  have h : ∀ k, initialRound bitProb.ga (initialPop bitProb.ga zeroRun.unit k) = fun _ => 0 := by
    intro k; funext i
    obtain rfl : i = 0 := Fin.ext (by omega)
    simp [initialRound, initialPop, bitProb, zeroRun, OptProb.ga, nudgeCol, roundCols, rint_zero']
    rw [if_neg (by norm_num)]
    simp [roundCols, initialPop, rint_zero']
  exact h _

/-- Full statement of C76: no point whose value is known is ever proposed again.  It fails in two ways.
(1) LCB (and EI) with an extra point of known value: the point is not among the points the new ones keep a distance from,
so it can be proposed, although its value is known (here in a run with positive tolerances).
(2) EI with the default `ei_tol`, when all values found so far are equal: the tolerance is 0, and a point that is
already evaluated is proposed again (here on the integer problem `{0, 1}` after both points have been evaluated). -/
theorem C76_refuted :
    (∃ (v : Val) (w : Sys (Pt 1)), LoopReach ⟨unitProb, loopCfg [(fun _ => 1 / 2, some v)], .lcb 2 (some 0) 0.1⟩ w ∧
      (fun _ => 1 / 2, v) ∈ known (loopCfg [(fun _ => 1 / 2, some v)]).extras ∧ w.inflight = [fun _ => 1 / 2]) ∧
    (∃ w : Sys (Pt 1), LoopReach ⟨bitProb, loopCfg [], .ei none 0.1⟩ w ∧
      (fun _ => 0) ∈ (completions w.st.log).map Prod.fst ∧ w.inflight = [fun _ => 0]) := by
  constructor
  · obtain ⟨w, h1, h2, h3, _⟩ := loop_demo unitProb (.lcb 2 (some 0) 0.1) [(fun _ => 1 / 2, some 5)] (by simp) (fun _ => 0)
      (fun _ => 1) (fun _ => 1 / 2) 0 0
      (design_unit _ rfl rfl) (fun s a b c e => lcb_gen _ 0 (by simp [known, lowest]) s a b c e)
    exact ⟨5, w, h1, by simp [known, loopCfg], h2⟩
  · obtain ⟨w, h1, h2, h3, _⟩ := loop_demo bitProb (.ei none 0.1) [] (by simp) (fun _ => 0) (fun _ => 1) (fun _ => 0) 0 0
      (design_unit _ rfl rfl) (by
      intro s a b c e
      refine ⟨1, ![fun _ => 1, fun _ => 0], ![0, 0], by simp [a], by simp [b], rfl, 0, fun _ => 0, fun _ => 1, [zeroRun],
        rfl, ?_, ?_⟩
      · intro r hr q i
        rw [List.mem_singleton.mp hr]; norm_num [zeroRun]
      · have ht : tolOf none s.fX = 0 := by
          rw [e]; simp [tolOf, spread, known]
        rw [c, ht]
        symm
        refine eiGaLoop_one (zeroRun_best _) ?_
        exact (C32_bounds _ _ _ _ _ _ _ one_pos).1)
    exact ⟨w, h1, by rw [h3]; simp, h2⟩

end Verif.Props
