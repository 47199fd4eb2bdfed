import Verif.Units.SopLoop
import Verif.Props.SopLoop
import Verif.Props.SopOrder
import Verif.Props.Units
import Verif.Props.Variables

/-! # Property C113: SOP on the same problem in other units -/

namespace Verif.Props

open Verif.Num Verif.Utils Verif.Cand Verif.Design Verif.Strategy Verif.Spec Verif.Loop Verif.Sop

variable {d : ℕ}

/-! ## Every run of `sopLoopRun` is a run of the closed loop -/

/-- The draws of the candidate searches are in the ranges of their distributions (the truncated normal distribution is centered
at the center of the search). -/
def CandsOk (L : SopSetup d) (S : Surr d) (s : State (Pt d)) (evals : List (SopRec d)) : List (Center d) → List (CandRnd d) → Prop
  | _, [] => True
  | cs, r :: rs => ∀ ce rec, (cs.find? fun ce => ce.newPoint.isNone) = some ce → evals[ce.index]? = some rec →
      (∀ j c, 0 ≤ r.u j c ∧ r.u j c < 1) ∧
      (∀ j i, DrawOk L.prob ce.xc (scalefactors L.prob ((rec.sigma : ℚ) : ℝ) (List.finRange d)) i (r.draws j i)) ∧
      ∀ x cs', sopPoint L S s ce.xc rec.sigma r = some x → assignPoint cs x = some cs' → CandsOk L S s evals cs' rs

/-- All draws of a call of `propose_action` are in their ranges. -/
def SopRndOk (L : SopSetup d) (S : Surr d) (w : SopSys d) (r : SopRnd d) : Prop :=
  DesignOf L.prob L.base.numPts r.design ∧
  ∀ z1 z2, w.sop.firstRanks L.cfg w.sys.st.numEvals.toNat = some z1 → z1.updateCenterList L.cfg w.sys.st.numEvals.toNat = some z2 →
    CandsOk L S w.sys.st z2.evals z2.centers ((List.range (wanted L.base)).map r.cands)

theorem wdm_length {m n : ℕ} (pred : Pt d → ℝ) (X : Fin (n + 1) → Pt d) (Xpend : List (Pt d)) (cand : Fin (m + 1) → Pt d)
    (w dtol : ℝ) : ∃ x, weightedDistanceMerit pred X Xpend cand [w] dtol = [x] := by
  simp only [weightedDistanceMerit, wdmIdx, wdmLoop, List.map_cons, List.map_nil]
  exact ⟨_, rfl⟩

theorem dycors_single {m n : ℕ} {p : OptProb d} {pred : Pt d → ℝ} {X : Fin (n + 1) → Pt d} {prob : ℝ} {Xpend : List (Pt d)}
    {radius : ℝ} {subset : List (Fin d)} {dtol w : ℝ} {xbest : Pt d} {u : Fin (m + 1) → ℕ → ℝ} {forced : Fin (m + 1) → ℕ}
    {z : Fin (m + 1) → Pt d} {l : List (Pt d)}
    (h : candidateDycors p pred X [w] prob Xpend radius subset dtol xbest u forced z = some l) : ∃ x, l = [x] := by
  unfold candidateDycors at h
  dsimp only at h
  split_ifs at h
  simp only [Option.some.injEq] at h
  obtain ⟨x, hx⟩ := wdm_length pred X Xpend _ w dtol
  exact ⟨x, by rw [← h, hx]⟩

theorem sopPoint_of {L : SopSetup d} {S : Surr d} {s : State (Pt d)} {xc x : Pt d} {sigma : ℚ} {r : CandRnd d}
    (hu : ∀ j c, 0 ≤ r.u j c ∧ r.u j c < 1)
    (hd : ∀ j i, DrawOk L.prob xc (scalefactors L.prob ((sigma : ℚ) : ℝ) (List.finRange d)) i (r.draws j i))
    (h : sopPoint L S s xc sigma r = some x) : SopPointOf L s xc sigma x := by
  unfold sopPoint at h
  cases hX : s.curX with
  | nil => rw [hX] at h; cases h
  | cons x0 xs =>
    rw [hX] at h
    simp only [Option.bind_eq_some_iff] at h
    obtain ⟨pred, _, l, hl, hx⟩ := h
    obtain ⟨y, rfl⟩ := dycors_single hl
    simp only [List.head?_cons, Option.some.injEq] at hx
    subst hx
    refine ⟨xs.length, _, r.m, pred, r.u, r.forced, r.draws, _, ?_, fun v h0 h1 => probOf_gt _ v h0 h1, hu, hd, hl⟩
    rw [hX]; exact (List.ofFn_getElem (xs := x0 :: xs)).symm

theorem sopPoints_of {L : SopSetup d} {S : Surr d} {s : State (Pt d)} {evals : List (SopRec d)} (rs : List (CandRnd d))
    (cs : List (Center d)) (hok : CandsOk L S s evals cs rs) {pts : List (Pt d)} (h : sopPoints L S s evals cs rs = some pts) :
    SopPointsOf L s evals cs pts ∧ pts.length = rs.length := by
  induction rs generalizing cs pts with
  | nil => simp only [sopPoints, Option.some.injEq] at h; subst h; exact ⟨trivial, rfl⟩
  | cons r rs ih =>
    simp only [sopPoints, Option.bind_eq_some_iff, Option.map_eq_some_iff] at h
    obtain ⟨ce, h1, rec, h2, x, h3, cs', h4, xs, h5, rfl⟩ := h
    obtain ⟨o1, o2, o3⟩ := hok ce rec h1 h2
    obtain ⟨i1, i2⟩ := ih cs' (o3 x cs' h3 h4) h5
    exact ⟨⟨ce, rec, cs', h1, h2, sopPoint_of o1 o2 h3, h4, i1⟩, by simp [i2]⟩

/-- Runs of `sopLoopRun` with draws in their ranges are runs of the closed loop, so that all its properties hold for them. -/
theorem sopLoopStep_reach {L : SopSetup d} {S : Surr d} {f : Pt d → Val} {w w' : SopSys d} (h : SopLoopReach L w) (e : SEv d)
    (hr : ∀ r, e = .propose r → SopRndOk L S w r) (hs : sopLoopStep L S f w e = some w') : SopLoopReach L w' := by
  cases e with
  | propose r =>
    simp only [sopLoopStep, Option.bind_eq_some_iff] at hs
    obtain ⟨pts, hg, hs⟩ := hs
    unfold sopAnswer at hg
    by_cases hw : wantsPoints L.base w.sys.st
    · rw [if_pos hw] at hg
      simp only [sopGen, Option.bind_eq_some_iff] at hg
      obtain ⟨z1, hz1, z2, hz2, hp⟩ := hg
      obtain ⟨hD, hok⟩ := hr r rfl
      obtain ⟨p1, p2⟩ := sopPoints_of _ _ (hok z1 z2 hz1 hz2) hp
      refine .propose r.design pts h hD (fun _ => ⟨by simpa using p2, fun y1 y2 hy1 hy2 => ?_⟩) (fun hn => absurd hw hn) hs
      rw [hz1] at hy1
      simp only [Option.some.injEq] at hy1
      subst hy1
      rw [hz2] at hy2
      simp only [Option.some.injEq] at hy2
      subst hy2
      exact p1
    · rw [if_neg hw] at hg
      exact .propose r.design pts h (hr r rfl).1 (fun hp => absurd hp hw) (fun _ => by cases hg; rfl) hs
  | accept i => exact .other (.accept i) h (by simp) hs
  | reject i => exact .other (.reject i) h (by simp) hs
  | complete i =>
    simp only [sopLoopStep, Option.bind_eq_some_iff] at hs
    obtain ⟨r, _, hs⟩ := hs
    exact .other (.complete i (f r.x)) h (by simp) hs
  | abort i => exact .other (.abort i) h (by simp) hs
  | update i => exact .other (.update i) h (by simp) hs
  | resume => cases hs; exact .resume h

/-! ## Conversion of a run -/

/-- SOP on the same problem in units in which a value `v` is `a * v + b`: the values of the extra points are converted. -/
noncomputable def _root_.Verif.Loop.SopSetup.units (a b : ℚ) (L : SopSetup d) : SopSetup d :=
  { L with base := { L.base with extras := L.base.extras.map fun e => (e.1, e.2.map fun v => a * v + b) } }

/-- SOP on the same problem with another origin of the variables: bounds and extra points are converted. -/
noncomputable def _root_.Verif.Loop.SopSetup.shift (t : Pt d) (L : SopSetup d) : SopSetup d where
  prob := { lb := fun i => 1 * L.prob.lb i + t i, ub := fun i => 1 * L.prob.ub i + t i, intVar := L.prob.intVar }
  base := { L.base with extras := L.base.extras.map fun e => (fun i => 1 * e.1 i + t i, e.2) }
  ncenters := L.ncenters

theorem mapPt_id_sopSys (γ : Pt d → Pt d) (φ : Val → Val) (w : SopSys d) : (w.map (fun x => x) γ φ).sys = w.sys.mapVal φ := by
  have : w.sys.mapPt (fun x => x) = w.sys := by
    obtain ⟨st, props, recs⟩ := w.sys
    simp only [Sys.mapPt, Sys.mk.injEq]
    refine ⟨?_, ?_, ?_⟩
    · have h1 : ∀ l : List (Finished (Pt d)), l.map (Finished.mapPt fun x => x) = l := fun l =>
        List.map_id'' (fun e => by cases e; rfl) _
      have h2 : ∀ l : List (Event (Pt d)), l.map (Event.mapPt fun x => x) = l := fun l =>
        List.map_id'' (fun e => by cases e <;> simp [Event.mapPt]) _
      cases st
      simp [State.mapPt, h1, h2]
    · exact List.map_id'' (fun e => by cases e; rfl) _
    · exact List.map_id'' (fun e => by cases e; rfl) _
  simp only [SopSys.map, this]

theorem mapVal_id_sys (w : Sys (Pt d)) : w.mapVal (fun v => v) = w := by
  obtain ⟨st, props, recs⟩ := w
  simp only [Sys.mapVal, Sys.mk.injEq, and_true]
  cases st
  simp only [State.mapVal, List.map_id', State.mk.injEq, true_and]
  refine ⟨?_, ?_, ?_⟩
  · exact List.map_id'' (fun e => by cases e; simp [Finished.mapVal]) _
  · rename_i z _
    cases z with
    | none => rfl
    | some z => simp [Srbf.mapVal]
  · exact List.map_id'' (fun e => by cases e <;> simp [Event.mapVal]) _

theorem sem_id (es : List (SEv d)) : es.map (SEv.map (fun x => x) fun r => r) = es :=
  List.map_id'' (fun e => by cases e <;> simp [SEv.map, SopRnd.map]) es

/-- What an observer sees of two runs, the second in units in which `v` is `a * v + b`. -/
theorem sopSame_affine (a b : ℚ) (w : SopSys d) : SameRun a b w.sys (w.map (fun x => x) (fun u => u) fun v => a * v + b).sys := by
  rw [mapPt_id_sopSys]
  exact sameRun_mapVal a b w.sys

/-- SOP, any schedule, crashes and losses, any problem (also with integer variables), any surrogate that converts: with the same
draws, the run for the objective `a * f + b` (`a > 0`, values of extra points converted) proposes the same points in the same
order as the run for `f`, and one raises an exception iff the other does. -/
theorem C113_objective {a b : ℚ} (ha : 0 < a) (L : SopSetup d) (hL : L.base.srbf = none) (S : Surr d) (f : Pt d → Val)
    (D : List (Pt d)) (es : List (SEv d))
    (hS : ∀ es' w', es' <+: es → sopLoopRun L S f D es' = some w' → S.ConvertsAt a b (surrData w'.sys.st)) :
    (sopLoopRun L S f D es = none ↔ sopLoopRun (L.units a b) S (fun x => a * f x + b) D es = none) ∧
    ∀ w, sopLoopRun L S f D es = some w →
      ∃ w', sopLoopRun (L.units a b) S (fun x => a * f x + b) D es = some w' ∧ SameRun a b w.sys w'.sys := by
  have hc : Converts (fun x => x) (fun u => u) (fun v => a * v + b) L.cfg (L.units a b).cfg :=
    { inj := fun _ _ h => h
      iso := fun _ _ => rfl
      mono := fun x y h => by
        have := mul_lt_mul_of_pos_left h ha
        show a * x + b < a * y + b
        linarith
      base := by
        simp [SopSetup.cfg, SopSetup.units, Config.mapVal, Config.mapPt]
      unit := fun x => rfl
      ncenters := rfl }
  have h := sopLoopRun_map (L := L) (L' := L.units a b) (S := S) (S' := S) (f := f) (f' := fun x => a * f x + b) hc hL
    (fun x => rfl) D es (.inl rfl) fun es' w' hp hw => points_affine ha L S w'.sys.st (hS es' w' hp hw)
  rw [List.map_id', sem_id] at h
  rw [h]
  refine ⟨by simp, fun w hw => ⟨_, by rw [hw]; rfl, sopSame_affine a b w⟩⟩

/-- SOP, continuous variables: the run in the variables `x + t` proposes the converted points in the same order. -/
theorem C113_origin (t : Pt d) (L : SopSetup d) (hL : L.base.srbf = none) (hp : L.prob.intVar = []) (S S' : Surr d)
    (f f' : Pt d → Val) (hf : ∀ x, f' (fun i => 1 * x i + t i) = f x) (D : List (Pt d)) (es : List (SEv d))
    (hS : ∀ es' w', es' <+: es → sopLoopRun L S f D es' = some w' → S.SimAt S' 1 t (surrData w'.sys.st)) :
    (sopLoopRun L S f D es = none ↔
      sopLoopRun (L.shift t) S' f' (D.map fun x i => 1 * x i + t i) (es.map (SEv.map (fun x i => 1 * x i + t i) fun r => r)) = none) ∧
    ∀ w, sopLoopRun L S f D es = some w →
      ∃ w', sopLoopRun (L.shift t) S' f' (D.map fun x i => 1 * x i + t i) (es.map (SEv.map (fun x i => 1 * x i + t i) fun r => r)) = some w' ∧
        SimRun 1 t w.sys w'.sys := by
  have hc : Converts (sim 1 t) (fun u => u) (fun v => v) L.cfg (L.shift t).cfg :=
    { inj := sim_injective one_pos t
      iso := fun _ _ => rfl
      mono := fun x y h => h
      base := by
        simp [SopSetup.cfg, SopSetup.shift, Config.mapVal, Config.mapPt]
        intro x _ _
        funext i
        simp [sim]
      unit := fun x => by
        funext i
        simp only [toUnitBox, sim, SopSetup.cfg, SopSetup.shift]
        ring
      ncenters := rfl }
  have h := sopLoopRun_map (L := L) (L' := L.shift t) (S := S) (S' := S') (f := f) (f' := f') hc hL hf D es (.inl rfl)
    fun es' w' hpre hw => points_translate t L hp S S' w'.sys.st (hS es' w' hpre hw)
  rw [show sopLoopRun (L.shift t) S' f' (D.map fun x i => 1 * x i + t i) (es.map (SEv.map (fun x i => 1 * x i + t i) fun r => r)) = _ from h]
  refine ⟨by simp, fun w hw => ⟨_, by rw [hw]; rfl, ?_⟩⟩
  rw [show (w.map (sim 1 t) (fun u => u) fun v => v).sys = w.sys.mapPt (sim 1 t) from mapVal_id_sys _]
  exact simRun_mapPt 1 t w.sys

/-- With an RBF interpolant (any kernel, constant or linear tail, with or without median capping) nothing is assumed about the
surrogate. -/
theorem C113_rbf (p : Surrogate.Par d) (hlu : Surrogate.LuSpec p.lu) (hchol : Surrogate.CholSpec p.chol)
    (htr : p.trans = (fun f => f) ∨ p.trans = Surrogate.medianCapping)
    (hT : p.tail = Surrogate.constantTail d ∨ p.tail = Surrogate.linearTail d) (hb : ∀ i, p.lb i < p.ub i)
    {a b : ℚ} (ha : 0 < a) (L : SopSetup d) (hL : L.base.srbf = none) (f : Pt d → Val) (D : List (Pt d)) (es : List (SEv d)) :
    (sopLoopRun L (rbfSurr p) f D es = none ↔ sopLoopRun (L.units a b) (rbfSurr p) (fun x => a * f x + b) D es = none) ∧
    ∀ w, sopLoopRun L (rbfSurr p) f D es = some w →
      ∃ w', sopLoopRun (L.units a b) (rbfSurr p) (fun x => a * f x + b) D es = some w' ∧ SameRun a b w.sys w'.sys :=
  C113_objective ha L hL (rbfSurr p) f D es fun _ _ _ _ => C100_rbf p hlu hchol htr hT hb ha b _

/-! ## A run that meets the hypotheses -/

/-- SOP with one center, on the unit interval. -/
noncomputable def lineSetup : SopSetup 1 :=
  { prob := unitProb
    base := { asynchronous := false, batchSize := 1, maxEvals := 10, useRestarts := false, numPts := 2, extras := [],
              srbf := none }
    ncenters := 1 }

/-- The design `[0], [1]`; the candidate searches draw the center itself. -/
noncomputable def lineRnd : SopRnd 1 where
  design := [fun _ => 0, fun _ => 1]
  cands := fun _ => ⟨0, fun _ _ => 0, fun _ _ => 0, fun _ => 0⟩

theorem sopAnswer_none {L : SopSetup d} {S : Surr d} {w : SopSys d} {r : SopRnd d} (h : w.sys.st.batchQueue ≠ []) :
    sopAnswer L S w r = some [] := by
  unfold sopAnswer
  rw [if_neg (fun hw => h hw.2.2.2.1)]

theorem sopPoint_isSome {L : SopSetup d} {S : Surr d} {s : State (Pt d)} (hX : s.curX ≠ []) {pred : Pt d → ℝ}
    (hS : S.mean (surrData s) = some pred) (xc : Pt d) (sigma : ℚ) (r : CandRnd d) : ∃ x, sopPoint L S s xc sigma r = some x := by
  obtain ⟨x0, xs, hxs⟩ := List.exists_cons_of_ne_nil hX
  unfold sopPoint
  rw [hxs]
  simp only [hS, Option.bind_some]
  have hrow : ∀ j, ∃ y, dycorsCand xc (scalefactors L.prob ((sigma : ℚ) : ℝ) (List.finRange d)) (List.finRange d)
      (dycorsMask (List.finRange d).length (probOf (State.perturbProb L.base d s)) (r.u j) (r.forced j)) (r.draws j) = some y := by
    intro j
    obtain ⟨y, h1, _⟩ := dycorsCand_prefix xc (scalefactors L.prob ((sigma : ℚ) : ℝ) (List.finRange d)) (List.finRange d)
      (fun i h => by simp) (dycorsMask (List.finRange d).length (probOf (State.perturbProb L.base d s)) (r.u j) (r.forced j)) (r.draws j)
    exact ⟨y, h1⟩
  unfold candidateDycors
  dsimp only
  rw [dif_pos fun j => by obtain ⟨y, hy⟩ := hrow j; rw [hy]; rfl]
  obtain ⟨x, hx⟩ := wdm_length pred (fun i : Fin (xs.length + 1) => (x0 :: xs)[i]) s.Xpend
    (fun j => roundVars ((dycorsCand xc (scalefactors L.prob ((sigma : ℚ) : ℝ) (List.finRange d)) (List.finRange d)
      (dycorsMask (List.finRange d).length (probOf (State.perturbProb L.base d s)) (r.u j) (r.forced j)) (r.draws j)).get
        (by obtain ⟨y, hy⟩ := hrow j; rw [hy]; rfl)) L.prob.intVar L.prob.lb L.prob.ub) 1 1e-3
  exact ⟨x, by rw [hx]; rfl⟩

/-- The design is evaluated. -/
theorem line_warm : ∃ w : SopSys 1, sopLoopRun lineSetup meanSurr (fun x => if x 0 = 0 then 0 else 1) [fun _ => 0, fun _ => 1]
      [.propose lineRnd, .propose lineRnd, .accept 0, .accept 0, .complete 0, .complete 0] = some w ∧ Sop.Reach lineSetup.cfg w ∧
    (∃ u v, w.sop = ⟨[SopRec.new (fun _ => 1) u, SopRec.new (fun _ => 0) v], [], none⟩) ∧ w.sys.st.batchQueue = [] ∧
    w.sys.st.pendingEvals = 0 ∧ w.sys.st.numEvals = 2 ∧ w.sys.st.terminate = false ∧
    w.sys.st.converged = false ∧ w.sys.st.curX ≠ [] ∧ w.sys.st.surr ≠ [] ∧ generatedPts w.sys.st.log = [] := by
  have key : ∀ {w w1 w2 w3 w4 w5 w6 : SopSys 1} {f : Pt 1 → Val}, w.sys.st.batchQueue ≠ [] →
      w.step lineSetup.cfg (.propose (sopOracle lineSetup lineRnd.design [])) = some w1 → w1.sys.st.batchQueue ≠ [] →
      w1.step lineSetup.cfg (.propose (sopOracle lineSetup lineRnd.design [])) = some w2 →
      w2.step lineSetup.cfg (.accept 0) = some w3 → w3.step lineSetup.cfg (.accept 0) = some w4 →
      (w4.sys.recs[0]?.bind fun r => w4.step lineSetup.cfg (.complete 0 (f r.x))) = some w5 →
      (w5.sys.recs[0]?.bind fun r => w5.step lineSetup.cfg (.complete 0 (f r.x))) = some w6 →
      sopLoopSteps lineSetup meanSurr f w
        [.propose lineRnd, .propose lineRnd, .accept 0, .accept 0, .complete 0, .complete 0] = some w6 := by
    intro w w1 w2 w3 w4 w5 w6 f h0 e1 h1 e2 e3 e4 e5 e6
    simp only [sopLoopSteps, sopLoopStep, sopAnswer_none h0, Option.bind_some, e1, sopAnswer_none h1, e2, e3, e4, e5, e6]
  have c0 : Sop.Reach lineSetup.cfg _ := .create (sopOracle lineSetup [fun _ => 0, fun _ => 1] [])
  have c1 := c0.step (.propose (sopOracle lineSetup lineRnd.design [])) rfl
  have c2 := c1.step (.propose (sopOracle lineSetup lineRnd.design [])) rfl
  have c3 := c2.step (.accept 0) rfl
  have c4 := c3.step (.accept 0) rfl
  have c5 := c4.step (.complete 0 (if (1 : ℝ) = 0 then 0 else 1)) rfl
  have c6 := c5.step (.complete 0 (if (0 : ℝ) = 0 then 0 else 1)) rfl
  refine ⟨_, key (w := SopSys.create lineSetup.cfg (sopOracle lineSetup [fun _ => 0, fun _ => 1] [])) ?_ rfl ?_ rfl rfl rfl rfl rfl,
    c6, ⟨_, _, rfl⟩, rfl, rfl, rfl, rfl, rfl, ?_, ?_, rfl⟩
  · exact List.cons_ne_nil _ _
  · exact List.cons_ne_nil _ _
  · exact List.cons_ne_nil _ _
  · exact List.cons_ne_nil _ _

/-- A run of SOP with two evaluated design points, after which a point is generated; it meets the hypotheses of `C113_objective`
and of `C113_origin` (with the same surrogate on both sides). -/
theorem line_demo : ∃ w, sopLoopRun lineSetup meanSurr (fun x => if x 0 = 0 then 0 else 1) [fun _ => 0, fun _ => 1]
      ([.propose lineRnd, .propose lineRnd, .accept 0, .accept 0, .complete 0, .complete 0] ++ [.propose lineRnd]) = some w ∧
    (generatedPts w.sys.st.log).length = 1 := by
  obtain ⟨w, hw, hr, ⟨u, v, hsop⟩, hq, hpend, hnum, ht, hcv, hX, hsu, hgp⟩ := line_warm
  have hs : lineSetup.cfg.base.srbf = none := rfl
  have hg : Going lineSetup.cfg.base w.sys.st := ⟨ht, by rw [hnum, hpend]; norm_num [SopSetup.cfg, lineSetup]⟩
  have hgen : ∀ x, ∃ z, w.sop.generate lineSetup.cfg w.sys.st.numEvals.toNat [x] = some z := by
    intro x
    refine generate_isSome (hr.cinv hs) (by rw [hsop, hnum]; rfl) ?_ (by rw [hsop]; simp) (by simp [SopSetup.cfg, lineSetup])
      (by rw [hsop]; simp [busyPts, SopSetup.cfg, lineSetup])
    rw [hsop]
    refine ⟨SopRec.new (fun _ => 1) u, by simp, SopRec.new (fun _ => 0) v, by simp, ?_⟩
    simp only [SopRec.new]
    intro he
    have := congrFun he 0
    simp [toUnitBox, SopSetup.cfg, lineSetup, unitProb] at this
  obtain ⟨pred, hpred⟩ : ∃ pred, (meanSurr : Surr 1).mean (surrData w.sys.st) = some pred := by
    unfold meanSurr
    simp only
    rw [if_neg (by simpa [surrData] using hsu)]
    exact ⟨_, rfl⟩
  obtain ⟨x, hx⟩ : ∃ x, sopAnswer lineSetup meanSurr w lineRnd = some [x] := by
    unfold sopAnswer
    rw [if_pos ⟨ht, hg.2, hcv, hq, .inr hpend⟩]
    obtain ⟨z, hz⟩ := hgen (fun _ => 0)
    unfold Sop.generate at hz
    unfold sopGen
    cases h1 : w.sop.firstRanks lineSetup.cfg w.sys.st.numEvals.toNat with
    | none => rw [h1] at hz; cases hz
    | some z1 =>
      rw [h1] at hz
      simp only [Option.bind_some] at hz ⊢
      cases h2 : z1.updateCenterList lineSetup.cfg w.sys.st.numEvals.toNat with
      | none => rw [h2] at hz; cases hz
      | some z2 =>
        rw [h2] at hz
        simp only [Option.bind_some] at hz ⊢
        obtain ⟨_, i1⟩ := firstRanks_keeps h1 (hr.cinv hs)
        have i2 := (updateCenterList_cinv h2 i1).1
        cases h3 : [fun _ : Fin 1 => (0 : ℝ)].foldlM assignPoint z2.centers with
        | none => rw [h3] at hz; cases hz
        | some cs =>
          simp only [List.foldlM_cons, List.foldlM_nil, Option.bind_eq_bind, Option.bind_eq_some_iff] at h3
          obtain ⟨cs1, h3, _⟩ := h3
          obtain ⟨l, ce, rr, e1, e2, e3, e4⟩ := assignPoint_spec h3
          have hfind : (z2.centers.find? fun ce => ce.newPoint.isNone) = some ce := by
            rw [e1, List.find?_append, List.find?_eq_none.mpr]
            · simp [e3]
            · intro c hc
              have := e4 c hc
              cases hcn : c.newPoint with
              | none => exact absurd hcn this
              | some y => simp
          obtain ⟨v', hv'⟩ := i2.at_ ce (by rw [e1]; simp)
          unfold archive at hv'
          rw [List.getElem?_map] at hv'
          obtain ⟨rec, hrec, _⟩ := Option.map_eq_some_iff.mp hv'
          obtain ⟨x, hx⟩ := sopPoint_isSome (L := lineSetup) hX hpred ce.xc rec.sigma (lineRnd.cands 0)
          have hass : ∃ cs', assignPoint z2.centers x = some cs' := by
            rw [e1]
            clear e1 e2 h3 hfind hv' hrec hz h2
            induction l with
            | nil => exact ⟨_, by simp [assignPoint, e3]; rfl⟩
            | cons a l ih =>
              obtain ⟨cs', h'⟩ := ih (fun c hc => e4 c (by simp [hc]))
              have := e4 a (by simp)
              cases han : a.newPoint with
              | none => exact absurd han this
              | some y => exact ⟨_, by simp only [List.cons_append, assignPoint, han, h']; rfl⟩
          obtain ⟨cs', hcs'⟩ := hass
          refine ⟨x, ?_⟩
          rw [show (List.range (wanted lineSetup.base)).map lineRnd.cands = [lineRnd.cands 0] from rfl]
          simp only [sopPoints, hfind, hrec, hx, hcs', Option.bind_some, Option.map_some]
  obtain ⟨z, hz⟩ := hgen x
  have hstep := step_propose_gen hs w hcv (sopOracle lineSetup lineRnd.design [x]) hg hq (.inr hpend) x [] rfl
  rw [List.nil_append, hz] at hstep
  have happ : ∀ (es fs : List (SEv 1)) (w0 : SopSys 1) (f : Pt 1 → Val), sopLoopSteps lineSetup meanSurr f w0 (es ++ fs) =
      (sopLoopSteps lineSetup meanSurr f w0 es).bind fun w' => sopLoopSteps lineSetup meanSurr f w' fs := by
    intro es fs
    induction es with
    | nil => intro w0 f; rfl
    | cons e es ih =>
      intro w0 f
      simp only [List.cons_append, sopLoopSteps]
      cases sopLoopStep lineSetup meanSurr f w0 e with
      | none => rfl
      | some w' => exact ih w' f
  unfold sopLoopRun at hw ⊢
  rw [happ, hw]
  simp only [Option.bind_some, sopLoopSteps, sopLoopStep, hx, hstep, Option.map_some]
  refine ⟨_, rfl, ?_⟩
  simp only [proposeLast, State.note, State.makeProposal, genState, generatedPts_append, hgp]
  rfl

/-- The same run in other units of the objective. -/
example : ∃ w, sopLoopRun (lineSetup.units 3 (-7)) meanSurr (fun x => 3 * (if x 0 = 0 then 0 else 1) + -7)
      [fun _ => 0, fun _ => 1]
      ([.propose lineRnd, .propose lineRnd, .accept 0, .accept 0, .complete 0, .complete 0] ++ [.propose lineRnd]) = some w := by
  obtain ⟨w, h1, _⟩ := line_demo
  obtain ⟨w', h', _⟩ := (C113_objective (a := 3) (b := -7) (by norm_num) lineSetup rfl meanSurr _ _ _
    (fun _ w' _ _ => meanSurr_converts (by norm_num) _ _)).2 w h1
  exact ⟨w', h'⟩

/-- The same run on the interval `[5, 6]`. -/
example : ∃ w, sopLoopRun (lineSetup.shift fun _ => 5) meanSurr (fun x => if x 0 - 5 = 0 then 0 else 1)
      [fun _ => 1 * 0 + 5, fun _ => 1 * 1 + 5]
      (([SEv.propose lineRnd, SEv.propose lineRnd, SEv.accept 0, SEv.accept 0, SEv.complete 0, SEv.complete 0] ++ [SEv.propose lineRnd]).map
        (SEv.map (fun x i => 1 * x i + 5) fun r => r)) = some w := by
  obtain ⟨w, h1, _⟩ := line_demo
  obtain ⟨w', h', _⟩ := (C113_origin (fun _ => 5) lineSetup rfl rfl meanSurr meanSurr _ (fun x => if x 0 - 5 = 0 then 0 else 1)
    (fun x => by simp) _ _ (fun _ w' _ _ => by
      have he : ∀ D : List (Pt 1 × ℝ), (simData 1 (fun _ => 5) D).map Prod.snd = D.map Prod.snd := fun D => by
        simp [simData, Function.comp_def]
      have hn : ∀ D : List (Pt 1 × ℝ), simData 1 (fun _ => 5) D = [] ↔ D = [] := fun D => by simp [simData]
      constructor
      · simp only [meanSurr, hn, he]
        split_ifs <;> rfl
      · simp only [meanSurr, hn, he]
        split_ifs <;> rfl)).2 w h1
  exact ⟨w', h'⟩

end Verif.Props
