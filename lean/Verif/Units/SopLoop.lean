import Verif.Loop.SopRun
import Verif.Sop.Equivar
import Verif.Units.SimLoop

/-! # The closed loop of SOP in other units (for C113) -/

namespace Verif.Loop

open Verif.Num Verif.Utils Verif.Cand Verif.Design Verif.Strategy Verif.Sop

variable {d : ℕ}

/-- The design consists of points; the draws of the candidate searches are converted by `ρ`. -/
def SopRnd.map (g : Pt d → Pt d) (ρ : CandRnd d → CandRnd d) (r : SopRnd d) : SopRnd d where
  design := r.design.map g
  cands := fun k => ρ (r.cands k)

/-- The same schedule. -/
def SEv.map (g : Pt d → Pt d) (ρ : CandRnd d → CandRnd d) : SEv d → SEv d
  | .propose r => .propose (r.map g ρ)
  | e => e

variable {g γ : Pt d → Pt d} {ρ : CandRnd d → CandRnd d} {φ : Val → Val} {L L' : SopSetup d} {S S' : Surr d}

/-- The candidate searches in state `s` give converted points. -/
def PointsConvert (g : Pt d → Pt d) (ρ : CandRnd d → CandRnd d) (φ : Val → Val) (L L' : SopSetup d) (S S' : Surr d) (s : State (Pt d)) : Prop :=
  ∀ xc sigma r, sopPoint L' S' ((s.mapPt g).mapVal φ) (g xc) sigma (ρ r) = (sopPoint L S s xc sigma r).map g

theorem firstRanks_map {c c' : Cfg d} (h : Converts g γ φ c c') (n : ℕ) (z : Sop d) :
    (z.map g γ φ).firstRanks c' n = (z.firstRanks c n).map (Sop.map g γ φ) := by
  unfold Sop.firstRanks
  rw [show (z.map g γ φ).F = z.F.map fun F => F.map (FRow.map γ φ) from rfl]
  cases hz : z.F with
  | none => simp only [Option.map_none]; exact updateRanks_map h n z
  | some F => rfl

theorem sopPoints_map {s : State (Pt d)} (hP : PointsConvert g ρ φ L L' S S' s) (evals : List (SopRec d))
    (rs : List (CandRnd d)) (cs : List (Center d)) :
    sopPoints L' S' ((s.mapPt g).mapVal φ) (evals.map (SopRec.map g φ)) (cs.map (Center.map g)) (rs.map ρ) =
      (sopPoints L S s evals cs rs).map fun pts => pts.map g := by
  induction rs generalizing cs with
  | nil => rfl
  | cons r rs ih =>
    simp only [List.map_cons, sopPoints]
    have hf : ((cs.map (Center.map g)).find? fun ce => ce.newPoint.isNone) =
        (cs.find? fun ce => ce.newPoint.isNone).map (Center.map g) := by
      rw [List.find?_map]
      congr 1
      refine congrArg (fun p => cs.find? p) ?_
      funext ce
      simp [Center.map]
    rw [hf]
    cases cs.find? fun ce => ce.newPoint.isNone with
    | none => rfl
    | some ce =>
      simp only [Option.map_some, Option.bind_some]
      rw [show (ce.map g).index = ce.index from rfl, List.getElem?_map]
      cases evals[ce.index]? with
      | none => rfl
      | some rec =>
        simp only [Option.map_some, Option.bind_some]
        rw [show (ce.map g).xc = g ce.xc from rfl, show (rec.map g φ).sigma = rec.sigma from rfl, hP]
        cases sopPoint L S s ce.xc rec.sigma r with
        | none => rfl
        | some x =>
          simp only [Option.map_some, Option.bind_some, assignPoint_map]
          cases assignPoint cs x with
          | none => rfl
          | some cs' =>
            simp only [Option.map_some, Option.bind_some, ih]
            cases sopPoints L S s evals cs' rs <;> rfl

theorem sopAnswer_map (hc : Converts g γ φ L.cfg L'.cfg) {w : SopSys d} (hP : PointsConvert g ρ φ L L' S S' w.sys.st) (r : SopRnd d) :
    sopAnswer L' S' (w.map g γ φ) (r.map g ρ) = (sopAnswer L S w r).map fun pts => pts.map g := by
  have hb : L'.base = (L.base.mapPt g).mapVal φ := hc.base
  have hw : wantsPoints L'.base (w.map g γ φ).sys.st ↔ wantsPoints L.base w.sys.st := by
    unfold wantsPoints
    rw [hb]
    simp only [SopSys.map, Sys.mapVal, State.mapVal, Sys.mapPt, State.mapPt, Config.mapVal, Config.mapPt, List.map_eq_nil_iff]
  unfold sopAnswer
  by_cases hp : wantsPoints L.base w.sys.st
  · rw [if_pos hp, if_pos (hw.mpr hp)]
    unfold sopGen
    rw [show wanted L'.base = wanted L.base by rw [hb]; rfl, show (w.map g γ φ).sop = w.sop.map g γ φ from rfl,
      show (w.map g γ φ).sys.st.numEvals = w.sys.st.numEvals from rfl, firstRanks_map hc]
    cases w.sop.firstRanks L.cfg w.sys.st.numEvals.toNat with
    | none => rfl
    | some z1 =>
      simp only [Option.map_some, Option.bind_some, updateCenterList_map hc]
      cases z1.updateCenterList L.cfg w.sys.st.numEvals.toNat with
      | none => rfl
      | some z2 =>
        simp only [Option.map_some, Option.bind_some]
        have := sopPoints_map hP z2.evals ((List.range (wanted L.base)).map r.cands) z2.centers
        rw [List.map_map] at this
        exact this
  · rw [if_neg hp, if_neg (fun h => hp (hw.mp h))]; rfl

/-! ## Only the answers that are read matter -/

/-- The two oracles give the same answers where they are read. -/
structure Agree (cfg : Config (Pt d)) (s : State (Pt d)) (o o' : Oracle (Pt d)) : Prop where
  design : ∀ i < cfg.numPts, o.design i = o'.design i
  pts : wantsPoints cfg s → cfg.srbf.isSome = true ∨ o.giveUp = false → ∀ i < wanted cfg, o.pts i = o'.pts i
  giveUp : o.giveUp = o'.giveUp

theorem sampleInitial_agree {cfg : Config (Pt d)} {o o' : Oracle (Pt d)}
    (h : ∀ i < cfg.numPts, o.design i = o'.design i) (s : State (Pt d)) : s.sampleInitial cfg o = s.sampleInitial cfg o' := by
  unfold State.sampleInitial
  rw [show (List.range cfg.numPts).map o.design = (List.range cfg.numPts).map o'.design from
    List.map_congr_left fun i hi => h i (List.mem_range.mp hi)]

theorem sampleRestart_agree {cfg : Config (Pt d)} {o o' : Oracle (Pt d)}
    (h : ∀ i < cfg.numPts, o.design i = o'.design i) (s : State (Pt d)) : s.sampleRestart cfg o = s.sampleRestart cfg o' := by
  unfold State.sampleRestart
  simp only [sampleInitial_agree h]

theorem generateEvals_agree {cfg : Config (Pt d)} {o o' : Oracle (Pt d)} {n : ℕ}
    (h : cfg.srbf.isSome = true ∨ o.giveUp = false → ∀ i < n, o.pts i = o'.pts i) (hg : o.giveUp = o'.giveUp) (s : State (Pt d)) :
    s.generateEvals cfg o n = s.generateEvals cfg o' n := by
  have key : (cfg.srbf.isSome = true ∨ o.giveUp = false) → (List.range n).map o.pts = (List.range n).map o'.pts := fun h' =>
    List.map_congr_left fun i hi => h h' i (List.mem_range.mp hi)
  unfold State.generateEvals
  split
  · rename_i sc z hsc hz
    rw [key (.inl (by rw [hsc]; rfl))]
  · rw [← hg]
    by_cases hgu : o.giveUp = true
    · rw [if_pos hgu, if_pos hgu]
    · rw [if_neg hgu, if_neg hgu, key (.inr (by simpa using hgu))]

theorem afterGenerate_agree {cfg : Config (Pt d)} {o o' : Oracle (Pt d)}
    (h : ∀ i < cfg.numPts, o.design i = o'.design i) (s : State (Pt d)) : s.afterGenerate cfg o = s.afterGenerate cfg o' := by
  unfold State.afterGenerate
  simp only [sampleRestart_agree h]

theorem proposeAction_agree {cfg : Config (Pt d)} {o o' : Oracle (Pt d)} {s : State (Pt d)} (h : Agree cfg s o o') :
    s.proposeAction cfg o = s.proposeAction cfg o' := by
  by_cases ht : s.terminate = true ∨ cfg.maxEvals ≤ s.numEvals + s.pendingEvals
  · rw [proposeAction_terminate ht, proposeAction_terminate ht]
  · simp only [not_or, not_le, Bool.not_eq_true] at ht
    rw [proposeAction_going ht.1 ht.2, proposeAction_going ht.1 ht.2]
    simp only [sampleRestart_agree h.design]
    have ha : s.converged = false → s.batchQueue = [] → s.adaptBranch cfg o = s.adaptBranch cfg o' := by
      intro hcv hq
      unfold State.adaptBranch
      simp only [afterGenerate_agree h.design]
      by_cases hs : cfg.asynchronous = true
      · have hp := h.pts ⟨ht.1, ht.2, hcv, hq, .inl hs⟩
        rw [wanted, if_pos hs] at hp
        simp only [hs, if_true, generateEvals_agree hp h.giveUp]
      · by_cases hz : s.pendingEvals = 0
        · have hp := h.pts ⟨ht.1, ht.2, hcv, hq, .inr hz⟩
          rw [wanted, if_neg hs] at hp
          simp only [if_neg hs, generateEvals_agree hp h.giveUp]
        · have : (s.pendingEvals == 0) = false := by simpa using hz
          simp only [if_neg hs, this]
          rfl
    by_cases hcv : s.converged = true
    · simp only [hcv, if_true]
    · by_cases hq : s.batchQueue = []
      · rw [ha (by simpa using hcv) hq]
      · have : s.batchQueue.isEmpty = false := by simpa using hq
        rw [this]
        rfl

theorem sopStep_agree {c : Cfg d} {o o' : Oracle (Pt d)} {w : SopSys d} (h : Agree c.base w.sys.st o o')
    (hg : o.giveUp = false) : w.step c (.propose o) = w.step c (.propose o') := by
  have h' : Agree c.base w.sys.st { o with giveUp := false } { o' with giveUp := false } := ⟨h.design, fun hw _ => h.pts hw (.inr hg), rfl⟩
  simp only [SopSys.step, Sys.step, proposeAction_agree h']

theorem sopPoints_length {s : State (Pt d)} {evals : List (SopRec d)} {rs : List (CandRnd d)} {cs : List (Center d)}
    {pts : List (Pt d)} (h : sopPoints L S s evals cs rs = some pts) : pts.length = rs.length := by
  induction rs generalizing cs pts with
  | nil => simp only [sopPoints, Option.some.injEq] at h; rw [← h]; rfl
  | cons r rs ih =>
    simp only [sopPoints, Option.bind_eq_some_iff] at h
    obtain ⟨ce, _, rec, _, x, _, cs', _, h⟩ := h
    simp only [Option.map_eq_some_iff] at h
    obtain ⟨l, hl, rfl⟩ := h
    simp [ih hl]

theorem sopAnswer_length {w : SopSys d} {r : SopRnd d} {pts : List (Pt d)} (h : sopAnswer L S w r = some pts)
    (hw : wantsPoints L.base w.sys.st) : pts.length = wanted L.base := by
  unfold sopAnswer at h
  rw [if_pos hw] at h
  simp only [sopGen, Option.bind_eq_some_iff] at h
  obtain ⟨z1, _, z2, _, h⟩ := h
  rw [sopPoints_length h]
  simp

/-- The design is complete. -/
def SEv.Long (n : ℕ) : SEv d → Prop
  | .propose r => n ≤ r.design.length
  | _ => True

theorem getD_map_agree {l : List (Pt d)} {a b : Pt d} {i : ℕ} (h : b = g a ∨ i < l.length) :
    (l.map g).getD i b = g (l.getD i a) := by
  simp only [List.getD_eq_getElem?_getD, List.getElem?_map]
  rcases h with rfl | h
  · exact Option.getD_map ..
  · rw [List.getElem?_eq_getElem h]; rfl

theorem sopOracle_agree (hc : Converts g γ φ L.cfg L'.cfg) {D pts : List (Pt d)} {w : SopSys d}
    (hl : L'.prob.lb = g L.prob.lb ∨ L.base.numPts ≤ D.length)
    (hp : wantsPoints L.base w.sys.st → pts.length = wanted L.base) :
    Agree L'.base (w.map g γ φ).sys.st (sopOracle L' (D.map g) (pts.map g)) ((sopOracle L D pts).mapPt g) := by
  have hb : L'.base = (L.base.mapPt g).mapVal φ := hc.base
  refine ⟨fun i hi => ?_, fun hw _ i hi => ?_, rfl⟩
  · refine getD_map_agree (hl.imp id fun h => lt_of_lt_of_le ?_ h)
    rw [hb] at hi
    exact hi
  · refine getD_map_agree (Or.inr ?_)
    rw [hp]
    · rw [hb] at hi
      exact hi
    · unfold wantsPoints at hw
      rw [hb] at hw
      simp only [SopSys.map, Sys.mapVal, State.mapVal, Sys.mapPt, State.mapPt, Config.mapVal, Config.mapPt,
        List.map_eq_nil_iff] at hw
      exact hw

theorem sopLoopStep_map (hc : Converts g γ φ L.cfg L'.cfg) (hs : L.base.srbf = none) {f f' : Pt d → Val} (hf : ∀ x, f' (g x) = φ (f x)) {w : SopSys d} (hP : PointsConvert g ρ φ L L' S S' w.sys.st) (e : SEv d)
    (hl : L'.prob.lb = g L.prob.lb ∨ e.Long L.base.numPts) :
    sopLoopStep L' S' f' (w.map g γ φ) (e.map g ρ) = (sopLoopStep L S f w e).map (SopSys.map g γ φ) := by
  have hst := fun op => sopStep_map hc hs w op
  cases e with
  | propose r =>
    simp only [SEv.map, sopLoopStep, sopAnswer_map hc hP]
    cases hans : sopAnswer L S w r with
    | none => rfl
    | some pts =>
      simp only [Option.map_some, Option.bind_some]
      rw [show (r.map g ρ).design = r.design.map g from rfl,
        sopStep_agree (sopOracle_agree hc hl fun hw => sopAnswer_length hans hw) rfl]
      exact hst (.propose (sopOracle L r.design pts))
  | accept i => exact hst (.accept i)
  | reject i => exact hst (.reject i)
  | complete i =>
    simp only [SEv.map, sopLoopStep]
    rw [show (w.map g γ φ).sys.recs[i]? = (w.sys.recs[i]?).map (Rec.mapPt g) by rw [← List.getElem?_map]; rfl]
    cases w.sys.recs[i]? with
    | none => rfl
    | some r =>
      simp only [Option.map_some, Option.bind_some]
      rw [show (r.mapPt g).x = g r.x from rfl, hf]
      exact hst (.complete i (f r.x))
  | abort i => exact hst (.abort i)
  | update i => exact hst (.update i)
  | resume => simp only [SEv.map, sopLoopStep, Option.map_some]; rw [sopResumed_map]

theorem sopLoopSteps_map (hc : Converts g γ φ L.cfg L'.cfg) (hs : L.base.srbf = none)
    {f f' : Pt d → Val} (hf : ∀ x, f' (g x) = φ (f x)) (es : List (SEv d)) (w : SopSys d)
    (hl : L'.prob.lb = g L.prob.lb ∨ ∀ e ∈ es, e.Long L.base.numPts)
    (hP : ∀ es' w', es' <+: es → sopLoopSteps L S f w es' = some w' → PointsConvert g ρ φ L L' S S' w'.sys.st) :
    sopLoopSteps L' S' f' (w.map g γ φ) (es.map (SEv.map g ρ)) = (sopLoopSteps L S f w es).map (SopSys.map g γ φ) := by
  induction es generalizing w with
  | nil => rfl
  | cons e es ih =>
    simp only [List.map_cons, sopLoopSteps]
    rw [sopLoopStep_map hc hs hf (hP [] w List.nil_prefix rfl) e (hl.imp id fun h => h e (by simp))]
    cases hw : sopLoopStep L S f w e with
    | none => rfl
    | some w' =>
      simp only [Option.map_some, Option.bind_some]
      refine ih w' (hl.imp id fun h e he => h e (by simp [he])) fun es' w'' hp h => hP (e :: es') w'' (List.prefix_cons_inj e |>.mpr hp) ?_
      simp only [sopLoopSteps, hw, Option.bind_some, h]

theorem sopLoopRun_map (hc : Converts g γ φ L.cfg L'.cfg) (hs : L.base.srbf = none)
    {f f' : Pt d → Val} (hf : ∀ x, f' (g x) = φ (f x)) (D : List (Pt d)) (es : List (SEv d))
    (hl : L'.prob.lb = g L.prob.lb ∨ L.base.numPts ≤ D.length ∧ ∀ e ∈ es, e.Long L.base.numPts)
    (hP : ∀ es' w', es' <+: es → sopLoopRun L S f D es' = some w' → PointsConvert g ρ φ L L' S S' w'.sys.st) :
    sopLoopRun L' S' f' (D.map g) (es.map (SEv.map g ρ)) = (sopLoopRun L S f D es).map (SopSys.map g γ φ) := by
  unfold sopLoopRun
  have h0 : SopSys.create L'.cfg (sopOracle L' (D.map g) []) = SopSys.create L'.cfg ((sopOracle L D []).mapPt g) := by
    have hb : L'.base = (L.base.mapPt g).mapVal φ := hc.base
    have hd : ∀ i < L'.base.numPts, (sopOracle L' (D.map g) []).design i = ((sopOracle L D []).mapPt g).design i :=
      fun i hi => getD_map_agree (hl.imp id fun h => lt_of_lt_of_le (by rw [hb] at hi; exact hi) h.1)
    unfold SopSys.create Sys.create State.create
    simp only [SopSetup.cfg, sampleInitial_agree hd]
  rw [h0, sopCreate_map hc]
  exact sopLoopSteps_map hc hs hf es _ (hl.imp id And.right) hP

/-! ## The candidate searches -/

theorem points_affine {a b : ℚ} (ha : 0 < a) (L : SopSetup d) (S : Surr d) (s : State (Pt d))
    (hS : S.ConvertsAt a b (surrData s)) :
    PointsConvert (fun x => x) (fun r => r) (fun v => a * v + b) L { L with base := L.base.mapVal fun v => a * v + b } S S s := by
  intro xc sigma r
  have haR : (0 : ℝ) < a := by exact_mod_cast ha
  have hd : surrData ((s.mapPt fun x => x).mapVal fun v => a * v + b) = convert a b (surrData s) := by
    rw [surrData_affine]
    simp [surrData, State.mapPt, convert]
  have hp : State.perturbProb (L.base.mapVal fun v => a * v + b) d ((s.mapPt fun x => x).mapVal fun v => a * v + b) =
      State.perturbProb L.base d s := by
    simp [State.perturbProb, State.mapVal, State.mapPt, Config.mapVal]
  unfold sopPoint
  rw [hd, hS.mean, hp]
  rw [show ((s.mapPt fun x => x).mapVal fun v => a * v + b).curX = s.curX by simp [State.mapVal, State.mapPt],
    show ((s.mapPt fun x => x).mapVal fun v => a * v + b).Xpend = s.Xpend by simp [State.mapVal, State.mapPt]]
  cases s.curX with
  | nil => rfl
  | cons x0 xs =>
    simp only
    cases S.mean (surrData s) with
    | none => rfl
    | some pred => simp only [Option.map_some, Option.bind_some, dycors_affine haR, Option.map_id']

theorem dycors_translate (t : Pt d) (p : OptProb d) (hp : p.intVar = []) (pred : Pt d → ℝ) {m n n' : ℕ}
    (hn : n' = n) (X : Fin (n + 1) → Pt d) (X' : Fin (n' + 1) → Pt d)
    (hX : ∀ i : ℕ, ∀ h1 h2, X' ⟨i, h1⟩ = sim 1 t (X ⟨i, h2⟩))
    (weights : List ℝ) (prob : ℝ) (Xpend : List (Pt d)) (radius : ℝ) (dtol : ℝ) (xc : Pt d)
    (u : Fin (m + 1) → ℕ → ℝ) (forced : Fin (m + 1) → ℕ) (z : Fin (m + 1) → Pt d) :
    candidateDycors (p.sim 1 t) pred X' weights prob (Xpend.map (sim 1 t)) radius (List.finRange d)
        dtol (sim 1 t xc) u forced z =
      (candidateDycors p (fun x => pred (sim 1 t x)) X weights prob Xpend radius (List.finRange d) dtol xc u forced
        z).map (List.map (sim 1 t)) := by
  subst hn
  obtain rfl : X' = fun i => sim 1 t (X i) := by funext i; exact hX i.1 i.2 i.2
  have := dycors_sim one_pos t p hp pred X weights prob Xpend radius dtol xc u forced z
  rwa [one_mul] at this

theorem points_translate (t : Pt d) (L : SopSetup d) (hp : L.prob.intVar = []) (S S' : Surr d) (s : State (Pt d))
    (hS : S.SimAt S' 1 t (surrData s)) :
    PointsConvert (sim 1 t) (fun r => r) (fun v => v) L { L with prob := L.prob.sim 1 t, base := L.base.mapPt (sim 1 t) } S S' s := by
  intro xc sigma r
  have hd : surrData ((s.mapPt (sim 1 t)).mapVal fun v => v) = simData 1 t (surrData s) := by
    rw [← surrData_sim]
    simp [surrData, State.mapVal]
  have hpp : State.perturbProb (L.base.mapPt (sim 1 t)) d ((s.mapPt (sim 1 t)).mapVal fun v => v) =
      State.perturbProb L.base d s := by
    simp [State.perturbProb, State.mapVal, State.mapPt, Config.mapPt]
  have hm := hS.mean
  unfold sopPoint
  rw [hd, hpp, ← hm]
  rw [show ((s.mapPt (sim 1 t)).mapVal fun v => v).curX = s.curX.map (sim 1 t) from rfl,
    show ((s.mapPt (sim 1 t)).mapVal fun v => v).Xpend = s.Xpend.map (sim 1 t) from rfl]
  cases s.curX with
  | nil => rfl
  | cons x0 xs =>
    simp only [List.map_cons]
    cases S'.mean (simData 1 t (surrData s)) with
    | none => rfl
    | some pred =>
      simp only [Option.map_some, Option.bind_some]
      rw [dycors_translate t L.prob hp pred (n := xs.length) (by simp) (fun i => (x0 :: xs)[i]) _ ?_]
      · cases candidateDycors L.prob (fun x => pred (sim 1 t x)) (fun i : Fin (xs.length + 1) => (x0 :: xs)[i]) [1]
          (probOf (State.perturbProb L.base d s)) s.Xpend ((sigma : ℚ) : ℝ) (List.finRange d) 1e-3 xc r.u r.forced r.draws with
        | none => rfl
        | some l => cases l <;> rfl
      · intro i h1 h2
        cases i with
        | zero => rfl
        | succ i => simp

end Verif.Loop
