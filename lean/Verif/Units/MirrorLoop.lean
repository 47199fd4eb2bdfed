import Verif.Units.Mirror
import Verif.Units.SopLoop

/-! # The closed loop with changed signs of the variables (for C145) -/

namespace Verif.Loop

open Verif.Num Verif.Utils Verif.Cand Verif.Design Verif.Strategy Verif.Props

-- equality of points is decided coordinate by coordinate, as in `loopStep`
attribute [-instance] Verif.Sop.instDecidableEqPt

variable {d m n h : ℕ} (ε : Fin d → Bool)

/-- The same strategy on the problem in which the variables `i` with `ε i` have the opposite sign: their bounds change sign and
places. -/
noncomputable def Setup.mirror (L : Setup d) : Setup d where
  prob := L.prob.mirror ε
  cfg := L.cfg.mapPt (Loop.mirror ε)
  method := L.method

/-- The draws for the mirrored variables. -/
noncomputable def Rnd.mirror (r : Rnd d) : Rnd d :=
  { r with design := r.design.map (Loop.mirror ε), draws := fun j => Loop.mirror ε (r.draws j), runs := r.runs.map (mirrorGA ε) }

/-- The same schedule. -/
noncomputable def Ev.mirror : Ev d → Ev d
  | .propose r => .propose (r.mirror ε)
  | e => e

theorem srbf_mirror' (p : OptProb d) (hb : ∀ i, p.lb i ≤ p.ub i) (pred : Pt d → ℝ) {n' : ℕ}
    (hn : n' = n) (X : Fin (n + 1) → Pt d) (X' : Fin (n' + 1) → Pt d) (fX : Fin (n + 1) → ℝ) (fX' : Fin (n' + 1) → ℝ)
    (hX : ∀ i : ℕ, ∀ h1 h2, X' ⟨i, h1⟩ = mirror ε (X ⟨i, h2⟩)) (hf : ∀ i : ℕ, ∀ h1 h2, fX' ⟨i, h1⟩ = fX ⟨i, h2⟩)
    (weights : List ℝ) (Xpend : List (Pt d)) (radius : ℝ) (dtol : ℝ) (z : Fin (m + 1) → Pt d) :
    candidateSrbf (p.mirror ε) pred X' fX' weights (Xpend.map (mirror ε)) radius (List.finRange d) dtol (fun j => mirror ε (z j)) =
      (candidateSrbf p (fun x => pred (mirror ε x)) X fX weights Xpend radius (List.finRange d) dtol z).map (mirror ε) := by
  subst hn
  obtain rfl : fX' = fX := by funext i; exact hf i.1 i.2 i.2
  obtain rfl : X' = fun i => mirror ε (X i) := by funext i; exact hX i.1 i.2 i.2
  exact srbf_mirror ε p hb pred X fX' weights Xpend radius dtol z

theorem dycors_mirror' (p : OptProb d) (hb : ∀ i, p.lb i ≤ p.ub i) (pred : Pt d → ℝ) {n' : ℕ}
    (hn : n' = n) (X : Fin (n + 1) → Pt d) (X' : Fin (n' + 1) → Pt d) (fX : Fin (n + 1) → ℝ) (fX' : Fin (n' + 1) → ℝ)
    (hX : ∀ i : ℕ, ∀ h1 h2, X' ⟨i, h1⟩ = mirror ε (X ⟨i, h2⟩)) (hf : ∀ i : ℕ, ∀ h1 h2, fX' ⟨i, h1⟩ = fX ⟨i, h2⟩)
    (weights : List ℝ) (prob : ℝ) (Xpend : List (Pt d)) (radius : ℝ) (dtol : ℝ)
    (u : Fin (m + 1) → ℕ → ℝ) (forced : Fin (m + 1) → ℕ) (z : Fin (m + 1) → Pt d) :
    candidateDycors (p.mirror ε) pred X' weights prob (Xpend.map (mirror ε)) radius (List.finRange d)
        dtol (xbestOf X' fX') u forced
        (fun j => mirror ε (z j)) =
      (candidateDycors p (fun x => pred (mirror ε x)) X weights prob Xpend radius (List.finRange d) dtol (xbestOf X fX) u forced
        z).map (List.map (mirror ε)) := by
  subst hn
  obtain rfl : fX' = fX := by funext i; exact hf i.1 i.2 i.2
  obtain rfl : X' = fun i => mirror ε (X i) := by funext i; exact hX i.1 i.2 i.2
  exact dycors_mirror ε p hb pred X weights prob Xpend radius dtol (xbestOf X fX') u forced z

theorem genWith_mirror (L : Setup d) (hb : ∀ i, L.prob.lb i ≤ L.prob.ub i) (hi : ∀ i ∈ L.prob.intVar, L.prob.lb i + 1 ≤ L.prob.ub i)
    (S S' : Surr d) (s : State (Pt d))
    (hS : S.MirrorAt ε S' (surrData s)) (n : ℕ) (r : Rnd d) (x0 : Pt d) (xs : List (Pt d)) (fX : Fin (xs.length + 1) → ℝ)
    (fX' : Fin ((xs.map (mirror ε)).length + 1) → ℝ) (hf : ∀ i : ℕ, ∀ h1 h2, fX' ⟨i, h1⟩ = fX ⟨i, h2⟩) :
    genWith (L.mirror ε) S' (s.mapPt (mirror ε)) n (r.mirror ε) (mirror ε x0) (xs.map (mirror ε)) fX' =
      (genWith L S s n r x0 xs fX).map (Option.map (List.map (mirror ε))) := by
  have hX : ∀ i : ℕ, ∀ (h1 : i < (xs.map (mirror ε)).length + 1) (h2 : i < xs.length + 1),
      (fun j : Fin ((xs.map (mirror ε)).length + 1) => (mirror ε x0 :: xs.map (mirror ε))[j]) ⟨i, h1⟩ =
        mirror ε ((fun j : Fin (xs.length + 1) => (x0 :: xs)[j]) ⟨i, h2⟩) := by
    intro i h1 h2
    have : (mirror ε x0 :: xs.map (mirror ε)) = (x0 :: xs).map (mirror ε) := rfl
    simp only [Fin.getElem_fin]
    cases i with
    | zero => rfl
    | succ i => simp
  have hl : (xs.map (mirror ε)).length = xs.length := List.length_map ..
  obtain ⟨prob, cfg, method⟩ := L
  have hmean := hS.mean
  have hstd := hS.std
  cases method with
  | srbf =>
    simp only [genWith, Setup.mirror, surrData_mirror ε, ← hmean]
    simp only [Config.mapPt, State.mapPt]
    cases cfg.srbf with
    | none => rfl
    | some sc =>
      cases s.srbf with
      | none => rfl
      | some z =>
        cases S'.mean (mirrorData ε (surrData s)) with
        | none => rfl
        | some pred =>
          simp only [Option.map_some, Option.map_map]
          congr 1
          funext w
          simp only [Function.comp_apply, Option.map_some, Option.some.injEq]
          have := srbf_mirror' ε prob hb pred hl _ _ fX fX' hX hf (w.1.map fun v => ((v : ℚ) : ℝ)) s.Xpend
            ((z.radius : ℚ) : ℝ) 1e-3 r.draws
          exact this
  | dycors =>
    have hpp : State.perturbProb (cfg.mapPt (mirror ε)) d (s.mapPt (mirror ε)) = State.perturbProb cfg d s := by
      simp [State.perturbProb, State.mapPt, Config.mapPt]
    simp only [genWith, Setup.mirror, surrData_mirror ε, hpp, ← hmean]
    simp only [Config.mapPt, State.mapPt]
    cases cfg.srbf with
    | none => rfl
    | some sc =>
      cases s.srbf with
      | none => rfl
      | some z =>
        cases S'.mean (mirrorData ε (surrData s)) with
        | none => rfl
        | some pred =>
          simp only [Option.map_some]
          rw [Option.map_bind]
          congr 1
          funext w
          have := dycors_mirror' ε prob hb pred hl _ _ fX fX' hX hf (w.1.map fun v => ((v : ℚ) : ℝ))
            (probOf (State.perturbProb cfg d s)) s.Xpend ((z.radius : ℚ) : ℝ) 1e-3 r.u r.forced r.draws
          simp only [Function.comp_apply, Option.map_map]
          refine Eq.trans (congrArg (Option.map some) this) ?_
          rw [Option.map_map]
          rfl
  | ei tol dtol =>
    simp only [genWith, Setup.mirror, surrData_mirror ε, ← hmean, ← hstd]
    cases S'.mean (mirrorData ε (surrData s)) with
    | none => rfl
    | some mean =>
      cases S'.std (mirrorData ε (surrData s)) with
      | none => rfl
      | some std =>
        simp only [Option.map_some]
        rw [fbest_renum hl fX fX' hf, ← ei_mirror ε prob hb hi]
        rfl
  | lcb kappa tol dtol =>
    simp only [genWith, Setup.mirror, surrData_mirror ε, ← hmean, ← hstd]
    cases S'.mean (mirrorData ε (surrData s)) with
    | none => rfl
    | some mean =>
      cases S'.std (mirrorData ε (surrData s)) with
      | none => rfl
      | some std =>
        simp only [Option.map_some]
        rw [← lcb_mirror ε prob hb hi]
        rfl

theorem gen_mirror (L : Setup d) (hb : ∀ i, L.prob.lb i ≤ L.prob.ub i) (hi : ∀ i ∈ L.prob.intVar, L.prob.lb i + 1 ≤ L.prob.ub i)
    (S S' : Surr d) (s : State (Pt d))
    (hS : S.MirrorAt ε S' (surrData s)) (n : ℕ) (r : Rnd d) :
    gen (L.mirror ε) S' (s.mapPt (mirror ε)) n (r.mirror ε) =
      (gen L S s n r).map (Option.map (List.map (mirror ε))) := by
  unfold gen
  rw [show (s.mapPt (mirror ε)).curX = s.curX.map (mirror ε) from rfl]
  cases s.curX with
  | nil => rfl
  | cons x0 xs =>
    simp only [List.map_cons]
    by_cases hh : s.curFX.length = xs.length + 1 ∧ s.fX ≠ []
    · have hh' : (s.mapPt (mirror ε)).curFX.length = (xs.map (mirror ε)).length + 1 ∧ (s.mapPt (mirror ε)).fX ≠ [] := by
        simpa [State.mapPt] using hh
      rw [dif_pos hh', dif_pos hh]
      exact genWith_mirror ε L hb hi S S' s hS n r x0 xs _ _ fun i h1 h2 => rfl
    · have hh' : ¬ ((s.mapPt (mirror ε)).curFX.length = (xs.map (mirror ε)).length + 1 ∧ (s.mapPt (mirror ε)).fX ≠ []) := by
        simpa [State.mapPt] using hh
      rw [dif_neg hh', dif_neg hh]; rfl


/-! ## Lengths -/

theorem eiGaLoop_length {p : OptProb d} {M : List (Pt d) → Pt d → ℝ} {tol : ℝ} {runs : List (GARun d h)} {XX l : List (Pt d)}
    (hl : eiGaLoop p M tol runs XX = some l) : l.length = runs.length := by
  induction runs generalizing XX l with
  | nil => simp only [eiGaLoop, Option.some.injEq] at hl; rw [← hl]; rfl
  | cons r rs ih =>
    unfold eiGaLoop at hl
    dsimp only at hl
    split_ifs at hl
    split at hl
    · cases hl
    · rename_i l' h'
      rw [← Option.some.inj hl, List.length_cons, List.length_cons, ih h']

theorem lcbGaLoop_length {p : OptProb d} {M : List (Pt d) → Pt d → WithTop ℝ} {target : ℝ} {runs : List (GARun d h)}
    {XX l : List (Pt d)} (hl : lcbGaLoop p M target runs XX = some l) : l.length = runs.length := by
  induction runs generalizing XX l with
  | nil => simp only [lcbGaLoop, Option.some.injEq] at hl; rw [← hl]; rfl
  | cons r rs ih =>
    unfold lcbGaLoop at hl
    dsimp only at hl
    split_ifs at hl
    split at hl
    · cases hl
    · rename_i l' h'
      rw [← Option.some.inj hl, List.length_cons, List.length_cons, ih h']

theorem gen_length {L : Setup d} {S : Surr d} {s : State (Pt d)} {n : ℕ} {r : Rnd d} {l : List (Pt d)} (hr : n ≤ r.runs.length)
    (hl : gen L S s n r = some (some l)) : n ≤ l.length := by
  have hw : ∀ {m n : ℕ} (pred : Pt d → ℝ) (X : Fin (n + 1) → Pt d) (Xpend : List (Pt d)) (cand : Fin (m + 1) → Pt d)
      (ws : List ℝ) (dtol : ℝ), (weightedDistanceMerit pred X Xpend cand ws dtol).length = ws.length := by
    intro m n pred X Xpend cand ws dtol
    simp [weightedDistanceMerit, wdmIdx, wdmLoop_length]
  unfold gen at hl
  split at hl
  · cases hl
  split_ifs at hl
  unfold genWith at hl
  dsimp only at hl
  split at hl
  · split at hl
    · simp only [Option.map_eq_some_iff, Option.some.injEq] at hl
      obtain ⟨w, h1, rfl⟩ := hl
      have := getWeights_length (l := w.1) (next' := w.2) h1
      unfold candidateSrbf
      rw [hw, List.length_map, this]
    · cases hl
  · split at hl
    · simp only [Option.bind_eq_some_iff, Option.map_eq_some_iff, Option.some.injEq] at hl
      obtain ⟨w, h1, l', h2, rfl⟩ := hl
      have := getWeights_length (l := w.1) (next' := w.2) h1
      unfold candidateDycors at h2
      dsimp only at h2
      split_ifs at h2
      rw [← Option.some.inj h2, hw, List.length_map, this]
    · cases hl
  · split at hl
    · have := eiGaLoop_length (Option.some.inj hl)
      omega
    · cases hl
  · split at hl
    · have := lcbGaLoop_length (Option.some.inj hl)
      omega
    · cases hl

/-! ## Steps and runs -/

/-- The lists drawn in a call of `propose_action` are as long as the code makes them. -/
def Ev.Long (cfg : Config (Pt d)) : Ev d → Prop
  | .propose r => cfg.numPts ≤ r.design.length ∧ wanted cfg ≤ r.runs.length
  | _ => True

/-- The configuration belongs to the method. -/
def Setup.Consistent (L : Setup d) : Prop := L.method = .srbf ∨ L.method = .dycors ∨ L.cfg.srbf = none

theorem gen_gives {L : Setup d} {S : Surr d} {s : State (Pt d)} {n : ℕ} {r : Rnd d} {a : Option (List (Pt d))}
    (hm : L.method = .srbf ∨ L.method = .dycors) (h : gen L S s n r = some a) : a ≠ none := by
  rintro rfl
  unfold gen at h
  split at h
  · cases h
  split_ifs at h
  unfold genWith at h
  dsimp only at h
  rcases hm with hm | hm <;> rw [hm] at h <;> dsimp only at h
  · split at h
    · simp at h
    · cases h
  · split at h
    · simp only [Option.bind_eq_some_iff, Option.map_eq_some_iff] at h
      obtain ⟨w, _, l, _, h⟩ := h
      cases h
    · cases h

theorem oracleOf_mirror (L : Setup d) (hc : L.Consistent) {S : Surr d} {s : State (Pt d)} {r : Rnd d} {a : Option (List (Pt d))}
    (hD : L.cfg.numPts ≤ r.design.length) (hr : wanted L.cfg ≤ r.runs.length) (ha : answer L S s r = some a) :
    Agree (L.mirror ε).cfg (s.mapPt (mirror ε)) (oracleOf (L.mirror ε) (r.design.map (mirror ε)) (a.map (List.map (mirror ε))))
      ((oracleOf L r.design a).mapPt (mirror ε)) := by
  refine ⟨fun i hi => getD_map_agree (Or.inr (lt_of_lt_of_le hi hD)), fun hw hg i hi => ?_, by simp [oracleOf, Oracle.mapPt]⟩
  have hw' : wantsPoints L.cfg s := by
    simpa [wantsPoints, State.mapPt, Setup.mirror, Config.mapPt] using hw
  unfold answer at ha
  rw [if_pos hw'] at ha
  have hi' : i < wanted L.cfg := hi
  cases a with
  | some l => exact getD_map_agree (Or.inr (lt_of_lt_of_le hi' (gen_length hr ha)))
  | none =>
    exfalso
    rcases hc with hc | hc | hc
    · exact gen_gives (.inl hc) ha rfl
    · exact gen_gives (.inr hc) ha rfl
    · rcases hg with hg | hg
      · have : (L.mirror ε).cfg.srbf = L.cfg.srbf := rfl
        rw [this, hc] at hg
        cases hg
      · simp [oracleOf] at hg

theorem step_agree {cfg : Config (Pt d)} {o o' : Oracle (Pt d)} {w : Sys (Pt d)} (h : Agree cfg w.st o o') :
    w.step cfg (.propose o) = w.step cfg (.propose o') := by
  simp only [Sys.step, proposeAction_agree h]

theorem loopStep_mirror (L : Setup d) (hb : ∀ i, L.prob.lb i ≤ L.prob.ub i) (hi : ∀ i ∈ L.prob.intVar, L.prob.lb i + 1 ≤ L.prob.ub i)
    (hc : L.Consistent) (S S' : Surr d) (f f' : Pt d → Val)
    (hf : ∀ x, f' (mirror ε x) = f x) (w : Sys (Pt d)) (hS : S.MirrorAt ε S' (surrData w.st)) (e : Ev d) (hl : e.Long L.cfg) :
    loopStep (L.mirror ε) S' f' (w.mapPt (mirror ε)) (e.mirror ε) = (loopStep L S f w e).map (Sys.mapPt (mirror ε)) := by
  have hst := fun op => step_mapPt (mirror_injective ε) L.cfg w op
  cases e with
  | propose r =>
    have ha : answer (L.mirror ε) S' (w.mapPt (mirror ε)).st (r.mirror ε) =
        (answer L S w.st r).map (Option.map (List.map (mirror ε))) := by
      unfold answer
      have hw : wantsPoints (L.mirror ε).cfg (w.mapPt (mirror ε)).st ↔ wantsPoints L.cfg w.st := by
        simp [wantsPoints, Sys.mapPt, State.mapPt, Setup.mirror, Config.mapPt]
      have hg : gen (L.mirror ε) S' (w.mapPt (mirror ε)).st (wanted (L.mirror ε).cfg) (r.mirror ε) = _ :=
        gen_mirror ε L hb hi S S' w.st hS (wanted L.cfg) r
      by_cases hq : wantsPoints L.cfg w.st
      · rw [if_pos hq, if_pos (hw.mpr hq), hg]
      · rw [if_neg hq, if_neg (fun h => hq (hw.mp h))]; rfl
    simp only [Ev.mirror, loopStep, ha]
    cases hans : answer L S w.st r with
    | none => rfl
    | some g =>
      simp only [Option.map_some, Option.bind_some]
      exact (step_agree (w := w.mapPt (mirror ε)) (oracleOf_mirror ε L hc hl.1 hl.2 hans)).trans
        (hst (.propose (oracleOf L r.design g)))
  | accept i => exact hst (.accept i)
  | reject i => exact hst (.reject i)
  | complete i =>
    simp only [Ev.mirror, loopStep]
    rw [show (w.mapPt (mirror ε)).recs[i]? = w.recs[i]?.map (Rec.mapPt (mirror ε)) by simp [Sys.mapPt]]
    cases w.recs[i]? with
    | none => rfl
    | some r =>
      simp only [Option.map_some, Option.bind_some]
      rw [show f' (r.mapPt (mirror ε)).x = f r.x from hf r.x]
      exact hst (.complete i (f r.x))
  | abort i => exact hst (.abort i)
  | update i => exact hst (.update i)
  | resume => simp only [Ev.mirror, loopStep, Option.map_some]; rw [resumed_mapPt]

theorem loopSteps_mirror (L : Setup d) (hb : ∀ i, L.prob.lb i ≤ L.prob.ub i) (hi : ∀ i ∈ L.prob.intVar, L.prob.lb i + 1 ≤ L.prob.ub i)
    (hc : L.Consistent) (S S' : Surr d) (f f' : Pt d → Val)
    (hf : ∀ x, f' (mirror ε x) = f x) (es : List (Ev d)) (hl : ∀ e ∈ es, e.Long L.cfg) (w : Sys (Pt d))
    (hS : ∀ es' w', es' <+: es → loopSteps L S f w es' = some w' → S.MirrorAt ε S' (surrData w'.st)) :
    loopSteps (L.mirror ε) S' f' (w.mapPt (mirror ε)) (es.map (Ev.mirror ε)) =
      (loopSteps L S f w es).map (Sys.mapPt (mirror ε)) := by
  induction es generalizing w with
  | nil => rfl
  | cons e es ih =>
    simp only [List.map_cons, loopSteps]
    rw [loopStep_mirror ε L hb hi hc S S' f f' hf w (hS [] w List.nil_prefix rfl) e (hl e (by simp))]
    cases hw : loopStep L S f w e with
    | none => rfl
    | some w' =>
      simp only [Option.map_some, Option.bind_some]
      refine ih (fun e he => hl e (by simp [he])) w' fun es' w'' hp h => hS (e :: es') w'' (List.prefix_cons_inj e |>.mpr hp) ?_
      simp only [loopSteps, hw, Option.bind_some, h]

theorem loopRun_mirror (L : Setup d) (hb : ∀ i, L.prob.lb i ≤ L.prob.ub i) (hi : ∀ i ∈ L.prob.intVar, L.prob.lb i + 1 ≤ L.prob.ub i)
    (hc : L.Consistent) (S S' : Surr d) (f f' : Pt d → Val)
    (hf : ∀ x, f' (mirror ε x) = f x) (D : List (Pt d)) (es : List (Ev d)) (hD : L.cfg.numPts ≤ D.length)
    (hl : ∀ e ∈ es, e.Long L.cfg)
    (hS : ∀ es' w', es' <+: es → loopRun L S f D es' = some w' → S.MirrorAt ε S' (surrData w'.st)) :
    loopRun (L.mirror ε) S' f' (D.map (mirror ε)) (es.map (Ev.mirror ε)) =
      (loopRun L S f D es).map (Sys.mapPt (mirror ε)) := by
  unfold loopRun
  have h0 : Sys.create (L.mirror ε).cfg (oracleOf (L.mirror ε) (D.map (mirror ε)) none) =
      Sys.create (L.mirror ε).cfg ((oracleOf L D none).mapPt (mirror ε)) := by
    have hd : ∀ i < (L.mirror ε).cfg.numPts, (oracleOf (L.mirror ε) (D.map (mirror ε)) none).design i =
        ((oracleOf L D none).mapPt (mirror ε)).design i := fun i hi => getD_map_agree (Or.inr (lt_of_lt_of_le hi hD))
    unfold Sys.create State.create
    simp only [sampleInitial_agree hd]
  rw [h0, show Sys.create (L.mirror ε).cfg _ = _ from create_mapPt (mirror ε) L.cfg _]
  exact loopSteps_mirror ε L hb hi hc S S' f f' hf es hl _ hS

end Verif.Loop
