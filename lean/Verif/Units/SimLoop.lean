import Verif.Units.Sim
import Verif.Units.Surr

/-! # The closed loop in other variables (for C101) -/

namespace Verif.Loop

open Verif.Num Verif.Utils Verif.Cand Verif.Design Verif.Strategy Verif.Props

variable {d m n h : ℕ}

/-- `dtol` of EI and LCB is a distance. -/
noncomputable def Method.sim (c : ℝ) : Method → Method
  | .ei tol dtol => .ei tol (c * dtol)
  | .lcb kappa tol dtol => .lcb kappa tol (c * dtol)
  | m => m

/-- The same strategy on the problem in the variables `c * x + t`: bounds, extra points and `dtol` are converted. -/
noncomputable def Setup.sim (c : ℝ) (t : Pt d) (L : Setup d) : Setup d where
  prob := L.prob.sim c t
  cfg := L.cfg.mapPt (Loop.sim c t)
  method := L.method.sim c

/-- Conversion of data. -/
def simData (c : ℝ) (t : Pt d) (D : List (Pt d × ℝ)) : List (Pt d × ℝ) := D.map fun e => (sim c t e.1, e.2)

/-- The surrogate `S'` of the converted problem, given the converted data, predicts at a converted point what `S` predicts at
the point. -/
structure Surr.SimAt (S S' : Surr d) (c : ℝ) (t : Pt d) (D : List (Pt d × ℝ)) : Prop where
  mean : (S'.mean (simData c t D)).map (fun q x => q (sim c t x)) = S.mean D
  std : (S'.std (simData c t D)).map (fun q x => q (sim c t x)) = S.std D

/-- The draws are relative to the domain; only the design consists of points. -/
def Rnd.sim (c : ℝ) (t : Pt d) (r : Rnd d) : Rnd d := { r with design := r.design.map (Loop.sim c t) }

/-- The same schedule. -/
def Ev.sim (c : ℝ) (t : Pt d) : Ev d → Ev d
  | .propose r => .propose (r.sim c t)
  | e => e

theorem surrData_sim (c : ℝ) (t : Pt d) (s : State (Pt d)) : surrData (s.mapPt (sim c t)) = simData c t (surrData s) := by
  simp only [simData, surrData, State.mapPt, List.map_map]
  rfl

theorem srbf_sim' {c : ℝ} (hc : 0 < c) (t : Pt d) (p : OptProb d) (hp : p.intVar = []) (pred : Pt d → ℝ) {n' : ℕ}
    (hn : n' = n) (X : Fin (n + 1) → Pt d) (X' : Fin (n' + 1) → Pt d) (fX : Fin (n + 1) → ℝ) (fX' : Fin (n' + 1) → ℝ)
    (hX : ∀ i : ℕ, ∀ h1 h2, X' ⟨i, h1⟩ = sim c t (X ⟨i, h2⟩)) (hf : ∀ i : ℕ, ∀ h1 h2, fX' ⟨i, h1⟩ = fX ⟨i, h2⟩)
    (weights : List ℝ) (Xpend : List (Pt d)) (radius : ℝ) (subset : List (Fin d)) (dtol : ℝ) (z : Fin (m + 1) → Pt d) :
    candidateSrbf (p.sim c t) pred X' fX' weights (Xpend.map (sim c t)) radius subset (c * dtol) z =
      (candidateSrbf p (fun x => pred (sim c t x)) X fX weights Xpend radius subset dtol z).map (sim c t) := by
  subst hn
  obtain rfl : fX' = fX := by funext i; exact hf i.1 i.2 i.2
  obtain rfl : X' = fun i => sim c t (X i) := by funext i; exact hX i.1 i.2 i.2
  exact srbf_sim hc t p hp pred X fX' weights Xpend radius subset dtol z

theorem dycors_sim' {c : ℝ} (hc : 0 < c) (t : Pt d) (p : OptProb d) (hp : p.intVar = []) (pred : Pt d → ℝ) {n' : ℕ}
    (hn : n' = n) (X : Fin (n + 1) → Pt d) (X' : Fin (n' + 1) → Pt d) (fX : Fin (n + 1) → ℝ) (fX' : Fin (n' + 1) → ℝ)
    (hX : ∀ i : ℕ, ∀ h1 h2, X' ⟨i, h1⟩ = sim c t (X ⟨i, h2⟩)) (hf : ∀ i : ℕ, ∀ h1 h2, fX' ⟨i, h1⟩ = fX ⟨i, h2⟩)
    (weights : List ℝ) (prob : ℝ) (Xpend : List (Pt d)) (radius : ℝ) (dtol : ℝ)
    (u : Fin (m + 1) → ℕ → ℝ) (forced : Fin (m + 1) → ℕ) (z : Fin (m + 1) → Pt d) :
    candidateDycors (p.sim c t) pred X' weights prob (Xpend.map (sim c t)) radius (List.finRange d)
        (c * dtol) (xbestOf X' fX') u forced z =
      (candidateDycors p (fun x => pred (sim c t x)) X weights prob Xpend radius (List.finRange d) dtol (xbestOf X fX) u forced
        z).map (List.map (sim c t)) := by
  subst hn
  obtain rfl : fX' = fX := by funext i; exact hf i.1 i.2 i.2
  obtain rfl : X' = fun i => sim c t (X i) := by funext i; exact hX i.1 i.2 i.2
  exact dycors_sim hc t p hp pred X weights prob Xpend radius dtol (xbestOf X fX') u forced z

theorem fbest_sim {n n' : ℕ} (hn : n' = n) (fX : Fin (n + 1) → ℝ) (fX' : Fin (n' + 1) → ℝ)
    (hf : ∀ i : ℕ, ∀ h1 h2, fX' ⟨i, h1⟩ = fX ⟨i, h2⟩) : fX' (argmin fX') = fX (argmin fX) := by
  subst hn
  obtain rfl : fX' = fX := by funext i; exact hf i.1 i.2 i.2
  rfl

theorem genWith_sim {c : ℝ} (hc : 0 < c) (t : Pt d) (L : Setup d) (hp : L.prob.intVar = [])
    (hm : c = 1 ∨ L.method ≠ .srbf ∧ L.method ≠ .dycors) (S S' : Surr d) (s : State (Pt d))
    (hS : S.SimAt S' c t (surrData s)) (n : ℕ) (r : Rnd d) (x0 : Pt d) (xs : List (Pt d)) (fX : Fin (xs.length + 1) → ℝ)
    (fX' : Fin ((xs.map (sim c t)).length + 1) → ℝ) (hf : ∀ i : ℕ, ∀ h1 h2, fX' ⟨i, h1⟩ = fX ⟨i, h2⟩) :
    genWith (L.sim c t) S' (s.mapPt (sim c t)) n (r.sim c t) (sim c t x0) (xs.map (sim c t)) fX' =
      (genWith L S s n r x0 xs fX).map (Option.map (List.map (sim c t))) := by
  have hX : ∀ i : ℕ, ∀ (h1 : i < (xs.map (sim c t)).length + 1) (h2 : i < xs.length + 1),
      (fun j : Fin ((xs.map (sim c t)).length + 1) => (sim c t x0 :: xs.map (sim c t))[j]) ⟨i, h1⟩ =
        sim c t ((fun j : Fin (xs.length + 1) => (x0 :: xs)[j]) ⟨i, h2⟩) := by
    intro i h1 h2
    have : (sim c t x0 :: xs.map (sim c t)) = (x0 :: xs).map (sim c t) := rfl
    simp only [Fin.getElem_fin]
    cases i with
    | zero => rfl
    | succ i => simp
  have hl : (xs.map (sim c t)).length = xs.length := List.length_map ..
  obtain ⟨prob, cfg, method⟩ := L
  have hmean := hS.mean
  have hstd := hS.std
  cases method with
  | srbf =>
    have hc1 : c = 1 := by
      rcases hm with h | h
      · exact h
      · exact absurd rfl h.1
    simp only [genWith, Setup.sim, Method.sim, surrData_sim, ← hmean]
    simp only [Config.mapPt, State.mapPt]
    cases cfg.srbf with
    | none => rfl
    | some sc =>
      cases s.srbf with
      | none => rfl
      | some z =>
        cases S'.mean (simData c t (surrData s)) with
        | none => rfl
        | some pred =>
          simp only [Option.map_some, Option.map_map]
          congr 1
          funext w
          simp only [Function.comp_apply, Option.map_some, Option.some.injEq]
          have := srbf_sim' hc t prob hp pred hl _ _ fX fX' hX hf (w.1.map fun v => ((v : ℚ) : ℝ)) s.Xpend
            ((z.radius : ℚ) : ℝ) (List.finRange d) 1e-3 r.draws
          have h1 : ∀ y : ℝ, c * y = y := fun y => by rw [hc1, one_mul]
          rw [h1] at this
          exact this
  | dycors =>
    have hc1 : c = 1 := by
      rcases hm with h | h
      · exact h
      · exact absurd rfl h.2
    have hpp : State.perturbProb (cfg.mapPt (sim c t)) d (s.mapPt (sim c t)) = State.perturbProb cfg d s := by
      simp [State.perturbProb, State.mapPt, Config.mapPt]
    simp only [genWith, Setup.sim, Method.sim, surrData_sim, hpp, ← hmean]
    simp only [Config.mapPt, State.mapPt]
    cases cfg.srbf with
    | none => rfl
    | some sc =>
      cases s.srbf with
      | none => rfl
      | some z =>
        cases S'.mean (simData c t (surrData s)) with
        | none => rfl
        | some pred =>
          simp only [Option.map_some]
          rw [Option.map_bind]
          congr 1
          funext w
          have := dycors_sim' hc t prob hp pred hl _ _ fX fX' hX hf (w.1.map fun v => ((v : ℚ) : ℝ))
            (probOf (State.perturbProb cfg d s)) s.Xpend ((z.radius : ℚ) : ℝ) 1e-3 r.u r.forced r.draws
          have h1 : ∀ y : ℝ, c * y = y := fun y => by rw [hc1, one_mul]
          rw [h1] at this
          simp only [Function.comp_apply, Option.map_map]
          refine Eq.trans (congrArg (Option.map some) this) ?_
          rw [Option.map_map]
          rfl
  | ei tol dtol =>
    simp only [genWith, Setup.sim, Method.sim, surrData_sim, ← hmean, ← hstd]
    cases S'.mean (simData c t (surrData s)) with
    | none => rfl
    | some mean =>
      cases S'.std (simData c t (surrData s)) with
      | none => rfl
      | some std =>
        simp only [Option.map_some]
        rw [fbest_sim hl fX fX' hf, ← ei_sim hc t prob hp]
        rfl
  | lcb kappa tol dtol =>
    simp only [genWith, Setup.sim, Method.sim, surrData_sim, ← hmean, ← hstd]
    cases S'.mean (simData c t (surrData s)) with
    | none => rfl
    | some mean =>
      cases S'.std (simData c t (surrData s)) with
      | none => rfl
      | some std =>
        simp only [Option.map_some]
        rw [← lcb_sim hc t prob hp]
        rfl

theorem gen_sim {c : ℝ} (hc : 0 < c) (t : Pt d) (L : Setup d) (hp : L.prob.intVar = [])
    (hm : c = 1 ∨ L.method ≠ .srbf ∧ L.method ≠ .dycors) (S S' : Surr d) (s : State (Pt d))
    (hS : S.SimAt S' c t (surrData s)) (n : ℕ) (r : Rnd d) :
    gen (L.sim c t) S' (s.mapPt (sim c t)) n (r.sim c t) =
      (gen L S s n r).map (Option.map (List.map (sim c t))) := by
  unfold gen
  rw [show (s.mapPt (sim c t)).curX = s.curX.map (sim c t) from rfl]
  cases s.curX with
  | nil => rfl
  | cons x0 xs =>
    simp only [List.map_cons]
    by_cases hh : s.curFX.length = xs.length + 1 ∧ s.fX ≠ []
    · have hh' : (s.mapPt (sim c t)).curFX.length = (xs.map (sim c t)).length + 1 ∧ (s.mapPt (sim c t)).fX ≠ [] := by
        simpa [State.mapPt] using hh
      rw [dif_pos hh', dif_pos hh]
      exact genWith_sim hc t L hp hm S S' s hS n r x0 xs _ _ fun i h1 h2 => rfl
    · have hh' : ¬ ((s.mapPt (sim c t)).curFX.length = (xs.map (sim c t)).length + 1 ∧ (s.mapPt (sim c t)).fX ≠ []) := by
        simpa [State.mapPt] using hh
      rw [dif_neg hh', dif_neg hh]; rfl

theorem oracleOf_sim (c : ℝ) (t : Pt d) (L : Setup d) (D : List (Pt d)) (g : Option (List (Pt d))) :
    oracleOf (L.sim c t) (D.map (sim c t)) (g.map (List.map (sim c t))) = (oracleOf L D g).mapPt (sim c t) := by
  have h : ∀ (l : List (Pt d)) (i : ℕ), (l.map (sim c t)).getD i (sim c t L.prob.lb) = sim c t (l.getD i L.prob.lb) := by
    intro l i
    simp only [List.getD_eq_getElem?_getD, List.getElem?_map]
    cases l[i]? <;> rfl
  unfold oracleOf Oracle.mapPt
  simp only [Setup.sim, OptProb.sim, h, Option.isNone_map]
  congr 1
  funext i
  cases g with
  | none => rfl
  | some l => exact h l i

theorem loopStep_sim {c : ℝ} (hc : 0 < c) (t : Pt d) (L : Setup d) (hp : L.prob.intVar = [])
    (hm : c = 1 ∨ L.method ≠ .srbf ∧ L.method ≠ .dycors) (S S' : Surr d) (f f' : Pt d → Val)
    (hf : ∀ x, f' (sim c t x) = f x) (w : Sys (Pt d)) (hS : S.SimAt S' c t (surrData w.st)) (e : Ev d) :
    loopStep (L.sim c t) S' f' (w.mapPt (sim c t)) (e.sim c t) = (loopStep L S f w e).map (Sys.mapPt (sim c t)) := by
  have hst := fun op => step_mapPt (sim_injective hc t) L.cfg w op
  cases e with
  | propose r =>
    have ha : answer (L.sim c t) S' (w.mapPt (sim c t)).st (r.sim c t) =
        (answer L S w.st r).map (Option.map (List.map (sim c t))) := by
      unfold answer
      have hw : wantsPoints (L.sim c t).cfg (w.mapPt (sim c t)).st ↔ wantsPoints L.cfg w.st := by
        simp [wantsPoints, Sys.mapPt, State.mapPt, Setup.sim, Config.mapPt]
      have hg : gen (L.sim c t) S' (w.mapPt (sim c t)).st (wanted (L.sim c t).cfg) (r.sim c t) = _ :=
        gen_sim hc t L hp hm S S' w.st hS (wanted L.cfg) r
      by_cases hq : wantsPoints L.cfg w.st
      · rw [if_pos hq, if_pos (hw.mpr hq), hg]
      · rw [if_neg hq, if_neg (fun h => hq (hw.mp h))]; rfl
    simp only [Ev.sim, loopStep, ha]
    cases answer L S w.st r with
    | none => rfl
    | some g =>
      simp only [Option.map_some, Option.bind_some]
      rw [show (r.sim c t).design = r.design.map (sim c t) from rfl, oracleOf_sim]
      exact hst (.propose (oracleOf L r.design g))
  | accept i => exact hst (.accept i)
  | reject i => exact hst (.reject i)
  | complete i =>
    simp only [Ev.sim, loopStep]
    rw [show (w.mapPt (sim c t)).recs[i]? = w.recs[i]?.map (Rec.mapPt (sim c t)) by simp [Sys.mapPt]]
    cases w.recs[i]? with
    | none => rfl
    | some r =>
      simp only [Option.map_some, Option.bind_some]
      rw [show f' (r.mapPt (sim c t)).x = f r.x from hf r.x]
      exact hst (.complete i (f r.x))
  | abort i => exact hst (.abort i)
  | update i => exact hst (.update i)
  | resume => simp only [Ev.sim, loopStep, Option.map_some]; rw [resumed_mapPt]

theorem loopSteps_sim {c : ℝ} (hc : 0 < c) (t : Pt d) (L : Setup d) (hp : L.prob.intVar = [])
    (hm : c = 1 ∨ L.method ≠ .srbf ∧ L.method ≠ .dycors) (S S' : Surr d) (f f' : Pt d → Val)
    (hf : ∀ x, f' (sim c t x) = f x) (es : List (Ev d)) (w : Sys (Pt d))
    (hS : ∀ es' w', es' <+: es → loopSteps L S f w es' = some w' → S.SimAt S' c t (surrData w'.st)) :
    loopSteps (L.sim c t) S' f' (w.mapPt (sim c t)) (es.map (Ev.sim c t)) =
      (loopSteps L S f w es).map (Sys.mapPt (sim c t)) := by
  induction es generalizing w with
  | nil => rfl
  | cons e es ih =>
    simp only [List.map_cons, loopSteps]
    rw [loopStep_sim hc t L hp hm S S' f f' hf w (hS [] w (List.nil_prefix) rfl) e]
    cases hw : loopStep L S f w e with
    | none => rfl
    | some w' =>
      simp only [Option.map_some, Option.bind_some]
      refine ih w' fun es' w'' hp h => hS (e :: es') w'' (List.prefix_cons_inj e |>.mpr hp) ?_
      simp only [loopSteps, hw, Option.bind_some, h]

theorem loopRun_sim {c : ℝ} (hc : 0 < c) (t : Pt d) (L : Setup d) (hp : L.prob.intVar = [])
    (hm : c = 1 ∨ L.method ≠ .srbf ∧ L.method ≠ .dycors) (S S' : Surr d) (f f' : Pt d → Val)
    (hf : ∀ x, f' (sim c t x) = f x) (D : List (Pt d)) (es : List (Ev d))
    (hS : ∀ es' w', es' <+: es → loopRun L S f D es' = some w' → S.SimAt S' c t (surrData w'.st)) :
    loopRun (L.sim c t) S' f' (D.map (sim c t)) (es.map (Ev.sim c t)) =
      (loopRun L S f D es).map (Sys.mapPt (sim c t)) := by
  unfold loopRun
  rw [show oracleOf (L.sim c t) (D.map (sim c t)) none = (oracleOf L D none).mapPt (sim c t) from oracleOf_sim c t L D none,
    show Sys.create (L.sim c t).cfg _ = _ from create_mapPt (sim c t) L.cfg _]
  exact loopSteps_sim hc t L hp hm S S' f f' hf es _ hS

end Verif.Loop
