import Verif.Units.Renum
import Verif.Units.Surr

/-! # The closed loop with renumbered variables (for C123) -/

namespace Verif.Loop

open Verif.Num Verif.Utils Verif.Cand Verif.Design Verif.Strategy Verif.Props

variable {d m n h : ℕ} (π : Equiv.Perm (Fin d))

/-- The same strategy on the problem with renumbered variables: bounds, integer variables and extra points are renumbered. -/
def Setup.renum (L : Setup d) : Setup d where
  prob := L.prob.renum π
  cfg := L.cfg.mapPt (Loop.renum π)
  method := L.method

/-- Conversion of data. -/
def renumData (D : List (Pt d × ℝ)) : List (Pt d × ℝ) := D.map fun e => (renum π e.1, e.2)

/-- The surrogate `S'` of the converted problem, given the converted data, predicts at a converted point what `S` predicts at
the point. -/
structure Surr.RenumAt (S S' : Surr d) (D : List (Pt d × ℝ)) : Prop where
  mean : (S'.mean (renumData π D)).map (fun q x => q (renum π x)) = S.mean D
  std : (S'.std (renumData π D)).map (fun q x => q (renum π x)) = S.std D

/-- The draws for the renumbered variables. -/
def Rnd.renum (r : Rnd d) : Rnd d :=
  { r with design := r.design.map (Loop.renum π), draws := fun j => Loop.renum π (r.draws j), u := fun j => renumCol π (r.u j),
           forced := fun j => renumIdx π (r.forced j), runs := r.runs.map (renumRun π) }

/-- The same schedule. -/
def Ev.renum : Ev d → Ev d
  | .propose r => .propose (r.renum π)
  | e => e

theorem surrData_renum (s : State (Pt d)) : surrData (s.mapPt (renum π)) = renumData π (surrData s) := by
  simp only [renumData, surrData, State.mapPt, List.map_map]
  rfl

theorem srbf_renum' (p : OptProb d) (pred : Pt d → ℝ) {n' : ℕ}
    (hn : n' = n) (X : Fin (n + 1) → Pt d) (X' : Fin (n' + 1) → Pt d) (fX : Fin (n + 1) → ℝ) (fX' : Fin (n' + 1) → ℝ)
    (hX : ∀ i : ℕ, ∀ h1 h2, X' ⟨i, h1⟩ = renum π (X ⟨i, h2⟩)) (hf : ∀ i : ℕ, ∀ h1 h2, fX' ⟨i, h1⟩ = fX ⟨i, h2⟩)
    (weights : List ℝ) (Xpend : List (Pt d)) (radius : ℝ) (dtol : ℝ) (z : Fin (m + 1) → Pt d) :
    candidateSrbf (p.renum π) pred X' fX' weights (Xpend.map (renum π)) radius (List.finRange d) dtol (fun j => renum π (z j)) =
      (candidateSrbf p (fun x => pred (renum π x)) X fX weights Xpend radius (List.finRange d) dtol z).map (renum π) := by
  subst hn
  obtain rfl : fX' = fX := by funext i; exact hf i.1 i.2 i.2
  obtain rfl : X' = fun i => renum π (X i) := by funext i; exact hX i.1 i.2 i.2
  exact srbf_renum π p pred X fX' weights Xpend radius dtol z

theorem dycors_renum' (p : OptProb d) (pred : Pt d → ℝ) {n' : ℕ}
    (hn : n' = n) (X : Fin (n + 1) → Pt d) (X' : Fin (n' + 1) → Pt d) (fX : Fin (n + 1) → ℝ) (fX' : Fin (n' + 1) → ℝ)
    (hX : ∀ i : ℕ, ∀ h1 h2, X' ⟨i, h1⟩ = renum π (X ⟨i, h2⟩)) (hf : ∀ i : ℕ, ∀ h1 h2, fX' ⟨i, h1⟩ = fX ⟨i, h2⟩)
    (weights : List ℝ) (prob : ℝ) (Xpend : List (Pt d)) (radius : ℝ) (dtol : ℝ)
    (u : Fin (m + 1) → ℕ → ℝ) (forced : Fin (m + 1) → ℕ) (z : Fin (m + 1) → Pt d) :
    candidateDycors (p.renum π) pred X' weights prob (Xpend.map (renum π)) radius (List.finRange d)
        dtol (xbestOf X' fX') (fun j => renumCol π (u j)) (fun j => renumIdx π (forced j))
        (fun j => renum π (z j)) =
      (candidateDycors p (fun x => pred (renum π x)) X weights prob Xpend radius (List.finRange d) dtol (xbestOf X fX) u forced
        z).map (List.map (renum π)) := by
  subst hn
  obtain rfl : fX' = fX := by funext i; exact hf i.1 i.2 i.2
  obtain rfl : X' = fun i => renum π (X i) := by funext i; exact hX i.1 i.2 i.2
  exact dycors_renum π p pred X weights prob Xpend radius dtol (xbestOf X fX') u forced z

theorem fbest_renum {n n' : ℕ} (hn : n' = n) (fX : Fin (n + 1) → ℝ) (fX' : Fin (n' + 1) → ℝ)
    (hf : ∀ i : ℕ, ∀ h1 h2, fX' ⟨i, h1⟩ = fX ⟨i, h2⟩) : fX' (argmin fX') = fX (argmin fX) := by
  subst hn
  obtain rfl : fX' = fX := by funext i; exact hf i.1 i.2 i.2
  rfl

theorem genWith_renum (L : Setup d) 
    (S S' : Surr d) (s : State (Pt d))
    (hS : S.RenumAt π S' (surrData s)) (n : ℕ) (r : Rnd d) (x0 : Pt d) (xs : List (Pt d)) (fX : Fin (xs.length + 1) → ℝ)
    (fX' : Fin ((xs.map (renum π)).length + 1) → ℝ) (hf : ∀ i : ℕ, ∀ h1 h2, fX' ⟨i, h1⟩ = fX ⟨i, h2⟩) :
    genWith (L.renum π) S' (s.mapPt (renum π)) n (r.renum π) (renum π x0) (xs.map (renum π)) fX' =
      (genWith L S s n r x0 xs fX).map (Option.map (List.map (renum π))) := by
  have hX : ∀ i : ℕ, ∀ (h1 : i < (xs.map (renum π)).length + 1) (h2 : i < xs.length + 1),
      (fun j : Fin ((xs.map (renum π)).length + 1) => (renum π x0 :: xs.map (renum π))[j]) ⟨i, h1⟩ =
        renum π ((fun j : Fin (xs.length + 1) => (x0 :: xs)[j]) ⟨i, h2⟩) := by
    intro i h1 h2
    have : (renum π x0 :: xs.map (renum π)) = (x0 :: xs).map (renum π) := rfl
    simp only [Fin.getElem_fin]
    cases i with
    | zero => rfl
    | succ i => simp
  have hl : (xs.map (renum π)).length = xs.length := List.length_map ..
  obtain ⟨prob, cfg, method⟩ := L
  have hmean := hS.mean
  have hstd := hS.std
  cases method with
  | srbf =>
    simp only [genWith, Setup.renum, surrData_renum, ← hmean]
    simp only [Config.mapPt, State.mapPt]
    cases cfg.srbf with
    | none => rfl
    | some sc =>
      cases s.srbf with
      | none => rfl
      | some z =>
        cases S'.mean (renumData π (surrData s)) with
        | none => rfl
        | some pred =>
          simp only [Option.map_some, Option.map_map]
          congr 1
          funext w
          simp only [Function.comp_apply, Option.map_some, Option.some.injEq]
          have := srbf_renum' π prob pred hl _ _ fX fX' hX hf (w.1.map fun v => ((v : ℚ) : ℝ)) s.Xpend
            ((z.radius : ℚ) : ℝ) 1e-3 r.draws
          exact this
  | dycors =>
    have hpp : State.perturbProb (cfg.mapPt (renum π)) d (s.mapPt (renum π)) = State.perturbProb cfg d s := by
      simp [State.perturbProb, State.mapPt, Config.mapPt]
    simp only [genWith, Setup.renum, surrData_renum, hpp, ← hmean]
    simp only [Config.mapPt, State.mapPt]
    cases cfg.srbf with
    | none => rfl
    | some sc =>
      cases s.srbf with
      | none => rfl
      | some z =>
        cases S'.mean (renumData π (surrData s)) with
        | none => rfl
        | some pred =>
          simp only [Option.map_some]
          rw [Option.map_bind]
          congr 1
          funext w
          have := dycors_renum' π prob pred hl _ _ fX fX' hX hf (w.1.map fun v => ((v : ℚ) : ℝ))
            (probOf (State.perturbProb cfg d s)) s.Xpend ((z.radius : ℚ) : ℝ) 1e-3 r.u r.forced r.draws
          simp only [Function.comp_apply, Option.map_map]
          refine Eq.trans (congrArg (Option.map some) this) ?_
          rw [Option.map_map]
          rfl
  | ei tol dtol =>
    simp only [genWith, Setup.renum, surrData_renum, ← hmean, ← hstd]
    cases S'.mean (renumData π (surrData s)) with
    | none => rfl
    | some mean =>
      cases S'.std (renumData π (surrData s)) with
      | none => rfl
      | some std =>
        simp only [Option.map_some]
        rw [fbest_renum hl fX fX' hf, ← ei_renum π prob]
        rfl
  | lcb kappa tol dtol =>
    simp only [genWith, Setup.renum, surrData_renum, ← hmean, ← hstd]
    cases S'.mean (renumData π (surrData s)) with
    | none => rfl
    | some mean =>
      cases S'.std (renumData π (surrData s)) with
      | none => rfl
      | some std =>
        simp only [Option.map_some]
        rw [← lcb_renum π prob]
        rfl

theorem gen_renum (L : Setup d) 
    (S S' : Surr d) (s : State (Pt d))
    (hS : S.RenumAt π S' (surrData s)) (n : ℕ) (r : Rnd d) :
    gen (L.renum π) S' (s.mapPt (renum π)) n (r.renum π) =
      (gen L S s n r).map (Option.map (List.map (renum π))) := by
  unfold gen
  rw [show (s.mapPt (renum π)).curX = s.curX.map (renum π) from rfl]
  cases s.curX with
  | nil => rfl
  | cons x0 xs =>
    simp only [List.map_cons]
    by_cases hh : s.curFX.length = xs.length + 1 ∧ s.fX ≠ []
    · have hh' : (s.mapPt (renum π)).curFX.length = (xs.map (renum π)).length + 1 ∧ (s.mapPt (renum π)).fX ≠ [] := by
        simpa [State.mapPt] using hh
      rw [dif_pos hh', dif_pos hh]
      exact genWith_renum π L S S' s hS n r x0 xs _ _ fun i h1 h2 => rfl
    · have hh' : ¬ ((s.mapPt (renum π)).curFX.length = (xs.map (renum π)).length + 1 ∧ (s.mapPt (renum π)).fX ≠ []) := by
        simpa [State.mapPt] using hh
      rw [dif_neg hh', dif_neg hh]; rfl

theorem oracleOf_renum (L : Setup d) (D : List (Pt d)) (g : Option (List (Pt d))) :
    oracleOf (L.renum π) (D.map (renum π)) (g.map (List.map (renum π))) = (oracleOf L D g).mapPt (renum π) := by
  have h : ∀ (l : List (Pt d)) (i : ℕ), (l.map (renum π)).getD i (renum π L.prob.lb) = renum π (l.getD i L.prob.lb) := by
    intro l i
    simp only [List.getD_eq_getElem?_getD, List.getElem?_map]
    cases l[i]? <;> rfl
  unfold oracleOf Oracle.mapPt
  simp only [Setup.renum, OptProb.renum, h, Option.isNone_map]
  congr 1
  funext i
  cases g with
  | none => rfl
  | some l => exact h l i

theorem loopStep_renum (L : Setup d) 
    (S S' : Surr d) (f f' : Pt d → Val)
    (hf : ∀ x, f' (renum π x) = f x) (w : Sys (Pt d)) (hS : S.RenumAt π S' (surrData w.st)) (e : Ev d) :
    loopStep (L.renum π) S' f' (w.mapPt (renum π)) (e.renum π) = (loopStep L S f w e).map (Sys.mapPt (renum π)) := by
  have hst := fun op => step_mapPt (renum_injective π) L.cfg w op
  cases e with
  | propose r =>
    have ha : answer (L.renum π) S' (w.mapPt (renum π)).st (r.renum π) =
        (answer L S w.st r).map (Option.map (List.map (renum π))) := by
      unfold answer
      have hw : wantsPoints (L.renum π).cfg (w.mapPt (renum π)).st ↔ wantsPoints L.cfg w.st := by
        simp [wantsPoints, Sys.mapPt, State.mapPt, Setup.renum, Config.mapPt]
      have hg : gen (L.renum π) S' (w.mapPt (renum π)).st (wanted (L.renum π).cfg) (r.renum π) = _ :=
        gen_renum π L S S' w.st hS (wanted L.cfg) r
      by_cases hq : wantsPoints L.cfg w.st
      · rw [if_pos hq, if_pos (hw.mpr hq), hg]
      · rw [if_neg hq, if_neg (fun h => hq (hw.mp h))]; rfl
    simp only [Ev.renum, loopStep, ha]
    cases answer L S w.st r with
    | none => rfl
    | some g =>
      simp only [Option.map_some, Option.bind_some]
      rw [show (r.renum π).design = r.design.map (renum π) from rfl, oracleOf_renum]
      exact hst (.propose (oracleOf L r.design g))
  | accept i => exact hst (.accept i)
  | reject i => exact hst (.reject i)
  | complete i =>
    simp only [Ev.renum, loopStep]
    rw [show (w.mapPt (renum π)).recs[i]? = w.recs[i]?.map (Rec.mapPt (renum π)) by simp [Sys.mapPt]]
    cases w.recs[i]? with
    | none => rfl
    | some r =>
      simp only [Option.map_some, Option.bind_some]
      rw [show f' (r.mapPt (renum π)).x = f r.x from hf r.x]
      exact hst (.complete i (f r.x))
  | abort i => exact hst (.abort i)
  | update i => exact hst (.update i)
  | resume => simp only [Ev.renum, loopStep, Option.map_some]; rw [resumed_mapPt]

theorem loopSteps_renum (L : Setup d) 
    (S S' : Surr d) (f f' : Pt d → Val)
    (hf : ∀ x, f' (renum π x) = f x) (es : List (Ev d)) (w : Sys (Pt d))
    (hS : ∀ es' w', es' <+: es → loopSteps L S f w es' = some w' → S.RenumAt π S' (surrData w'.st)) :
    loopSteps (L.renum π) S' f' (w.mapPt (renum π)) (es.map (Ev.renum π)) =
      (loopSteps L S f w es).map (Sys.mapPt (renum π)) := by
  induction es generalizing w with
  | nil => rfl
  | cons e es ih =>
    simp only [List.map_cons, loopSteps]
    rw [loopStep_renum π L S S' f f' hf w (hS [] w (List.nil_prefix) rfl) e]
    cases hw : loopStep L S f w e with
    | none => rfl
    | some w' =>
      simp only [Option.map_some, Option.bind_some]
      refine ih w' fun es' w'' hp h => hS (e :: es') w'' (List.prefix_cons_inj e |>.mpr hp) ?_
      simp only [loopSteps, hw, Option.bind_some, h]

theorem loopRun_renum (L : Setup d) 
    (S S' : Surr d) (f f' : Pt d → Val)
    (hf : ∀ x, f' (renum π x) = f x) (D : List (Pt d)) (es : List (Ev d))
    (hS : ∀ es' w', es' <+: es → loopRun L S f D es' = some w' → S.RenumAt π S' (surrData w'.st)) :
    loopRun (L.renum π) S' f' (D.map (renum π)) (es.map (Ev.renum π)) =
      (loopRun L S f D es).map (Sys.mapPt (renum π)) := by
  unfold loopRun
  rw [show oracleOf (L.renum π) (D.map (renum π)) none = (oracleOf L D none).mapPt (renum π) from oracleOf_renum π L D none,
    show Sys.create (L.renum π).cfg _ = _ from create_mapPt (renum π) L.cfg _]
  exact loopSteps_renum π L S S' f f' hf es _ hS

end Verif.Loop
