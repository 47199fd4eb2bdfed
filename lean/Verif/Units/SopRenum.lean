import Verif.Units.SopLoop
import Verif.Units.RenumLoop

/-! # The closed loop of SOP with the variables renumbered or their signs changed (for C144) -/

namespace Verif.Loop

open Verif.Num Verif.Utils Verif.Cand Verif.Design Verif.Strategy Verif.Sop

variable {d m n : ℕ}

/-! ## Renumbering -/

/-- The draws of a candidate search for the renumbered variables. -/
def CandRnd.renum (π : Equiv.Perm (Fin d)) (r : CandRnd d) : CandRnd d where
  m := r.m
  draws := fun j => Loop.renum π (r.draws j)
  u := fun j => renumCol π (r.u j)
  forced := fun j => renumIdx π (r.forced j)

theorem points_renum (π : Equiv.Perm (Fin d)) (L : SopSetup d) (S S' : Surr d) (s : State (Pt d))
    (hS : S.RenumAt π S' (surrData s)) :
    PointsConvert (renum π) (CandRnd.renum π) (fun v => v) L
      { L with prob := L.prob.renum π, base := L.base.mapPt (renum π) } S S' s := by
  intro xc sigma r
  have hd : surrData ((s.mapPt (renum π)).mapVal fun v => v) = renumData π (surrData s) := by
    rw [← surrData_renum]
    simp [surrData, State.mapVal]
  have hpp : State.perturbProb (L.base.mapPt (renum π)) d ((s.mapPt (renum π)).mapVal fun v => v) =
      State.perturbProb L.base d s := by
    simp [State.perturbProb, State.mapVal, State.mapPt, Config.mapPt]
  have hm := hS.mean
  unfold sopPoint
  rw [hd, hpp, ← hm]
  rw [show ((s.mapPt (renum π)).mapVal fun v => v).curX = s.curX.map (renum π) from rfl,
    show ((s.mapPt (renum π)).mapVal fun v => v).Xpend = s.Xpend.map (renum π) from rfl]
  cases s.curX with
  | nil => rfl
  | cons x0 xs =>
    simp only [List.map_cons]
    cases S'.mean (renumData π (surrData s)) with
    | none => rfl
    | some pred =>
      simp only [Option.map_some, Option.bind_some]
      have key : ∀ {n' : ℕ} (hn : n' = xs.length) (X' : Fin (n' + 1) → Pt d)
          (hX : ∀ i : ℕ, ∀ h1 h2, X' ⟨i, h1⟩ = renum π ((fun i : Fin (xs.length + 1) => (x0 :: xs)[i]) ⟨i, h2⟩)),
          candidateDycors (L.prob.renum π) pred X' [1] (probOf (State.perturbProb L.base d s)) (s.Xpend.map (renum π))
            ((sigma : ℚ) : ℝ) (List.finRange d) 1e-3 (renum π xc) (r.renum π).u (r.renum π).forced (r.renum π).draws =
          (candidateDycors L.prob (fun x => pred (renum π x)) (fun i : Fin (xs.length + 1) => (x0 :: xs)[i]) [1]
            (probOf (State.perturbProb L.base d s)) s.Xpend ((sigma : ℚ) : ℝ) (List.finRange d) 1e-3 xc r.u r.forced
            r.draws).map (List.map (renum π)) := by
        intro n' hn X' hX
        subst hn
        obtain rfl : X' = fun i => renum π ((x0 :: xs)[i]) := by funext i; exact hX i.1 i.2 i.2
        exact dycors_renum π L.prob pred _ [1] _ s.Xpend _ 1e-3 xc r.u r.forced r.draws
      rw [key (by simp)]
      · cases candidateDycors L.prob (fun x => pred (renum π x)) (fun i : Fin (xs.length + 1) => (x0 :: xs)[i]) [1]
          (probOf (State.perturbProb L.base d s)) s.Xpend ((sigma : ℚ) : ℝ) (List.finRange d) 1e-3 xc r.u r.forced r.draws with
        | none => rfl
        | some l => cases l <;> rfl
      · intro i h1 h2
        cases i with
        | zero => rfl
        | succ i => simp

/-! ## Changing signs -/

variable (ε : Fin d → Bool)

/-- The variables `i` with `ε i` are measured in the opposite direction. -/
def mirror (x : Pt d) : Pt d := fun i => if ε i then -x i else x i

theorem mirror_mirror (x : Pt d) : mirror ε (mirror ε x) = x := by
  funext i
  unfold mirror
  split_ifs
  · exact neg_neg _
  · rfl

theorem mirror_injective : Function.Injective (mirror ε) := fun x y h => by
  rw [← mirror_mirror ε x, h, mirror_mirror]

theorem eucl_mirror (x y : Pt d) : eucl (mirror ε x) (mirror ε y) = eucl x y := by
  unfold eucl mirror
  congr 1
  refine Finset.sum_congr rfl fun i _ => ?_
  split_ifs <;> ring

theorem minDist_mirror (x y0 : Pt d) (ys : List (Pt d)) :
    minDist (mirror ε x) (mirror ε y0) (ys.map (mirror ε)) = minDist x y0 ys := by
  unfold minDist
  rw [eucl_mirror, List.foldl_map]
  simp only [eucl_mirror]

theorem wdmLoop_mirror (cand : Fin (m + 1) → Pt d) (dtol : ℝ) (ws : List ℝ)
    (fvals : Fin (m + 1) → Fl) (dm : Fin (m + 1) → ℝ) :
    wdmLoop (fun j => mirror ε (cand j)) dtol ws fvals dm = wdmLoop cand dtol ws fvals dm := by
  induction ws generalizing fvals dm with
  | nil => rfl
  | cons w ws ih =>
    unfold wdmLoop
    dsimp only
    rw [← ih]
    congr 2
    funext j
    rw [eucl_mirror]

theorem wdm_mirror (pred : Pt d → ℝ) (X : Fin (n + 1) → Pt d) (Xpend : List (Pt d))
    (cand : Fin (m + 1) → Pt d) (weights : List ℝ) (dtol : ℝ) :
    weightedDistanceMerit pred (fun i => mirror ε (X i)) (Xpend.map (mirror ε)) (fun j => mirror ε (cand j)) weights dtol =
      (weightedDistanceMerit (fun x => pred (mirror ε x)) X Xpend cand weights dtol).map (mirror ε) := by
  unfold weightedDistanceMerit
  rw [List.map_map]
  have h : wdmIdx pred (fun i => mirror ε (X i)) (Xpend.map (mirror ε)) (fun j => mirror ε (cand j)) weights dtol =
      wdmIdx (fun x => pred (mirror ε x)) X Xpend cand weights dtol := by
    unfold wdmIdx
    refine Eq.trans ?_ (wdmLoop_mirror ε cand dtol weights _ _)
    congr 1
    funext j
    refine Eq.trans ?_ (minDist_mirror ε (cand j) (X 0) _)
    rw [List.map_append, List.map_ofFn]
    rfl
  rw [h]; rfl

/-- The problem with some signs changed: their bounds are exchanged. -/
def _root_.Verif.Cand.OptProb.mirror (p : OptProb d) : OptProb d where
  lb := fun i => if ε i then -p.ub i else p.lb i
  ub := fun i => if ε i then -p.lb i else p.ub i
  intVar := p.intVar

theorem rint_neg (x : ℝ) : rint (-x) = -rint x := by
  by_cases hx : ((⌊x⌋ : ℤ) : ℝ) = x
  · rw [← hx, ← Int.cast_neg, rint_intCast, rint_intCast]
  · have h1 := Int.floor_le x
    have h2 := Int.lt_floor_add_one x
    have h3 : ((⌊x⌋ : ℤ) : ℝ) < x := lt_of_le_of_ne h1 hx
    have hf : ⌊-x⌋ = -⌊x⌋ - 1 := by
      rw [Int.floor_eq_iff]
      push_cast
      constructor <;> linarith
    unfold rint
    rw [hf]
    push_cast
    split_ifs <;> first | omega | (exfalso; linarith)

theorem clip_neg {l u : ℝ} (h : l ≤ u) (x : ℝ) : clip (-u) (-l) (-x) = -clip l u x := by
  unfold clip
  rcases le_total x l with h1 | h1
  · rw [max_eq_right h1, min_eq_left h, max_eq_left (neg_le_neg (h1.trans h)), min_eq_right (neg_le_neg h1)]
  · rw [max_eq_left h1]
    rcases le_total x u with h2 | h2
    · rw [min_eq_left h2, max_eq_left (neg_le_neg h2), min_eq_left (neg_le_neg h1)]
    · rw [min_eq_right h2, max_eq_right (neg_le_neg h2), min_eq_left (neg_le_neg h)]

theorem roundVars_mirror (p : OptProb d) (hb : ∀ i, p.lb i ≤ p.ub i) (x : Pt d) :
    roundVars (mirror ε x) (p.mirror ε).intVar (p.mirror ε).lb (p.mirror ε).ub =
      mirror ε (roundVars x p.intVar p.lb p.ub) := by
  funext i
  have h1 := roundVars_apply (mirror ε x) p.intVar (p.mirror ε).lb (p.mirror ε).ub i
  have h2 := roundVars_apply x p.intVar p.lb p.ub i
  show roundVars (mirror ε x) p.intVar (p.mirror ε).lb (p.mirror ε).ub i =
    if ε i then -roundVars x p.intVar p.lb p.ub i else roundVars x p.intVar p.lb p.ub i
  rw [h1, h2]
  by_cases hi : i ∈ p.intVar
  · rw [if_pos hi, if_pos hi]
    simp only [OptProb.mirror, mirror]
    split_ifs
    · rw [rint_neg, Int.cast_neg, clip_neg (hb i)]
    · rfl
  · rw [if_neg hi, if_neg hi]
    rfl

theorem scalefactors_mirror (p : OptProb d) (radius : ℝ) (subset : List (Fin d)) :
    scalefactors (p.mirror ε) radius subset = scalefactors p radius subset := by
  funext i
  unfold scalefactors
  have : (if ε i then -p.lb i else p.ub i) - (if ε i then -p.ub i else p.lb i) = p.ub i - p.lb i := by
    split_ifs <;> ring
  show (if i ∈ p.intVar ∧ i ∈ subset then
      max (radius * ((if ε i then -p.lb i else p.ub i) - (if ε i then -p.ub i else p.lb i))) 1
    else radius * ((if ε i then -p.lb i else p.ub i) - (if ε i then -p.ub i else p.lb i))) = _
  rw [this]

theorem dycors_mirror (p : OptProb d) (hb : ∀ i, p.lb i ≤ p.ub i) (pred : Pt d → ℝ)
    (X : Fin (n + 1) → Pt d) (weights : List ℝ) (prob : ℝ) (Xpend : List (Pt d)) (radius : ℝ) (dtol : ℝ) (xbest : Pt d)
    (u : Fin (m + 1) → ℕ → ℝ) (forced : Fin (m + 1) → ℕ) (z : Fin (m + 1) → Pt d) :
    candidateDycors (p.mirror ε) pred (fun i => mirror ε (X i)) weights prob (Xpend.map (mirror ε)) radius (List.finRange d)
        dtol (mirror ε xbest) u forced (fun j => mirror ε (z j)) =
      (candidateDycors p (fun x => pred (mirror ε x)) X weights prob Xpend radius (List.finRange d) dtol xbest u forced z).map
        (List.map (mirror ε)) := by
  unfold candidateDycors
  simp only [dycorsCand_full, Option.isSome_some, implies_true, dite_true, Option.get_some, Option.map_some]
  rw [← wdm_mirror ε]
  congr 2
  funext j
  rw [← roundVars_mirror ε p hb, scalefactors_mirror]
  congr 1
  funext i
  simp only [mirror]
  split_ifs
  · unfold truncnorm; ring
  · rfl
  · rfl
  · rfl

/-- The data with some signs changed. -/
def mirrorData (D : List (Pt d × ℝ)) : List (Pt d × ℝ) := D.map fun e => (mirror ε e.1, e.2)

theorem surrData_mirror (s : State (Pt d)) : surrData (s.mapPt (mirror ε)) = mirrorData ε (surrData s) := by
  simp only [mirrorData, surrData, State.mapPt, List.map_map]
  rfl

/-- The surrogate `S'` of the problem with changed signs, given the data with changed signs, predicts at the corresponding point
what `S` predicts. -/
structure Surr.MirrorAt (S S' : Surr d) (D : List (Pt d × ℝ)) : Prop where
  mean : (S'.mean (mirrorData ε D)).map (fun q x => q (mirror ε x)) = S.mean D
  std : (S'.std (mirrorData ε D)).map (fun q x => q (mirror ε x)) = S.std D

/-- The draws of a candidate search with the signs changed. -/
def CandRnd.mirror (r : CandRnd d) : CandRnd d := { r with draws := fun j => Loop.mirror ε (r.draws j) }

theorem points_mirror (L : SopSetup d) (hb : ∀ i, L.prob.lb i ≤ L.prob.ub i) (S S' : Surr d) (s : State (Pt d))
    (hS : S.MirrorAt ε S' (surrData s)) :
    PointsConvert (mirror ε) (CandRnd.mirror ε) (fun v => v) L
      { L with prob := L.prob.mirror ε, base := L.base.mapPt (mirror ε) } S S' s := by
  intro xc sigma r
  have hd : surrData ((s.mapPt (mirror ε)).mapVal fun v => v) = mirrorData ε (surrData s) := by
    rw [← surrData_mirror]
    simp [surrData, State.mapVal]
  have hpp : State.perturbProb (L.base.mapPt (mirror ε)) d ((s.mapPt (mirror ε)).mapVal fun v => v) =
      State.perturbProb L.base d s := by
    simp [State.perturbProb, State.mapVal, State.mapPt, Config.mapPt]
  have hm := hS.mean
  unfold sopPoint
  rw [hd, hpp, ← hm]
  rw [show ((s.mapPt (mirror ε)).mapVal fun v => v).curX = s.curX.map (mirror ε) from rfl,
    show ((s.mapPt (mirror ε)).mapVal fun v => v).Xpend = s.Xpend.map (mirror ε) from rfl]
  cases s.curX with
  | nil => rfl
  | cons x0 xs =>
    simp only [List.map_cons]
    cases S'.mean (mirrorData ε (surrData s)) with
    | none => rfl
    | some pred =>
      simp only [Option.map_some, Option.bind_some]
      have key : ∀ {n' : ℕ} (hn : n' = xs.length) (X' : Fin (n' + 1) → Pt d)
          (hX : ∀ i : ℕ, ∀ h1 h2, X' ⟨i, h1⟩ = mirror ε ((fun i : Fin (xs.length + 1) => (x0 :: xs)[i]) ⟨i, h2⟩)),
          candidateDycors (L.prob.mirror ε) pred X' [1] (probOf (State.perturbProb L.base d s)) (s.Xpend.map (mirror ε))
            ((sigma : ℚ) : ℝ) (List.finRange d) 1e-3 (mirror ε xc) (r.mirror ε).u (r.mirror ε).forced (r.mirror ε).draws =
          (candidateDycors L.prob (fun x => pred (mirror ε x)) (fun i : Fin (xs.length + 1) => (x0 :: xs)[i]) [1]
            (probOf (State.perturbProb L.base d s)) s.Xpend ((sigma : ℚ) : ℝ) (List.finRange d) 1e-3 xc r.u r.forced
            r.draws).map (List.map (mirror ε)) := by
        intro n' hn X' hX
        subst hn
        obtain rfl : X' = fun i => mirror ε ((x0 :: xs)[i]) := by funext i; exact hX i.1 i.2 i.2
        exact dycors_mirror ε L.prob hb pred _ [1] _ s.Xpend _ 1e-3 xc r.u r.forced r.draws
      rw [key (by simp)]
      · cases candidateDycors L.prob (fun x => pred (mirror ε x)) (fun i : Fin (xs.length + 1) => (x0 :: xs)[i]) [1]
          (probOf (State.perturbProb L.base d s)) s.Xpend ((sigma : ℚ) : ℝ) (List.finRange d) 1e-3 xc r.u r.forced r.draws with
        | none => rfl
        | some l => cases l <;> rfl
      · intro i h1 h2
        cases i with
        | zero => rfl
        | succ i => simp

end Verif.Loop
