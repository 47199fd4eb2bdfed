import Verif.Units.Sim

/-!
# The auxiliary problems do not depend on the numbering of the variables (for C123)

`renum π` is the renumbering of the variables: the new variable `i` is the old variable `π i`.
-/

namespace Verif.Loop

open Verif.Num Verif.Utils Verif.Cand Verif.Design Verif.Strategy Verif.Props

variable {d m n h : ℕ} (π : Equiv.Perm (Fin d))

/-- The new variable `i` is the old variable `π i`. -/
def renum (x : Pt d) : Pt d := fun i => x (π i)

theorem renum_injective : Function.Injective (renum π) := by
  intro x y h
  funext i
  have := congrFun h (π.symm i)
  simpa [renum] using this

theorem renum_surjective : Function.Surjective (renum π) := fun y => ⟨fun i => y (π.symm i), by funext i; simp [renum]⟩

theorem eucl_renum (x y : Pt d) : eucl (renum π x) (renum π y) = eucl x y := by
  unfold eucl renum
  rw [Equiv.sum_comp π fun i => (x i - y i) ^ 2]

theorem minDist_renum (x y0 : Pt d) (ys : List (Pt d)) :
    minDist (renum π x) (renum π y0) (ys.map (renum π)) = minDist x y0 ys := by
  unfold minDist
  rw [eucl_renum, List.foldl_map]
  simp only [eucl_renum]

theorem wdmLoop_renum (cand : Fin (m + 1) → Pt d) (dtol : ℝ) (ws : List ℝ)
    (fvals : Fin (m + 1) → Fl) (dm : Fin (m + 1) → ℝ) :
    wdmLoop (fun j => renum π (cand j)) dtol ws fvals dm = wdmLoop cand dtol ws fvals dm := by
  induction ws generalizing fvals dm with
  | nil => rfl
  | cons w ws ih =>
    unfold wdmLoop
    dsimp only
    rw [← ih]
    congr 2
    funext j
    rw [eucl_renum]

theorem wdm_renum (pred : Pt d → ℝ) (X : Fin (n + 1) → Pt d) (Xpend : List (Pt d))
    (cand : Fin (m + 1) → Pt d) (weights : List ℝ) (dtol : ℝ) :
    weightedDistanceMerit pred (fun i => renum π (X i)) (Xpend.map (renum π)) (fun j => renum π (cand j)) weights dtol =
      (weightedDistanceMerit (fun x => pred (renum π x)) X Xpend cand weights dtol).map (renum π) := by
  unfold weightedDistanceMerit
  rw [List.map_map]
  have h : wdmIdx pred (fun i => renum π (X i)) (Xpend.map (renum π)) (fun j => renum π (cand j)) weights dtol =
      wdmIdx (fun x => pred (renum π x)) X Xpend cand weights dtol := by
    unfold wdmIdx
    refine Eq.trans ?_ (wdmLoop_renum π cand dtol weights _ _)
    congr 1
    funext j
    refine Eq.trans ?_ (minDist_renum π (cand j) (X 0) _)
    rw [List.map_append, List.map_ofFn]
    rfl
  rw [h]; rfl

/-- The problem with renumbered variables. -/
def _root_.Verif.Cand.OptProb.renum (p : OptProb d) : OptProb d where
  lb := Loop.renum π p.lb
  ub := Loop.renum π p.ub
  intVar := p.intVar.map π.symm

theorem mem_renum (l : List (Fin d)) (i : Fin d) : i ∈ l.map π.symm ↔ π i ∈ l := by
  rw [List.mem_map]
  constructor
  · rintro ⟨a, ha, rfl⟩; simpa using ha
  · intro hi; exact ⟨π i, hi, by simp⟩

theorem roundVars_renum (x : Pt d) (p : OptProb d) :
    roundVars (renum π x) (p.renum π).intVar (p.renum π).lb (p.renum π).ub = renum π (roundVars x p.intVar p.lb p.ub) := by
  classical
  funext i
  rw [roundVars_apply]
  simp only [OptProb.renum, renum, mem_renum]
  rw [roundVars_apply]

theorem scalefactors_renum (p : OptProb d) (radius : ℝ) :
    scalefactors (p.renum π) radius (List.finRange d) = renum π (scalefactors p radius (List.finRange d)) := by
  funext i
  simp only [scalefactors, OptProb.renum, renum, mem_renum, List.mem_finRange]

theorem srbf_renum (p : OptProb d) (pred : Pt d → ℝ)
    (X : Fin (n + 1) → Pt d) (fX : Fin (n + 1) → ℝ) (weights : List ℝ) (Xpend : List (Pt d)) (radius : ℝ)
    (dtol : ℝ) (z : Fin (m + 1) → Pt d) :
    candidateSrbf (p.renum π) pred (fun i => renum π (X i)) fX weights (Xpend.map (renum π)) radius (List.finRange d) dtol
        (fun j => renum π (z j)) =
      (candidateSrbf p (fun x => pred (renum π x)) X fX weights Xpend radius (List.finRange d) dtol z).map (renum π) := by
  unfold candidateSrbf
  dsimp only
  rw [← wdm_renum π]
  congr 1
  funext j
  rw [← roundVars_renum, scalefactors_renum]
  congr 1
  funext i
  simp only [srbfCand, renum, xbestOf, List.mem_finRange, if_true]

/-- The uniform draws of DYCORS for the renumbered columns. -/
def renumCol (u : ℕ → ℝ) : ℕ → ℝ := fun c => if hc : c < d then u (π ⟨c, hc⟩) else u c

/-- The number of the forced column after renumbering. -/
def renumIdx (c : ℕ) : ℕ := if hc : c < d then π.symm ⟨c, hc⟩ else c

theorem renumIdx_iff (i : Fin d) (c : ℕ) : (i : ℕ) = renumIdx π c ↔ (π i : ℕ) = c := by
  unfold renumIdx
  split_ifs with hc
  · constructor
    · intro h
      have : i = π.symm ⟨c, hc⟩ := Fin.ext h
      rw [this]; simp
    · intro h
      have : π i = ⟨c, hc⟩ := Fin.ext h
      rw [← this]; simp
  · constructor
    · intro h; exact absurd (h ▸ i.2) hc
    · intro h; exact absurd (h ▸ (π i).2) hc

theorem mask_renum (prob : ℝ) (u : ℕ → ℝ) (forced : ℕ) (i : Fin d) :
    dycorsMask d prob (renumCol π u) (renumIdx π forced) i = dycorsMask d prob u forced (π i) := by
  have hcol : ∀ i : Fin d, renumCol π u i = u (π i) := fun i => by simp [renumCol]
  have hall : (∀ c < d, ¬ renumCol π u c < prob) ↔ ∀ c < d, ¬ u c < prob := by
    constructor
    · intro h c hc
      have := h (π.symm ⟨c, hc⟩) (Fin.is_lt _)
      rw [hcol] at this
      simpa using this
    · intro h c hc
      have := h (π ⟨c, hc⟩) (Fin.is_lt _)
      rw [← hcol] at this
      exact this
  unfold dycorsMask
  by_cases h1 : d = 1
  · simp only [h1, if_true]
  · by_cases h2 : ∀ c < d, ¬ u c < prob
    · rw [if_neg h1, if_neg h1, if_pos h2, if_pos (hall.mpr h2)]
      simp only [hcol, renumIdx_iff]
    · rw [if_neg h1, if_neg h1, if_neg h2, if_neg (fun h => h2 (hall.mp h))]
      simp only [hcol]

theorem dycorsCand_full (xbest σ : Pt d) (mask : ℕ → Bool) (z : Pt d) :
    dycorsCand xbest σ (List.finRange d) mask z =
      some fun i : Fin d => if mask i = true then truncnorm (xbest i) (σ i) (z i) else xbest i := by
  obtain ⟨y, hy, h⟩ := dycorsCand_prefix xbest σ (List.finRange d) (by intro i hi; simp) mask z
  rw [hy]
  congr 1
  funext i
  rw [h]
  simp

theorem dycors_renum (p : OptProb d) (pred : Pt d → ℝ)
    (X : Fin (n + 1) → Pt d) (weights : List ℝ) (prob : ℝ) (Xpend : List (Pt d)) (radius : ℝ) (dtol : ℝ) (xbest : Pt d)
    (u : Fin (m + 1) → ℕ → ℝ) (forced : Fin (m + 1) → ℕ) (z : Fin (m + 1) → Pt d) :
    candidateDycors (p.renum π) pred (fun i => renum π (X i)) weights prob (Xpend.map (renum π)) radius (List.finRange d)
        dtol (renum π xbest) (fun j => renumCol π (u j)) (fun j => renumIdx π (forced j)) (fun j => renum π (z j)) =
      (candidateDycors p (fun x => pred (renum π x)) X weights prob Xpend radius (List.finRange d) dtol xbest u forced z).map
        (List.map (renum π)) := by
  unfold candidateDycors
  simp only [dycorsCand_full, Option.isSome_some, implies_true, dite_true, Option.get_some, Option.map_some]
  rw [← wdm_renum π]
  congr 2
  funext j
  rw [← roundVars_renum, scalefactors_renum]
  congr 1
  funext i
  simp only [List.length_finRange, mask_renum, renum]

/-! ## The genetic algorithm -/

/-- The draws of a generation for the renumbered variables. -/
def renumDraws (r : Draws d h) : Draws d h :=
  { r with normal := fun k => renum π (r.normal k), mutate := fun k => renum π (r.mutate k) }

/-- Renumbers the variables in a state of the genetic algorithm. -/
def renumState {α : Type} (s : GAState d h α) : GAState d h α where
  pop := fun k => renum π (s.pop k)
  vals := s.vals
  best := renum π s.best
  bestValue := s.bestValue
  evaluated := s.evaluated.map (renum π)

variable {α : Type} [LinearOrder α]

theorem evaluate_renum (f : Pt d → α) (pop next : Pop d h) (old : List (Pt d)) :
    evaluate f (fun k => renum π (pop k)) (fun k => renum π (next k)) (old.map (renum π)) =
      renumState π (evaluate (fun x => f (renum π x)) pop next old) := by
  simp only [evaluate, renumState, List.map_append, List.map_ofFn]
  rfl

theorem ga_renum (p : OptProb d) : (p.renum π).ga = ⟨renum π p.lb, renum π p.ub, p.intVar.map π.symm⟩ := rfl

theorem generation_renum (p : OptProb d) (f : Pt d → α) (s : GAState d h α) (r : Draws d h) :
    generation (p.renum π).ga f (renumState π s) (renumDraws π r) =
      renumState π (generation p.ga (fun x => f (renum π x)) s r) := by
  unfold generation
  dsimp only
  rw [← evaluate_renum]
  have hm : mutation (p.renum π).ga (crossover (renumState π s).pop (winner (renumState π s).vals (renumDraws π r).competitors)
      (renumDraws π r)) (renumDraws π r) =
      fun k => renum π (mutation p.ga (crossover s.pop (winner s.vals r.competitors) r) r k) := rfl
  have hl : (p.renum π).ga.intVar.length > 0 ↔ p.ga.intVar.length > 0 := by simp [OptProb.ga, OptProb.renum]
  have hr : ∀ x, roundVars (renum π x) (p.renum π).ga.intVar (p.renum π).ga.lb (p.renum π).ga.ub =
      renum π (roundVars x p.ga.intVar p.ga.lb p.ga.ub) := fun x => roundVars_renum π x p
  have he : (fun k => if k = 0 then (renumState π s).best else roundVars (renum π
      (mutation p.ga (crossover s.pop (winner s.vals r.competitors) r) r k)) (p.renum π).ga.intVar (p.renum π).ga.lb
      (p.renum π).ga.ub) = fun k => renum π (if k = 0 then s.best else roundVars
      (mutation p.ga (crossover s.pop (winner s.vals r.competitors) r) r k) p.ga.intVar p.ga.lb p.ga.ub) := by
    funext k
    rw [hr]
    split_ifs <;> rfl
  rw [hm, he]
  by_cases h0 : p.ga.intVar.length > 0
  · rw [if_pos h0, if_pos (hl.mpr h0)]; rfl
  · rw [if_neg h0, if_neg (fun h => h0 (hl.mp h))]; rfl

theorem nudge_renum (p : OptProb d) (x : Pt d) (i : Fin d) :
    nudgeCol (p.renum π).ga (renum π x) (π.symm i) = renum π (nudgeCol p.ga x i) := by
  have hu : ∀ (x : Pt d) (v : ℝ), Function.update (renum π x) (π.symm i) v = renum π (Function.update x i v) := by
    intro x v
    funext j
    by_cases hj : j = π.symm i
    · subst hj; simp [renum]
    · have : π j ≠ i := fun h => hj (by rw [← h]; simp)
      simp [renum, hj, this]
  have hx : ∀ x : Pt d, renum π x (π.symm i) = x i := fun x => by simp [renum]
  have hlb : (p.renum π).ga.lb (π.symm i) = p.ga.lb i := hx p.lb
  have hub : (p.renum π).ga.ub (π.symm i) = p.ga.ub i := hx p.ub
  unfold nudgeCol
  dsimp only
  rw [hlb, hub, hx, hu]
  by_cases h1 : x i < p.ga.lb i
  · simp only [h1, if_true, hx]
    rw [hu]
    split_ifs <;> rfl
  · simp only [h1, if_false, hx]
    rw [hu]
    split_ifs <;> rfl

theorem initialRound_renum (p : OptProb d) (x : Pt d) :
    initialRound (p.renum π).ga (renum π x) = renum π (initialRound p.ga x) := by
  have hl : (p.renum π).ga.intVar.length > 0 ↔ p.ga.intVar.length > 0 := by simp [OptProb.ga, OptProb.renum]
  have hc : roundCols (p.renum π).ga.intVar (renum π x) = renum π (roundCols p.ga.intVar x) := by
    classical
    funext i
    have : i ∈ (p.renum π).ga.intVar ↔ π i ∈ p.ga.intVar := mem_renum π p.intVar i
    simp only [roundCols, renum, this]
  unfold initialRound
  by_cases h0 : p.ga.intVar.length > 0
  · rw [if_pos h0, if_pos (hl.mpr h0), hc]
    show ((p.intVar.map π.symm).foldl (nudgeCol (p.renum π).ga) (renum π (roundCols p.intVar x))) = _
    rw [List.foldl_map]
    show _ = renum π (p.intVar.foldl (nudgeCol p.ga) (roundCols p.intVar x))
    generalize roundCols p.intVar x = y
    generalize p.intVar = l
    induction l generalizing y with
    | nil => rfl
    | cons i l ih => rw [List.foldl_cons, List.foldl_cons, nudge_renum, ih]
  · rw [if_neg h0, if_neg (fun h => h0 (hl.mp h))]

/-- The draws of a run of the genetic algorithm for the renumbered variables. -/
def renumRun (r : GARun d h) : GARun d h := ⟨fun k => renum π (r.unit k), r.gens.map (renumDraws π)⟩

theorem optimize_renum (p : OptProb d) (f : Pt d → α) (r : GARun d h) :
    optimize (p.renum π).ga f (renumRun π r).unit (renumRun π r).gens =
      renumState π (optimize p.ga (fun x => f (renum π x)) r.unit r.gens) := by
  have h0 : gaInit (p.renum π).ga f (initialPop (p.renum π).ga (renumRun π r).unit) =
      renumState π (gaInit p.ga (fun x => f (renum π x)) (initialPop p.ga r.unit)) := by
    have hi : initialPop (p.renum π).ga (renumRun π r).unit = fun k => renum π (initialPop p.ga r.unit k) := rfl
    unfold gaInit
    rw [← evaluate_renum, hi]
    simp only [initialRound_renum]
    rfl
  unfold optimize optimizeFrom
  rw [h0]
  generalize gaInit p.ga (fun x => f (renum π x)) (initialPop p.ga r.unit) = s
  show (r.gens.map (renumDraws π)).foldl _ _ = _
  generalize r.gens = rs
  induction rs generalizing s with
  | nil => rfl
  | cons r rs ih => rw [List.map_cons, List.foldl_cons, List.foldl_cons, generation_renum, ih]

theorem eiGaLoop_renum (p : OptProb d)
    (M : List (Pt d) → Pt d → ℝ) (tol : ℝ) (runs : List (GARun d h)) (XX : List (Pt d)) :
    eiGaLoop (p.renum π) M tol (runs.map (renumRun π)) (XX.map (renum π)) =
      (eiGaLoop p (fun XX x => M (XX.map (renum π)) (renum π x)) tol runs XX).map (List.map (renum π)) := by
  induction runs generalizing XX with
  | nil => rfl
  | cons r rs ih =>
    rw [List.map_cons]
    unfold eiGaLoop
    dsimp only
    rw [optimize_renum]
    simp only [roundVars_renum]
    generalize optimize p.ga (fun Y => -M (XX.map (renum π)) (renum π (roundVars Y p.intVar p.lb p.ub))) r.unit r.gens = s
    simp only [renumState, roundVars_renum]
    have h2 := ih (XX ++ [s.best])
    rw [List.map_append, List.map_cons, List.map_nil] at h2
    by_cases hb : -s.bestValue < tol
    · simp only [hb, if_true, Option.map_none]
    · simp only [hb, if_false]
      rw [h2]
      cases eiGaLoop p (fun XX x => M (XX.map (renum π)) (renum π x)) tol rs (XX ++ [s.best]) <;> rfl

theorem lcbGaLoop_renum (p : OptProb d)
    (M : List (Pt d) → Pt d → WithTop ℝ) (target : ℝ) (runs : List (GARun d h)) (XX : List (Pt d)) :
    lcbGaLoop (p.renum π) M target (runs.map (renumRun π)) (XX.map (renum π)) =
      (lcbGaLoop p (fun XX x => M (XX.map (renum π)) (renum π x)) target runs XX).map (List.map (renum π)) := by
  induction runs generalizing XX with
  | nil => rfl
  | cons r rs ih =>
    rw [List.map_cons]
    unfold lcbGaLoop
    dsimp only
    rw [optimize_renum]
    simp only [roundVars_renum]
    generalize optimize p.ga (fun Y => M (XX.map (renum π)) (renum π (roundVars Y p.intVar p.lb p.ub))) r.unit r.gens = s
    simp only [renumState, roundVars_renum]
    have h2 := ih (XX ++ [s.best])
    rw [List.map_append, List.map_cons, List.map_nil] at h2
    by_cases hb : s.bestValue > (target : WithTop ℝ)
    · simp only [hb, if_true, Option.map_none]
    · simp only [hb, if_false]
      rw [h2]
      cases lcbGaLoop p (fun XX x => M (XX.map (renum π)) (renum π x)) target rs
        (XX ++ [s.best]) <;> rfl

theorem minDist_renum' (x x0 : Pt d) (XX : List (Pt d)) :
    minDist (renum π x) ((XX.map (renum π)).headD (renum π x0)) (XX.map (renum π)).tail = minDist x (XX.headD x0) XX.tail := by
  cases XX with
  | nil => exact minDist_renum π x x0 []
  | cons y ys => exact minDist_renum π x y ys

theorem ei_renum (p : OptProb d) (mean std : Pt d → ℝ) (fbest : ℝ)
    (x0 : Pt d) (xs Xpend : List (Pt d)) (dtol tol : ℝ) (runs : List (GARun d h)) :
    eiGa (p.renum π) mean std fbest (renum π x0) (xs.map (renum π)) (Xpend.map (renum π)) dtol tol (runs.map (renumRun π)) =
      (eiGa p (fun x => mean (renum π x)) (fun x => std (renum π x)) fbest x0 xs Xpend dtol tol runs).map
        (List.map (renum π)) := by
  unfold eiGa
  have h := eiGaLoop_renum π p
    (fun XX x => eiMerit mean std fbest (XX.headD (renum π x0)) XX.tail dtol x) tol runs (x0 :: xs ++ Xpend)
  rw [List.map_append, List.map_cons] at h
  rw [h]
  congr 2
  funext XX x
  unfold eiMerit
  rw [minDist_renum']

theorem lcb_renum (p : OptProb d) (mean std : Pt d → ℝ) (kappa : ℝ)
    (x0 : Pt d) (xs Xpend : List (Pt d)) (dtol target : ℝ) (runs : List (GARun d h)) :
    lcbGa (p.renum π) mean std kappa (renum π x0) (xs.map (renum π)) (Xpend.map (renum π)) dtol target
        (runs.map (renumRun π)) =
      (lcbGa p (fun x => mean (renum π x)) (fun x => std (renum π x)) kappa x0 xs Xpend dtol target runs).map
        (List.map (renum π)) := by
  unfold lcbGa
  have h := lcbGaLoop_renum π p
    (fun XX x => lcbMerit mean std kappa (XX.headD (renum π x0)) XX.tail dtol x) target runs (x0 :: xs ++ Xpend)
  rw [List.map_append, List.map_cons] at h
  rw [h]
  congr 2
  funext XX x
  unfold lcbMerit
  rw [minDist_renum']

end Verif.Loop
