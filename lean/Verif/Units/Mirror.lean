import Verif.Props.SopRenumber
import Verif.Units.RenumLoop

/-! # Candidate searches and genetic algorithm with changed signs of the variables (for C145) -/

namespace Verif.Loop

open Verif.Num Verif.Utils Verif.Cand Verif.Design Verif.Strategy Verif.Props

variable {d m n h : ℕ} (ε : Fin d → Bool)

theorem srbf_mirror (p : OptProb d) (hb : ∀ i, p.lb i ≤ p.ub i) (pred : Pt d → ℝ)
    (X : Fin (n + 1) → Pt d) (fX : Fin (n + 1) → ℝ) (weights : List ℝ) (Xpend : List (Pt d)) (radius : ℝ)
    (dtol : ℝ) (z : Fin (m + 1) → Pt d) :
    candidateSrbf (p.mirror ε) pred (fun i => mirror ε (X i)) fX weights (Xpend.map (mirror ε)) radius (List.finRange d) dtol
        (fun j => mirror ε (z j)) =
      (candidateSrbf p (fun x => pred (mirror ε x)) X fX weights Xpend radius (List.finRange d) dtol z).map (mirror ε) := by
  unfold candidateSrbf
  dsimp only
  rw [← wdm_mirror ε]
  congr 1
  funext j
  rw [← roundVars_mirror ε p hb, scalefactors_mirror]
  congr 1
  funext i
  simp only [srbfCand, mirror, xbestOf, List.mem_finRange, if_true, truncnorm]
  split_ifs <;> ring

/-! ## The genetic algorithm -/

/-- The draws of a generation: the normal variables of the mirrored variables change sign. -/
def mirrorDraws (r : Draws d h) : Draws d h := { r with normal := fun k => mirror ε (r.normal k) }

/-- Changes the signs in a state of the genetic algorithm. -/
def mirrorState {α : Type} (s : GAState d h α) : GAState d h α where
  pop := fun k => mirror ε (s.pop k)
  vals := s.vals
  best := mirror ε s.best
  bestValue := s.bestValue
  evaluated := s.evaluated.map (mirror ε)

variable {α : Type} [LinearOrder α]

theorem evaluate_mirror (f : Pt d → α) (pop next : Pop d h) (old : List (Pt d)) :
    evaluate f (fun k => mirror ε (pop k)) (fun k => mirror ε (next k)) (old.map (mirror ε)) =
      mirrorState ε (evaluate (fun x => f (mirror ε x)) pop next old) := by
  simp only [evaluate, mirrorState, List.map_append, List.map_ofFn]
  rfl

theorem crossover_mirror (pop : Pop d h) (w : Fin (popSize h) → Fin (popSize h)) (r : Draws d h) :
    crossover (fun k => mirror ε (pop k)) w (mirrorDraws ε r) = fun k => mirror ε (crossover pop w r k) := by
  funext k i
  simp only [crossover, mirror, mirrorDraws]
  by_cases he : ε i = true
  · simp only [he, if_true]
    by_cases hk : k.val < h + 1
    · simp only [dif_pos hk]
      by_cases hx : r.cross ⟨k, hk⟩ < 0.9
      · simp only [if_pos hx]; ring
      · simp only [if_neg hx]
    · simp only [dif_neg hk]
      have hl : k.val - (h + 1) < h + 1 := by have := k.isLt; unfold popSize at this; omega
      by_cases hx : r.cross ⟨k - (h + 1), hl⟩ < 0.9
      · simp only [if_pos hx]; ring
      · simp only [if_neg hx]
  · simp only [he, if_false, Bool.false_eq_true]

theorem clamp_neg {l u : ℝ} (h : l ≤ u) (y : ℝ) : min (-l) (max (-u) (-y)) = -min u (max l y) := by
  have := clip_neg h y
  unfold clip at this
  rw [min_comm, max_comm, this, min_comm, max_comm]

theorem mutation_mirror (p : OptProb d) (hb : ∀ i, p.lb i ≤ p.ub i) (pop : Pop d h) (r : Draws d h) :
    mutation (p.mirror ε).ga (fun k => mirror ε (pop k)) (mirrorDraws ε r) = fun k => mirror ε (mutation p.ga pop r k) := by
  funext k i
  simp only [mutation, mirror, mirrorDraws, OptProb.ga, OptProb.mirror]
  by_cases he : ε i = true
  · simp only [he, if_true]
    rw [← clamp_neg (hb i)]
    congr 2
    ring
  · simp only [he, if_false, Bool.false_eq_true]
    rfl

theorem generation_mirror (p : OptProb d) (hb : ∀ i, p.lb i ≤ p.ub i) (f : Pt d → α) (s : GAState d h α) (r : Draws d h) :
    generation (p.mirror ε).ga f (mirrorState ε s) (mirrorDraws ε r) =
      mirrorState ε (generation p.ga (fun x => f (mirror ε x)) s r) := by
  unfold generation
  dsimp only
  rw [← evaluate_mirror]
  have hm : mutation (p.mirror ε).ga (crossover (mirrorState ε s).pop (winner (mirrorState ε s).vals (mirrorDraws ε r).competitors)
      (mirrorDraws ε r)) (mirrorDraws ε r) =
      fun k => mirror ε (mutation p.ga (crossover s.pop (winner s.vals r.competitors) r) r k) := by
    rw [← mutation_mirror ε p hb, ← crossover_mirror]
    rfl
  have hr : ∀ x, roundVars (mirror ε x) (p.mirror ε).ga.intVar (p.mirror ε).ga.lb (p.mirror ε).ga.ub =
      mirror ε (roundVars x p.ga.intVar p.ga.lb p.ga.ub) := fun x => roundVars_mirror ε p hb x
  have he : (fun k => if k = 0 then (mirrorState ε s).best else roundVars (mirror ε
      (mutation p.ga (crossover s.pop (winner s.vals r.competitors) r) r k)) (p.mirror ε).ga.intVar (p.mirror ε).ga.lb
      (p.mirror ε).ga.ub) = fun k => mirror ε (if k = 0 then s.best else roundVars
      (mutation p.ga (crossover s.pop (winner s.vals r.competitors) r) r k) p.ga.intVar p.ga.lb p.ga.ub) := by
    funext k
    rw [hr]
    split_ifs <;> rfl
  rw [hm, he]
  by_cases h0 : p.ga.intVar.length > 0
  · rw [if_pos h0, if_pos (show (p.mirror ε).ga.intVar.length > 0 from h0)]; rfl
  · rw [if_neg h0, if_neg (show ¬ (p.mirror ε).ga.intVar.length > 0 from h0)]; rfl

theorem nudge_eq (g : GAConfig d) (x : Pt d) (i : Fin d) :
    nudgeCol g x i = Function.update x i (if x i < g.lb i then (if x i + 1 > g.ub i then x i + 1 - 1 else x i + 1)
      else if x i > g.ub i then x i - 1 else x i) := by
  unfold nudgeCol
  dsimp only
  by_cases h1 : x i < g.lb i
  · simp only [if_pos h1, Function.update_self]
    by_cases h2 : x i + 1 > g.ub i
    · rw [if_pos h2, if_pos h2, Function.update_idem]
    · rw [if_neg h2, if_neg h2]
  · simp only [if_neg h1]
    by_cases h2 : x i > g.ub i
    · rw [if_pos h2, if_pos h2]
    · rw [if_neg h2, if_neg h2, Function.update_eq_self]

theorem nudge_mirror (p : OptProb d) (x : Pt d) (i : Fin d) (hi : p.lb i + 1 ≤ p.ub i) :
    nudgeCol (p.mirror ε).ga (mirror ε x) i = mirror ε (nudgeCol p.ga x i) := by
  rw [nudge_eq, nudge_eq]
  funext j
  by_cases hj : j = i
  · subst hj
    show Function.update (mirror ε x) j _ j = if ε j then -(Function.update x j _ j) else Function.update x j _ j
    rw [Function.update_self, Function.update_self]
    show (if (if ε j then -x j else x j) < (if ε j then -p.ub j else p.lb j) then
        (if (if ε j then -x j else x j) + 1 > (if ε j then -p.lb j else p.ub j) then (if ε j then -x j else x j) + 1 - 1
          else (if ε j then -x j else x j) + 1)
      else if (if ε j then -x j else x j) > (if ε j then -p.lb j else p.ub j) then (if ε j then -x j else x j) - 1
        else (if ε j then -x j else x j)) =
      if ε j then -(if x j < p.lb j then (if x j + 1 > p.ub j then x j + 1 - 1 else x j + 1)
        else if x j > p.ub j then x j - 1 else x j)
      else (if x j < p.lb j then (if x j + 1 > p.ub j then x j + 1 - 1 else x j + 1)
        else if x j > p.ub j then x j - 1 else x j)
    by_cases he : ε j = true
    · simp only [he, if_true]
      split_ifs <;> linarith
    · simp only [he, if_false, Bool.false_eq_true]
  · show Function.update (mirror ε x) i _ j = if ε j then -(Function.update x i _ j) else Function.update x i _ j
    rw [Function.update_of_ne hj, Function.update_of_ne hj]
    rfl

theorem initialRound_mirror (p : OptProb d) (hi : ∀ i ∈ p.intVar, p.lb i + 1 ≤ p.ub i) (x : Pt d) :
    initialRound (p.mirror ε).ga (mirror ε x) = mirror ε (initialRound p.ga x) := by
  have hc : roundCols p.intVar (mirror ε x) = mirror ε (roundCols p.intVar x) := by
    classical
    funext i
    simp only [roundCols, mirror]
    split_ifs
    · rw [rint_neg, Int.cast_neg]
    all_goals rfl
  unfold initialRound
  by_cases h0 : p.ga.intVar.length > 0
  · rw [if_pos h0, if_pos (show (p.mirror ε).ga.intVar.length > 0 from h0)]
    show p.intVar.foldl (nudgeCol (p.mirror ε).ga) (roundCols p.intVar (mirror ε x)) =
      mirror ε (p.intVar.foldl (nudgeCol p.ga) (roundCols p.intVar x))
    rw [hc]
    generalize roundCols p.intVar x = y
    revert hi
    generalize p.intVar = l
    intro hi
    induction l generalizing y with
    | nil => rfl
    | cons i l ih =>
      rw [List.foldl_cons, List.foldl_cons, nudge_mirror ε p y i (hi i (by simp)), ih _ fun j hj => hi j (by simp [hj])]
  · rw [if_neg h0, if_neg (show ¬ (p.mirror ε).ga.intVar.length > 0 from h0)]

/-- The draws of a run of the genetic algorithm: the initial positions in the unit cube are mirrored. -/
def mirrorGA (r : GARun d h) : GARun d h := ⟨fun k => Verif.Props.mirrorUnit ε (r.unit k), r.gens.map (mirrorDraws ε)⟩

theorem optimize_mirror (p : OptProb d) (hb : ∀ i, p.lb i ≤ p.ub i) (hi : ∀ i ∈ p.intVar, p.lb i + 1 ≤ p.ub i) (f : Pt d → α)
    (r : GARun d h) :
    optimize (p.mirror ε).ga f (mirrorGA ε r).unit (mirrorGA ε r).gens =
      mirrorState ε (optimize p.ga (fun x => f (mirror ε x)) r.unit r.gens) := by
  have h0 : gaInit (p.mirror ε).ga f (initialPop (p.mirror ε).ga (mirrorGA ε r).unit) =
      mirrorState ε (gaInit p.ga (fun x => f (mirror ε x)) (initialPop p.ga r.unit)) := by
    have hin : initialPop (p.mirror ε).ga (mirrorGA ε r).unit = fun k => mirror ε (initialPop p.ga r.unit k) := by
      funext k i
      simp only [initialPop, OptProb.ga, OptProb.mirror, mirrorGA, Verif.Props.mirrorUnit, mirror]
      split_ifs <;> ring
    unfold gaInit
    rw [← evaluate_mirror, hin]
    simp only [initialRound_mirror ε p hi]
    rfl
  unfold optimize optimizeFrom
  rw [h0]
  generalize gaInit p.ga (fun x => f (mirror ε x)) (initialPop p.ga r.unit) = s
  show (r.gens.map (mirrorDraws ε)).foldl _ _ = _
  generalize r.gens = rs
  induction rs generalizing s with
  | nil => rfl
  | cons r rs ih => rw [List.map_cons, List.foldl_cons, List.foldl_cons, generation_mirror ε p hb, ih]

theorem eiGaLoop_mirror (p : OptProb d) (hb : ∀ i, p.lb i ≤ p.ub i) (hi : ∀ i ∈ p.intVar, p.lb i + 1 ≤ p.ub i)
    (M : List (Pt d) → Pt d → ℝ) (tol : ℝ) (runs : List (GARun d h)) (XX : List (Pt d)) :
    eiGaLoop (p.mirror ε) M tol (runs.map (mirrorGA ε)) (XX.map (mirror ε)) =
      (eiGaLoop p (fun XX x => M (XX.map (mirror ε)) (mirror ε x)) tol runs XX).map (List.map (mirror ε)) := by
  induction runs generalizing XX with
  | nil => rfl
  | cons r rs ih =>
    rw [List.map_cons]
    unfold eiGaLoop
    dsimp only
    rw [optimize_mirror ε p hb hi]
    simp only [roundVars_mirror ε p hb]
    generalize optimize p.ga (fun Y => -M (XX.map (mirror ε)) (mirror ε (roundVars Y p.intVar p.lb p.ub))) r.unit r.gens = s
    simp only [mirrorState, roundVars_mirror ε p hb]
    have h2 := ih (XX ++ [s.best])
    rw [List.map_append, List.map_cons, List.map_nil] at h2
    by_cases hb : -s.bestValue < tol
    · simp only [hb, if_true, Option.map_none]
    · simp only [hb, if_false]
      rw [h2]
      cases eiGaLoop p (fun XX x => M (XX.map (mirror ε)) (mirror ε x)) tol rs (XX ++ [s.best]) <;> rfl

theorem lcbGaLoop_mirror (p : OptProb d) (hb : ∀ i, p.lb i ≤ p.ub i) (hi : ∀ i ∈ p.intVar, p.lb i + 1 ≤ p.ub i)
    (M : List (Pt d) → Pt d → WithTop ℝ) (target : ℝ) (runs : List (GARun d h)) (XX : List (Pt d)) :
    lcbGaLoop (p.mirror ε) M target (runs.map (mirrorGA ε)) (XX.map (mirror ε)) =
      (lcbGaLoop p (fun XX x => M (XX.map (mirror ε)) (mirror ε x)) target runs XX).map (List.map (mirror ε)) := by
  induction runs generalizing XX with
  | nil => rfl
  | cons r rs ih =>
    rw [List.map_cons]
    unfold lcbGaLoop
    dsimp only
    rw [optimize_mirror ε p hb hi]
    simp only [roundVars_mirror ε p hb]
    generalize optimize p.ga (fun Y => M (XX.map (mirror ε)) (mirror ε (roundVars Y p.intVar p.lb p.ub))) r.unit r.gens = s
    simp only [mirrorState, roundVars_mirror ε p hb]
    have h2 := ih (XX ++ [s.best])
    rw [List.map_append, List.map_cons, List.map_nil] at h2
    by_cases hb : s.bestValue > (target : WithTop ℝ)
    · simp only [hb, if_true, Option.map_none]
    · simp only [hb, if_false]
      rw [h2]
      cases lcbGaLoop p (fun XX x => M (XX.map (mirror ε)) (mirror ε x)) target rs
        (XX ++ [s.best]) <;> rfl

theorem minDist_mirror' (x x0 : Pt d) (XX : List (Pt d)) :
    minDist (mirror ε x) ((XX.map (mirror ε)).headD (mirror ε x0)) (XX.map (mirror ε)).tail = minDist x (XX.headD x0) XX.tail := by
  cases XX with
  | nil => exact minDist_mirror ε x x0 []
  | cons y ys => exact minDist_mirror ε x y ys

theorem ei_mirror (p : OptProb d) (hb : ∀ i, p.lb i ≤ p.ub i) (hi : ∀ i ∈ p.intVar, p.lb i + 1 ≤ p.ub i) (mean std : Pt d → ℝ) (fbest : ℝ)
    (x0 : Pt d) (xs Xpend : List (Pt d)) (dtol tol : ℝ) (runs : List (GARun d h)) :
    eiGa (p.mirror ε) mean std fbest (mirror ε x0) (xs.map (mirror ε)) (Xpend.map (mirror ε)) dtol tol (runs.map (mirrorGA ε)) =
      (eiGa p (fun x => mean (mirror ε x)) (fun x => std (mirror ε x)) fbest x0 xs Xpend dtol tol runs).map
        (List.map (mirror ε)) := by
  unfold eiGa
  have h := eiGaLoop_mirror ε p hb hi
    (fun XX x => eiMerit mean std fbest (XX.headD (mirror ε x0)) XX.tail dtol x) tol runs (x0 :: xs ++ Xpend)
  rw [List.map_append, List.map_cons] at h
  rw [h]
  congr 2
  funext XX x
  unfold eiMerit
  rw [minDist_mirror']

theorem lcb_mirror (p : OptProb d) (hb : ∀ i, p.lb i ≤ p.ub i) (hi : ∀ i ∈ p.intVar, p.lb i + 1 ≤ p.ub i) (mean std : Pt d → ℝ) (kappa : ℝ)
    (x0 : Pt d) (xs Xpend : List (Pt d)) (dtol target : ℝ) (runs : List (GARun d h)) :
    lcbGa (p.mirror ε) mean std kappa (mirror ε x0) (xs.map (mirror ε)) (Xpend.map (mirror ε)) dtol target
        (runs.map (mirrorGA ε)) =
      (lcbGa p (fun x => mean (mirror ε x)) (fun x => std (mirror ε x)) kappa x0 xs Xpend dtol target runs).map
        (List.map (mirror ε)) := by
  unfold lcbGa
  have h := lcbGaLoop_mirror ε p hb hi
    (fun XX x => lcbMerit mean std kappa (XX.headD (mirror ε x0)) XX.tail dtol x) target runs (x0 :: xs ++ Xpend)
  rw [List.map_append, List.map_cons] at h
  rw [h]
  congr 2
  funext XX x
  unfold lcbMerit
  rw [minDist_mirror']

end Verif.Loop
