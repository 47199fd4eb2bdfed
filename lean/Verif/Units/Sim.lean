import Verif.Units.Points
import Verif.Units.Cand

/-!
# The auxiliary problems do not depend on the units and the origin of the variables (for C101)

`sim c t` is the change of variables `x ↦ c * x + t`: one factor `c > 0` for all variables and a translation `t`.
-/

namespace Verif.Loop

open Verif.Num Verif.Utils Verif.Cand Verif.Design Verif.Strategy Verif.Props

variable {d m n h : ℕ}

/-- `x ↦ c * x + t`. -/
def sim (c : ℝ) (t x : Pt d) : Pt d := fun i => c * x i + t i

theorem sim_injective {c : ℝ} (hc : 0 < c) (t : Pt d) : Function.Injective (sim c t) := by
  intro x y h
  funext i
  exact (affine_strictMono hc (t i)).injective (congrFun h i)

theorem eucl_sim {c : ℝ} (hc : 0 < c) (t x y : Pt d) : eucl (sim c t x) (sim c t y) = c * eucl x y := by
  unfold eucl sim
  rw [show (∑ i, (c * x i + t i - (c * y i + t i)) ^ 2) = c ^ 2 * ∑ i, (x i - y i) ^ 2 by
    rw [Finset.mul_sum]; exact Finset.sum_congr rfl fun i _ => by ring]
  rw [Real.sqrt_mul (sq_nonneg c), Real.sqrt_sq hc.le]

theorem minDist_sim {c : ℝ} (hc : 0 < c) (t x y0 : Pt d) (ys : List (Pt d)) :
    minDist (sim c t x) (sim c t y0) (ys.map (sim c t)) = c * minDist x y0 ys := by
  unfold minDist
  rw [eucl_sim hc, List.foldl_map]
  generalize eucl x y0 = e
  induction ys generalizing e with
  | nil => rfl
  | cons y ys ih =>
    rw [List.foldl_cons, List.foldl_cons, eucl_sim hc, ← mul_min_of_nonneg _ _ hc.le, ih]

theorem merit_sim {c : ℝ} (hc : 0 < c) (w dtol : ℝ) (fvals : Fin (m + 1) → Fl) (dm : Fin (m + 1) → ℝ) :
    merit w (c * dtol) fvals (fun j => c * dm j) = merit w dtol fvals dm := by
  have h1 := unitRescale_affine hc 0 dm
  simp only [add_zero] at h1
  unfold merit
  rw [h1]
  funext j
  have h2 : c * dm j < c * dtol ↔ dm j < dtol := mul_lt_mul_iff_of_pos_left hc
  by_cases h : dm j < dtol
  · rw [if_pos h, if_pos (h2.mpr h)]
  · rw [if_neg h, if_neg (fun h' => h (h2.mp h'))]

theorem wdmLoop_sim {c : ℝ} (hc : 0 < c) (t : Pt d) (cand : Fin (m + 1) → Pt d) (dtol : ℝ) (ws : List ℝ)
    (fvals : Fin (m + 1) → Fl) (dm : Fin (m + 1) → ℝ) :
    wdmLoop (fun j => sim c t (cand j)) (c * dtol) ws fvals (fun j => c * dm j) = wdmLoop cand dtol ws fvals dm := by
  induction ws generalizing fvals dm with
  | nil => rfl
  | cons w ws ih =>
    unfold wdmLoop
    dsimp only
    rw [merit_sim hc, ← ih]
    congr 2
    funext j
    rw [eucl_sim hc, mul_min_of_nonneg _ _ hc.le]

theorem wdm_sim {c : ℝ} (hc : 0 < c) (t : Pt d) (pred : Pt d → ℝ) (X : Fin (n + 1) → Pt d) (Xpend : List (Pt d))
    (cand : Fin (m + 1) → Pt d) (weights : List ℝ) (dtol : ℝ) :
    weightedDistanceMerit pred (fun i => sim c t (X i)) (Xpend.map (sim c t)) (fun j => sim c t (cand j)) weights (c * dtol) =
      (weightedDistanceMerit (fun x => pred (sim c t x)) X Xpend cand weights dtol).map (sim c t) := by
  unfold weightedDistanceMerit
  rw [List.map_map]
  have h : wdmIdx pred (fun i => sim c t (X i)) (Xpend.map (sim c t)) (fun j => sim c t (cand j)) weights (c * dtol) =
      wdmIdx (fun x => pred (sim c t x)) X Xpend cand weights dtol := by
    unfold wdmIdx
    refine Eq.trans ?_ (wdmLoop_sim hc t cand dtol weights _ _)
    congr 1
    funext j
    rw [← minDist_sim hc t, List.map_append, List.map_ofFn]
    rfl
  rw [h]; rfl

/-- The problem in the new variables (continuous variables only). -/
noncomputable def _root_.Verif.Cand.OptProb.sim (c : ℝ) (t : Pt d) (p : OptProb d) : OptProb d where
  lb := Loop.sim c t p.lb
  ub := Loop.sim c t p.ub
  intVar := p.intVar

theorem roundVars_nil (x lb ub : Pt d) : roundVars x [] lb ub = x := by simp [roundVars]

theorem scalefactors_sim {c : ℝ} (t : Pt d) (p : OptProb d) (hp : p.intVar = []) (radius : ℝ) (subset : List (Fin d)) :
    scalefactors (p.sim c t) radius subset = fun i => c * scalefactors p radius subset i := by
  funext i
  simp only [scalefactors, OptProb.sim, hp, List.not_mem_nil, false_and, if_false, sim]
  ring

theorem srbf_sim {c : ℝ} (hc : 0 < c) (t : Pt d) (p : OptProb d) (hp : p.intVar = []) (pred : Pt d → ℝ)
    (X : Fin (n + 1) → Pt d) (fX : Fin (n + 1) → ℝ) (weights : List ℝ) (Xpend : List (Pt d)) (radius : ℝ)
    (subset : List (Fin d)) (dtol : ℝ) (z : Fin (m + 1) → Pt d) :
    candidateSrbf (p.sim c t) pred (fun i => sim c t (X i)) fX weights (Xpend.map (sim c t)) radius subset (c * dtol) z =
      (candidateSrbf p (fun x => pred (sim c t x)) X fX weights Xpend radius subset dtol z).map (sim c t) := by
  unfold candidateSrbf
  dsimp only
  rw [← wdm_sim hc]
  congr 1
  funext j i
  rw [scalefactors_sim t p hp]
  simp only [OptProb.sim, hp, roundVars_nil]
  by_cases hi : i ∈ subset
  · simp only [srbfCand, sim, xbestOf, truncnorm, hi, if_true]; ring
  · simp only [srbfCand, sim, xbestOf, hi, if_false]

theorem update_sim (c : ℝ) (t x : Pt d) (i : Fin d) (v : ℝ) :
    sim c t (Function.update x i v) = Function.update (sim c t x) i (c * v + t i) := by
  funext j
  by_cases hj : j = i
  · subst hj; simp [sim]
  · simp [sim, hj]

/-- `dycorsLoop` writes column `subset[i]` from the draw for column `i`; with `subset = range(d)` these agree. -/
theorem dycorsLoop_sim {c : ℝ} (t : Pt d) (xbest σ : Pt d) (mask : ℕ → Bool) (z : Pt d) (is : List (Fin d)) (x : Pt d) :
    dycorsLoop (sim c t xbest) (fun i => c * σ i) (List.finRange d) mask z is (sim c t x) =
      (dycorsLoop xbest σ (List.finRange d) mask z is x).map (sim c t) := by
  induction is generalizing x with
  | nil => rfl
  | cons i is ih =>
    have hi : (List.finRange d)[i.val]? = some i := by simp
    simp only [dycorsLoop, List.length_finRange, i.isLt, if_true, hi]
    rw [← ih]
    congr 1
    split_ifs
    · rw [update_sim]; congr 1; unfold truncnorm sim; ring
    · rfl

theorem dycors_sim {c : ℝ} (hc : 0 < c) (t : Pt d) (p : OptProb d) (hp : p.intVar = []) (pred : Pt d → ℝ)
    (X : Fin (n + 1) → Pt d) (weights : List ℝ) (prob : ℝ) (Xpend : List (Pt d)) (radius : ℝ) (dtol : ℝ) (xbest : Pt d)
    (u : Fin (m + 1) → ℕ → ℝ) (forced : Fin (m + 1) → ℕ) (z : Fin (m + 1) → Pt d) :
    candidateDycors (p.sim c t) pred (fun i => sim c t (X i)) weights prob (Xpend.map (sim c t)) radius (List.finRange d)
        (c * dtol) (sim c t xbest) u forced z =
      (candidateDycors p (fun x => pred (sim c t x)) X weights prob Xpend radius (List.finRange d) dtol xbest u forced z).map
        (List.map (sim c t)) := by
  have hrow : ∀ j, dycorsCand (sim c t xbest) (fun i => c * scalefactors p radius (List.finRange d) i) (List.finRange d)
      (dycorsMask (List.finRange d).length prob (u j) (forced j)) (z j) =
      (dycorsCand xbest (scalefactors p radius (List.finRange d)) (List.finRange d)
        (dycorsMask (List.finRange d).length prob (u j) (forced j)) (z j)).map (sim c t) := by
    intro j
    unfold dycorsCand
    exact dycorsLoop_sim t xbest _ _ _ _ xbest
  unfold candidateDycors
  dsimp only
  rw [scalefactors_sim t p hp]
  by_cases hs : ∀ j, (dycorsCand xbest (scalefactors p radius (List.finRange d)) (List.finRange d)
      (dycorsMask (List.finRange d).length prob (u j) (forced j)) (z j)).isSome
  · have hs' : ∀ j, (dycorsCand (sim c t xbest) (fun i => c * scalefactors p radius (List.finRange d) i) (List.finRange d)
        (dycorsMask (List.finRange d).length prob (u j) (forced j)) (z j)).isSome := by
      intro j; rw [hrow]; simpa using hs j
    rw [dif_pos hs', dif_pos hs, Option.map_some, ← wdm_sim hc]
    congr 2
    funext j
    simp only [OptProb.sim, hp, roundVars_nil]
    simp only [hrow, Option.get_map]
  · have hs' : ¬ ∀ j, (dycorsCand (sim c t xbest) (fun i => c * scalefactors p radius (List.finRange d) i) (List.finRange d)
        (dycorsMask (List.finRange d).length prob (u j) (forced j)) (z j)).isSome := by
      intro h; apply hs; intro j; have := h j; rw [hrow] at this; simpa using this
    rw [dif_neg hs', dif_neg hs]; rfl

/-! ## The genetic algorithm -/

/-- Changes the variables in a state of the genetic algorithm. -/
def simState {α : Type} (c : ℝ) (t : Pt d) (s : GAState d h α) : GAState d h α where
  pop := fun k => sim c t (s.pop k)
  vals := s.vals
  best := sim c t s.best
  bestValue := s.bestValue
  evaluated := s.evaluated.map (sim c t)

variable {α : Type} [LinearOrder α]

theorem evaluate_sim (c : ℝ) (t : Pt d) (f : Pt d → α) (pop next : Pop d h) (old : List (Pt d)) :
    evaluate f (fun k => sim c t (pop k)) (fun k => sim c t (next k)) (old.map (sim c t)) =
      simState c t (evaluate (fun x => f (sim c t x)) pop next old) := by
  simp only [evaluate, simState, List.map_append, List.map_ofFn]
  rfl

theorem generation_sim {c : ℝ} (hc : 0 < c) (t : Pt d) (p : OptProb d) (hp : p.intVar = []) (f : Pt d → α)
    (s : GAState d h α) (r : Draws d h) :
    generation (p.sim c t).ga f (simState c t s) r = simState c t (generation p.ga (fun x => f (sim c t x)) s r) := by
  have hx : ∀ w k, crossover (simState c t s).pop w r k = sim c t (crossover s.pop w r k) := by
    intro w k; funext i
    simp only [crossover, simState, sim]
    split_ifs <;> ring
  have hm : ∀ q : Pop d h, ∀ k, mutation (p.sim c t).ga (fun k => sim c t (q k)) r k = sim c t (mutation p.ga q r k) := by
    intro q k; funext i
    simp only [sim, mutation, OptProb.ga, OptProb.sim]
    have hmono := (affine_strictMono hc (t i)).monotone
    have h1 := hmono.map_min (a := p.ub i) (b := max (p.lb i) (q k i + r.normal k i * (0.2 * (p.ub i - p.lb i)) *
      if r.mutate k i < 1 / ↑d then 1 else 0))
    have h2 := hmono.map_max (a := p.lb i) (b := (q k i + r.normal k i * (0.2 * (p.ub i - p.lb i)) *
      if r.mutate k i < 1 / ↑d then 1 else 0))
    rw [h1, h2]
    congr 2
    ring
  unfold generation
  dsimp only
  rw [← evaluate_sim]
  have hcr : crossover (simState c t s).pop (winner (simState c t s).vals r.competitors) r =
      fun k => sim c t (crossover s.pop (winner s.vals r.competitors) r k) := by
    funext k; exact hx _ k
  have hmu := hm (crossover s.pop (winner s.vals r.competitors) r)
  have he : ∀ k, (if k = 0 then (simState c t s).best else
        roundVars (mutation (p.sim c t).ga (crossover (simState c t s).pop (winner (simState c t s).vals r.competitors) r) r k)
          (p.sim c t).ga.intVar (p.sim c t).ga.lb (p.sim c t).ga.ub) =
      sim c t (if k = 0 then s.best else
        roundVars (mutation p.ga (crossover s.pop (winner s.vals r.competitors) r) r k) p.ga.intVar p.ga.lb p.ga.ub) := by
    intro k
    rw [hcr, hmu]
    simp only [OptProb.ga, OptProb.sim, hp, roundVars_nil]
    split_ifs <;> rfl
  have hn : ¬ (p.sim c t).ga.intVar.length > 0 := by simp [OptProb.ga, OptProb.sim, hp]
  have hn' : ¬ p.ga.intVar.length > 0 := by simp [OptProb.ga, hp]
  rw [if_neg hn, if_neg hn']
  simp only [he]
  rfl

theorem optimize_sim {c : ℝ} (hc : 0 < c) (t : Pt d) (p : OptProb d) (hp : p.intVar = []) (f : Pt d → α) (unit : Pop d h)
    (rs : List (Draws d h)) :
    optimize (p.sim c t).ga f unit rs = simState c t (optimize p.ga (fun x => f (sim c t x)) unit rs) := by
  have h0 : gaInit (p.sim c t).ga f (initialPop (p.sim c t).ga unit) =
      simState c t (gaInit p.ga (fun x => f (sim c t x)) (initialPop p.ga unit)) := by
    have hi : initialPop (p.sim c t).ga unit = fun k => sim c t (initialPop p.ga unit k) := by
      funext k i
      simp only [initialPop, OptProb.ga, OptProb.sim, sim]; ring
    unfold gaInit
    rw [← evaluate_sim, hi]
    have hr : ∀ x, initialRound (p.sim c t).ga (sim c t x) = sim c t (initialRound p.ga x) := by
      intro x; simp [initialRound, OptProb.ga, OptProb.sim, hp]
    simp only [hr]
    rfl
  unfold optimize optimizeFrom
  rw [h0]
  generalize gaInit p.ga (fun x => f (sim c t x)) (initialPop p.ga unit) = s
  induction rs generalizing s with
  | nil => rfl
  | cons r rs ih => rw [List.foldl_cons, List.foldl_cons, generation_sim hc t p hp, ih]

theorem eiGaLoop_sim {c : ℝ} (hc : 0 < c) (t : Pt d) (p : OptProb d) (hp : p.intVar = [])
    (M : List (Pt d) → Pt d → ℝ) (tol : ℝ) (runs : List (GARun d h)) (XX : List (Pt d)) :
    eiGaLoop (p.sim c t) M tol runs (XX.map (sim c t)) =
      (eiGaLoop p (fun XX x => M (XX.map (sim c t)) (sim c t x)) tol runs XX).map (List.map (sim c t)) := by
  induction runs generalizing XX with
  | nil => rfl
  | cons r rs ih =>
    have hp' : (p.sim c t).intVar = [] := hp
    unfold eiGaLoop
    simp only [hp, hp', roundVars_nil]
    rw [optimize_sim hc t p hp]
    generalize optimize p.ga (fun x => -M (XX.map (sim c t)) (sim c t x)) r.unit r.gens = s
    simp only [simState]
    have h2 := ih (XX ++ [s.best])
    rw [List.map_append, List.map_cons, List.map_nil] at h2
    rw [h2]
    by_cases hb : -s.bestValue < tol
    · simp only [hb, if_true, Option.map_none]
    · simp only [hb, if_false]
      cases eiGaLoop p (fun XX x => M (XX.map (sim c t)) (sim c t x)) tol rs (XX ++ [s.best]) <;> rfl

theorem lcbGaLoop_sim {c : ℝ} (hc : 0 < c) (t : Pt d) (p : OptProb d) (hp : p.intVar = [])
    (M : List (Pt d) → Pt d → WithTop ℝ) (target : ℝ) (runs : List (GARun d h)) (XX : List (Pt d)) :
    lcbGaLoop (p.sim c t) M target runs (XX.map (sim c t)) =
      (lcbGaLoop p (fun XX x => M (XX.map (sim c t)) (sim c t x)) target runs XX).map (List.map (sim c t)) := by
  induction runs generalizing XX with
  | nil => rfl
  | cons r rs ih =>
    have hp' : (p.sim c t).intVar = [] := hp
    unfold lcbGaLoop
    simp only [hp, hp', roundVars_nil]
    rw [optimize_sim hc t p hp]
    generalize optimize p.ga (fun x => M (XX.map (sim c t)) (sim c t x)) r.unit r.gens = s
    simp only [simState]
    have h2 := ih (XX ++ [s.best])
    rw [List.map_append, List.map_cons, List.map_nil] at h2
    rw [h2]
    by_cases hb : s.bestValue > (target : WithTop ℝ)
    · simp only [hb, if_true, Option.map_none]
    · simp only [hb, if_false]
      cases lcbGaLoop p (fun XX x => M (XX.map (sim c t)) (sim c t x)) target rs (XX ++ [s.best]) <;> rfl

theorem minDist_sim' {c : ℝ} (hc : 0 < c) (t x x0 : Pt d) (XX : List (Pt d)) :
    minDist (sim c t x) ((XX.map (sim c t)).headD (sim c t x0)) (XX.map (sim c t)).tail = c * minDist x (XX.headD x0) XX.tail := by
  cases XX with
  | nil => exact minDist_sim hc t x x0 []
  | cons y ys => exact minDist_sim hc t x y ys

theorem dtol_sim {c : ℝ} (hc : 0 < c) (dtol e : ℝ) : (c * dtol > 0 ∧ c * e < c * dtol) ↔ (dtol > 0 ∧ e < dtol) := by
  rw [mul_lt_mul_iff_of_pos_left hc]
  constructor
  · rintro ⟨h, h'⟩; exact ⟨by nlinarith [h, (mul_pos_iff_of_pos_left hc).mp h], h'⟩
  · rintro ⟨h, h'⟩; exact ⟨mul_pos hc h, h'⟩

theorem ei_sim {c : ℝ} (hc : 0 < c) (t : Pt d) (p : OptProb d) (hp : p.intVar = []) (mean std : Pt d → ℝ) (fbest : ℝ)
    (x0 : Pt d) (xs Xpend : List (Pt d)) (dtol tol : ℝ) (runs : List (GARun d h)) :
    eiGa (p.sim c t) mean std fbest (sim c t x0) (xs.map (sim c t)) (Xpend.map (sim c t)) (c * dtol) tol runs =
      (eiGa p (fun x => mean (sim c t x)) (fun x => std (sim c t x)) fbest x0 xs Xpend dtol tol runs).map
        (List.map (sim c t)) := by
  unfold eiGa
  have h := eiGaLoop_sim hc t p hp
    (fun XX x => eiMerit mean std fbest (XX.headD (sim c t x0)) XX.tail (c * dtol) x) tol runs (x0 :: xs ++ Xpend)
  rw [List.map_append, List.map_cons] at h
  rw [h]
  congr 2
  funext XX x
  unfold eiMerit
  rw [minDist_sim' hc]
  simp only [dtol_sim hc]

theorem lcb_sim {c : ℝ} (hc : 0 < c) (t : Pt d) (p : OptProb d) (hp : p.intVar = []) (mean std : Pt d → ℝ) (kappa : ℝ)
    (x0 : Pt d) (xs Xpend : List (Pt d)) (dtol target : ℝ) (runs : List (GARun d h)) :
    lcbGa (p.sim c t) mean std kappa (sim c t x0) (xs.map (sim c t)) (Xpend.map (sim c t)) (c * dtol) target runs =
      (lcbGa p (fun x => mean (sim c t x)) (fun x => std (sim c t x)) kappa x0 xs Xpend dtol target runs).map
        (List.map (sim c t)) := by
  unfold lcbGa
  have h := lcbGaLoop_sim hc t p hp
    (fun XX x => lcbMerit mean std kappa (XX.headD (sim c t x0)) XX.tail (c * dtol) x) target runs (x0 :: xs ++ Xpend)
  rw [List.map_append, List.map_cons] at h
  rw [h]
  congr 2
  funext XX x
  unfold lcbMerit
  rw [minDist_sim' hc]
  simp only [dtol_sim hc]

end Verif.Loop
