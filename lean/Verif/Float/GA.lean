import Verif.Float.Model
import Verif.Utils.GAProofs

/-!
# The genetic algorithm in double precision

Source: /repo/pySOT/utils.py:261-376.  The same code as in `Verif.Utils.GA`, with one rounding `rnd` after each arithmetic
operation that numpy performs.  Comparisons, `argmin`, `np.round`, `np.maximum`, `np.minimum` and assignments are exact and
taken from there; so is `round_vars`, which consists of these only.
-/

namespace Verif.Fl

open Verif.Num Verif.Utils

variable {d h : ℕ} {α : Type} [LinearOrder α]

/-- `lower_boundary + points * (upper_boundary - lower_boundary)` (utils.py:280, 285, 287-289). -/
noncomputable def initialPop (rnd : ℝ → ℝ) (cfg : GAConfig d) (unit : Pop d h) : Pop d h :=
  fun k i => rnd (cfg.lb i + rnd (unit k i * rnd (cfg.ub i - cfg.lb i)))

open Classical in
/-- Loop body of the initial rounding for column `i` (utils.py:299-302). -/
noncomputable def nudgeCol (rnd : ℝ → ℝ) (cfg : GAConfig d) (x : Pt d) (i : Fin d) : Pt d :=
  let x := if x i < cfg.lb i then Function.update x i (rnd (x i + 1)) else x
  if x i > cfg.ub i then Function.update x i (rnd (x i - 1)) else x

/-- Initial rounding of one individual (utils.py:295-302). -/
noncomputable def initialRound (rnd : ℝ → ℝ) (cfg : GAConfig d) (x : Pt d) : Pt d :=
  if cfg.intVar.length > 0 then cfg.intVar.foldl (nudgeCol rnd cfg) (roundCols cfg.intVar x) else x

/-- Up to the main loop (utils.py:293-315). -/
noncomputable def gaInit (rnd : ℝ → ℝ) (cfg : GAConfig d) (f : Pt d → α) (population : Pop d h) : GAState d h α :=
  evaluate f (fun k => initialRound rnd cfg (population k)) population []

open Classical in
/-- Averaging crossover and concatenation (utils.py:329-339); `p_cross` is the double nearest to 0.9 (utils.py:257). -/
noncomputable def crossover (rnd : ℝ → ℝ) (pop : Pop d h) (w : Fin (popSize h) → Fin (popSize h)) (r : Draws d h) :
    Pop d h :=
  fun k i =>
    if hk : k.val < h + 1 then
      let j : Fin (h + 1) := ⟨k, hk⟩
      let p1 := pop (w (loHalf j)) i
      let p2 := pop (w (hiHalf j)) i
      if r.cross j < rnd 0.9 then rnd (rnd (r.alpha j * p1) + rnd (rnd (1 - r.alpha j) * p2)) else p1
    else
      let j : Fin (h + 1) := ⟨k - (h + 1), by have := k.isLt; unfold popSize at this; omega⟩
      let p1 := pop (w (loHalf j)) i
      let p2 := pop (w (hiHalf j)) i
      if r.cross j < rnd 0.9 then rnd (rnd (r.alpha j * p2) + rnd (rnd (1 - r.alpha j) * p1)) else p2

open Classical in
/-- Mutation and projection to the box (utils.py:341-351); `sigma` is the double nearest to 0.2 and `p_mutation` the
computed `1.0 / dim` (utils.py:254-255). -/
noncomputable def mutation (rnd : ℝ → ℝ) (cfg : GAConfig d) (pop : Pop d h) (r : Draws d h) : Pop d h :=
  fun k i =>
    let scale := rnd (rnd 0.2 * rnd (cfg.ub i - cfg.lb i))
    let y := rnd (pop k i + rnd (rnd (r.normal k i * scale) * (if r.mutate k i < rnd (1 / d) then 1 else 0)))
    min (cfg.ub i) (max (cfg.lb i) y)

/-- One generation (utils.py:318-374). -/
noncomputable def generation (rnd : ℝ → ℝ) (cfg : GAConfig d) (f : Pt d → α) (s : GAState d h α) (r : Draws d h) :
    GAState d h α :=
  let parents := crossover rnd s.pop (winner s.vals r.competitors) r
  let population := mutation rnd cfg parents r
  let rounded : Pop d h := fun k => roundVars (population k) cfg.intVar cfg.lb cfg.ub
  let evaluatedPop : Pop d h := fun k => if k = 0 then s.best else rounded k
  let next := if cfg.intVar.length > 0 then population else evaluatedPop
  evaluate f evaluatedPop next s.evaluated

/-- `optimize` after the choice of the initial population (utils.py:293-376), for any number of generations. -/
noncomputable def optimizeFrom (rnd : ℝ → ℝ) (cfg : GAConfig d) (f : Pt d → α) (population : Pop d h)
    (rs : List (Draws d h)) : GAState d h α := rs.foldl (generation rnd cfg f) (gaInit rnd cfg f population)

/-- `optimize` with start "SLHD", "LHD" or "Random": the sample is in the unit cube. (utils.py:261-376.) -/
noncomputable def optimize (rnd : ℝ → ℝ) (cfg : GAConfig d) (f : Pt d → α) (unit : Pop d h) (rs : List (Draws d h)) :
    GAState d h α := optimizeFrom rnd cfg f (initialPop rnd cfg unit) rs

/-! ## Facts -/

theorem optimizeFrom_elite (rnd : ℝ → ℝ) (cfg : GAConfig d) (f : Pt d → α) (pop : Pop d h) (rs : List (Draws d h)) :
    GAElite f (optimizeFrom rnd cfg f pop rs) := by
  unfold optimizeFrom
  have h0 : GAElite f (gaInit rnd cfg f pop) := by
    refine ⟨evaluate_bestMem .., evaluate_bestVal .., ?_⟩
    intro x hx
    have hx' : x ∈ List.ofFn (fun k => initialRound rnd cfg (pop k)) := by simpa [gaInit, evaluate] using hx
    obtain ⟨k, rfl⟩ := List.mem_ofFn.mp hx'
    exact evaluate_le f _ _ [] k
  generalize gaInit rnd cfg f pop = s at h0
  induction rs generalizing s with
  | nil => exact h0
  | cons r rs ih =>
    refine ih _ ⟨evaluate_bestMem .., evaluate_bestVal .., ?_⟩
    intro x hx
    unfold generation at hx ⊢
    dsimp only at hx ⊢
    rcases List.mem_append.mp hx with h1 | h1
    · refine (evaluate_le f _ _ _ 0).trans ?_
      rw [if_pos rfl, ← h0.bestVal]
      exact h0.le x h1
    · obtain ⟨k, rfl⟩ := List.mem_ofFn.mp h1
      exact evaluate_le f _ _ _ k

theorem mutation_inBox (rnd : ℝ → ℝ) {cfg : GAConfig d} (hle : ∀ i, cfg.lb i ≤ cfg.ub i) (pop : Pop d h)
    (r : Draws d h) (k) (i) : cfg.lb i ≤ mutation rnd cfg pop r k i ∧ mutation rnd cfg pop r k i ≤ cfg.ub i := by
  unfold mutation
  exact ⟨le_min (hle i) (le_max_left _ _), min_le_left _ _⟩

/-- The initial individuals are evaluated. -/
theorem evaluated_init (rnd : ℝ → ℝ) (cfg : GAConfig d) (f : Pt d → α) (pop : Pop d h) (rs : List (Draws d h)) (k) :
    initialRound rnd cfg (pop k) ∈ (optimizeFrom rnd cfg f pop rs).evaluated := by
  unfold optimizeFrom
  have h0 : initialRound rnd cfg (pop k) ∈ (gaInit rnd cfg f pop).evaluated := by
    simp only [gaInit, evaluate, List.nil_append]
    exact List.mem_ofFn.mpr ⟨k, rfl⟩
  generalize gaInit rnd cfg f pop = s at h0
  induction rs generalizing s with
  | nil => exact h0
  | cons r rs ih => exact ih _ (List.mem_append_left _ h0)

/-- A property of individuals that the initial individuals have, and that all feasible points have, is shared by all
individuals evaluated. -/
theorem optimizeFrom_all (rnd : ℝ → ℝ) {cfg : GAConfig d} (ok : cfg.Ok) (f : Pt d → α) (pop : Pop d h)
    (rs : List (Draws d h)) (P : Pt d → Prop) (h0 : ∀ k, P (initialRound rnd cfg (pop k)))
    (h1 : ∀ x, (∀ i, cfg.lb i ≤ x i ∧ x i ≤ cfg.ub i) → (∀ i ∈ cfg.intVar, ∃ z : ℤ, x i = (z : ℝ)) → P x) :
    ∀ x ∈ (optimizeFrom rnd cfg f pop rs).evaluated, P x := by
  unfold optimizeFrom
  have hb : (∀ x ∈ (gaInit rnd cfg f pop).evaluated, P x) ∧ P (gaInit rnd cfg f pop).best := by
    constructor
    · intro x hx
      have hx' : x ∈ List.ofFn (fun k => initialRound rnd cfg (pop k)) := by simpa [gaInit, evaluate] using hx
      obtain ⟨k, rfl⟩ := List.mem_ofFn.mp hx'
      exact h0 k
    · exact h0 _
  generalize gaInit rnd cfg f pop = s at hb
  induction rs generalizing s with
  | nil => exact hb.1
  | cons r rs ih =>
    refine ih _ ?_
    unfold generation
    dsimp only
    have key : ∀ k : Fin (popSize h), P (if k = 0 then s.best else roundVars (mutation rnd cfg
        (crossover rnd s.pop (winner s.vals r.competitors) r) r k) cfg.intVar cfg.lb cfg.ub) := by
      intro k
      by_cases hk : k = 0
      · rw [if_pos hk]; exact hb.2
      · rw [if_neg hk]
        obtain ⟨a, b, -⟩ := Props.C38_box_idempotent (mutation rnd cfg
          (crossover rnd s.pop (winner s.vals r.competitors) r) r k) cfg.lb cfg.ub cfg.intVar ok.le ok.lbInt ok.ubInt
        exact h1 _ (b (mutation_inBox rnd ok.le _ _ _)) a
    constructor
    · intro x hx
      rcases List.mem_append.mp hx with h2 | h2
      · exact hb.1 x h2
      · obtain ⟨k, rfl⟩ := List.mem_ofFn.mp h2
        exact key k
    · exact key _

theorem initialPop_eq (rnd : ℝ → ℝ) (cfg : GAConfig d) (unit : Pop d h) (k) (i) :
    initialPop rnd cfg unit k i = fromUnit1 rnd (unit k i) (cfg.lb i) (cfg.ub i) := by
  unfold initialPop fromUnit1
  rw [mul_comm]

theorem nudge_same (rnd : ℝ → ℝ) (cfg : GAConfig d) {x : Pt d} {i : Fin d} (hx : cfg.lb i ≤ x i ∧ x i ≤ cfg.ub i) :
    nudgeCol rnd cfg x i = x := by
  unfold nudgeCol
  simp [not_lt.mpr hx.1, not_lt.mpr hx.2]

theorem initialRound_eq (rnd : ℝ → ℝ) {cfg : GAConfig d} (ok : cfg.Ok) {x : Pt d}
    (hx : ∀ i ∈ cfg.intVar, cfg.lb i ≤ x i ∧ x i ≤ cfg.ub i) : initialRound rnd cfg x = roundCols cfg.intVar x := by
  unfold initialRound
  have hr : ∀ i ∈ cfg.intVar, cfg.lb i ≤ roundCols cfg.intVar x i ∧ roundCols cfg.intVar x i ≤ cfg.ub i := by
    intro i hi
    obtain ⟨l, hl⟩ := ok.lbInt i hi
    obtain ⟨u, hu⟩ := ok.ubInt i hi
    have := hx i hi
    simp only [roundCols, hi, if_true]
    rw [hl, hu] at this ⊢
    exact ⟨by exact_mod_cast le_rint this.1, by exact_mod_cast rint_le this.2⟩
  split
  · have : ∀ l : List (Fin d), (∀ i ∈ l, i ∈ cfg.intVar) →
        l.foldl (nudgeCol rnd cfg) (roundCols cfg.intVar x) = roundCols cfg.intVar x := by
      intro l
      induction l with
      | nil => intro _; rfl
      | cons i l ih =>
        intro hl
        rw [List.foldl_cons, nudge_same rnd cfg (hr i (hl i (by simp)))]
        exact ih fun j hj => hl j (by simp [hj])
    exact this _ fun _ h => h
  · rename_i hl
    have : cfg.intVar = [] := by simpa using hl
    funext i; simp [roundCols, this]

end Verif.Fl
