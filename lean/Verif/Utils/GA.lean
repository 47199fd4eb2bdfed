import Verif.Utils.Box
import Verif.Num.Spec

/-!
# Model of the genetic algorithm

Source: /repo/pySOT/utils.py:200-376 (`GeneticAlgorithm`).  The population size is `2 * (h + 1)` (utils.py:247 makes it
even; it is positive).  All random draws are arguments.  The objective is evaluated individual by individual.
-/

namespace Verif.Utils

open Verif.Num

variable {d h : ℕ} {α : Type} [LinearOrder α]

/-- Population size: even and positive. (utils.py:247.) -/
abbrev popSize (h : ℕ) : ℕ := 2 * h + 1 + 1

/-- A population: the rows of the array. (utils.py:268-291.) -/
abbrev Pop (d h : ℕ) := Fin (popSize h) → Pt d

/-- The problem given to the constructor (utils.py:244-259). -/
structure GAConfig (d : ℕ) where
  lb : Pt d
  ub : Pt d
  intVar : List (Fin d)

/-- `any(np.min(start, axis=0) >= lower_boundary) or any(np.max(start, axis=0) <= upper_boundary)` (utils.py:271-274);
the condition under which a user-supplied population is refused. -/
def startRefused (cfg : GAConfig d) (start : Pop d h) : Prop :=
  (∃ i, (∀ k, start k i ≥ cfg.lb i)) ∨ (∃ i, (∀ k, start k i ≤ cfg.ub i))

/-- `lower_boundary + points * (upper_boundary - lower_boundary)` (utils.py:280, 285, 287-289), where `points` is the
design (SLHD, LHD) or the uniform sample in the unit cube. -/
def initialPop (cfg : GAConfig d) (unit : Pop d h) : Pop d h := fun k i => cfg.lb i + unit k i * (cfg.ub i - cfg.lb i)

open Classical in
/-- Loop body of the initial rounding for column `i` (utils.py:299-302). -/
noncomputable def nudgeCol (cfg : GAConfig d) (x : Pt d) (i : Fin d) : Pt d :=
  let x := if x i < cfg.lb i then Function.update x i (x i + 1) else x
  if x i > cfg.ub i then Function.update x i (x i - 1) else x

/-- Initial rounding of one individual (utils.py:295-302). -/
noncomputable def initialRound (cfg : GAConfig d) (x : Pt d) : Pt d :=
  if cfg.intVar.length > 0 then cfg.intVar.foldl (nudgeCol cfg) (roundCols cfg.intVar x) else x

/-- Random draws of one generation. (utils.py:320, 330-332, 343-346.) -/
structure Draws (d h : ℕ) where
  /-- `np.random.randint(0, nindividuals, (nindividuals, 5))` -/
  competitors : Fin (popSize h) → Fin 5 → Fin (popSize h)
  /-- `np.random.rand(nindividuals // 2)` -/
  cross : Fin (h + 1) → ℝ
  /-- `np.random.rand(nn, 1)`, here indexed by the pair -/
  alpha : Fin (h + 1) → ℝ
  /-- `np.random.randn(nindividuals, nvariables)` -/
  normal : Fin (popSize h) → Fin d → ℝ
  /-- `np.random.rand(nindividuals, nvariables)` -/
  mutate : Fin (popSize h) → Fin d → ℝ

/-- Draws in the range of `np.random.rand`. (utils.py:330-332, 343-346.) -/
def Draws.Valid (r : Draws d h) : Prop := ∀ k, 0 ≤ r.alpha k ∧ r.alpha k < 1

/-- Variables of the main loop: `population`, `function_values`, `best_individual`, `best_value`, and (ghost) all
individuals evaluated so far. (utils.py:304-376.) -/
structure GAState (d h : ℕ) (α : Type) where
  pop : Pop d h
  vals : Fin (popSize h) → α
  best : Pt d
  bestValue : α
  evaluated : List (Pt d)

/-- Evaluation and update of the best individual (utils.py:304-312 and 362-370); `next` is the population that is
continued with (utils.py:314-315, 373-374). -/
def evaluate (f : Pt d → α) (pop next : Pop d h) (old : List (Pt d)) : GAState d h α :=
  let vals := fun k => f (pop k)
  let ind := argmin vals
  { pop := next, vals := vals, best := pop ind, bestValue := vals ind, evaluated := old ++ List.ofFn pop }

/-- Up to the main loop (utils.py:293-315): rounds, evaluates, and goes back to the positions that are not rounded.  With
no integer variables `population` itself is evaluated and kept. -/
noncomputable def gaInit (cfg : GAConfig d) (f : Pt d → α) (population : Pop d h) : GAState d h α :=
  evaluate f (fun k => initialRound cfg (population k)) population []

/-- Tournament selection (utils.py:319-324): row `k` is won by the best of its five competitors. -/
def winner (vals : Fin (popSize h) → α) (competitors : Fin (popSize h) → Fin 5 → Fin (popSize h))
    (k : Fin (popSize h)) : Fin (popSize h) :=
  competitors k (argmin (m := 4) fun t => vals (competitors k t))

/-- Row `k` of the first half, and of the second half (utils.py:326-327). -/
def loHalf (k : Fin (h + 1)) : Fin (popSize h) := ⟨k, by unfold popSize; omega⟩
/-- utils.py:327. -/
def hiHalf (k : Fin (h + 1)) : Fin (popSize h) := ⟨h + 1 + k, by unfold popSize; omega⟩

open Classical in
/-- Averaging crossover and concatenation (utils.py:329-339); `p_cross = 0.9`. -/
noncomputable def crossover (pop : Pop d h) (w : Fin (popSize h) → Fin (popSize h)) (r : Draws d h) : Pop d h :=
  fun k i =>
    if hk : k.val < h + 1 then
      let j : Fin (h + 1) := ⟨k, hk⟩
      let p1 := pop (w (loHalf j)) i
      let p2 := pop (w (hiHalf j)) i
      if r.cross j < 0.9 then r.alpha j * p1 + (1 - r.alpha j) * p2 else p1
    else
      let j : Fin (h + 1) := ⟨k - (h + 1), by have := k.isLt; unfold popSize at this; omega⟩
      let p1 := pop (w (loHalf j)) i
      let p2 := pop (w (hiHalf j)) i
      if r.cross j < 0.9 then r.alpha j * p2 + (1 - r.alpha j) * p1 else p2

open Classical in
/-- Mutation and projection to the box (utils.py:341-351); `sigma = 0.2`, `p_mutation = 1 / dim`. -/
noncomputable def mutation (cfg : GAConfig d) (pop : Pop d h) (r : Draws d h) : Pop d h :=
  fun k i =>
    let scale := 0.2 * (cfg.ub i - cfg.lb i)
    let y := pop k i + r.normal k i * scale * (if r.mutate k i < 1 / d then 1 else 0)
    min (cfg.ub i) (max (cfg.lb i) y)

/-- One generation (utils.py:318-374). -/
noncomputable def generation (cfg : GAConfig d) (f : Pt d → α) (s : GAState d h α) (r : Draws d h) : GAState d h α :=
  let parents := crossover s.pop (winner s.vals r.competitors) r
  let population := mutation cfg parents r
  -- Round chromosomes (utils.py:354-357)
  let rounded : Pop d h := fun k => roundVars (population k) cfg.intVar cfg.lb cfg.ub
  -- Keep the best individual (utils.py:360)
  let evaluatedPop : Pop d h := fun k => if k = 0 then s.best else rounded k
  -- Use the positions that are not rounded (utils.py:373-374)
  let next := if cfg.intVar.length > 0 then population else evaluatedPop
  evaluate f evaluatedPop next s.evaluated

/-- `optimize` after the choice of the initial population (utils.py:293-376), for any number of generations. -/
noncomputable def optimizeFrom (cfg : GAConfig d) (f : Pt d → α) (population : Pop d h) (rs : List (Draws d h)) :
    GAState d h α := rs.foldl (generation cfg f) (gaInit cfg f population)

/-- `optimize` with start "SLHD", "LHD" or "Random": the sample is in the unit cube. (utils.py:261-376.) -/
noncomputable def optimize (cfg : GAConfig d) (f : Pt d → α) (unit : Pop d h) (rs : List (Draws d h)) :
    GAState d h α := optimizeFrom cfg f (initialPop cfg unit) rs

end Verif.Utils
