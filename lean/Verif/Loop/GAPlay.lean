import Verif.Loop.Chance
import Verif.Utils.GA

/-!
# The genetic algorithm with random mutations

The mutations are drawn at random; the tournaments and crossovers of each generation are chosen by an adversary, who may use the
outcomes of earlier draws.
-/

namespace Verif.Loop

open Verif.Num Verif.Utils MeasureTheory ProbabilityTheory
open scoped ENNReal

variable {d h : ℕ} {α : Type} [LinearOrder α]

/-- The law of the draws of the mutations of one generation: which variables of which individuals mutate (uniform numbers), and by
how much (standard normal numbers); all independent. (utils.py:343-346.) -/
noncomputable def mutationLaw (d h : ℕ) : Measure (Pop d h × Pop d h) :=
  (Measure.pi fun _ => Measure.pi fun _ => unifLaw).prod (Measure.pi fun _ => Measure.pi fun _ => gaussianReal 0 1)

/-- The draws of one generation. (utils.py:320, 330-332, 343-346.) -/
def genDraws (competitors : Fin (popSize h) → Fin 5 → Fin (popSize h)) (cross alpha : Fin (h + 1) → ℝ) (z : Pop d h × Pop d h) :
    Draws d h := { competitors, cross, alpha, normal := z.2, mutate := z.1 }

/-- A plan of the adversary: the other draws of the next generation, for every outcome of the mutations. -/
inductive GAPlan (d h : ℕ) where
  | stop
  | gen (competitors : Fin (popSize h) → Fin 5 → Fin (popSize h)) (cross alpha : Fin (h + 1) → ℝ)
    (halpha : ∀ k, 0 ≤ alpha k ∧ alpha k < 1) (next : Pop d h × Pop d h → GAPlan d h)

open Classical in
/-- The (upper) probability that, when the plan is followed from state `s`, there are at least `n` generations and the value of
the best individual after `n` of them is greater than `t`. -/
noncomputable def worseChance (cfg : GAConfig d) (f : Pt d → α) (t : α) : GAPlan d h → ℕ → GAState d h α → ℝ≥0∞
  | .stop, n, s => if n = 0 ∧ t < s.bestValue then 1 else 0
  | .gen c cr al _ next, n, s =>
    if n = 0 then (if t < s.bestValue then 1 else 0) else
      upperInt (mutationLaw d h) fun z => worseChance cfg f t (next z) (n - 1) (generation cfg f s (genDraws c cr al z))

end Verif.Loop
