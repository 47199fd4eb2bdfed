import Mathlib.Analysis.SpecialFunctions.Trigonometric.Basic
import Mathlib.Analysis.SpecialFunctions.Exp
import Mathlib.Analysis.Real.Sqrt
import Mathlib.Algebra.BigOperators.Fin
import Verif.Utils.Box

/-!
# Model of the bundled test problems

Source: /repo/pySOT/optimization_problems/*.py.  One-dimensional NumPy arrays are lists of real numbers (idealised
arithmetic: floating-point rounding is not modelled); every `eval` first calls `__check_input__` and then computes a
number.  A Python exception is `none`.
-/

namespace Verif.Problems

/-- An instance of one of the bundled problem classes: the attributes set by `__init__` and the code of `eval` after the
call of `__check_input__`.  `int_var` is the empty array in every class and `cont_var` is `np.arange(0, dim)`.
`min`/`minimum` are `none` in `Michalewicz`, which does not set them (michaelewicz.py:28-34). -/
structure Problem where
  dim : ℕ
  lb : List ℝ
  ub : List ℝ
  cont : List ℤ
  int : List ℤ
  min : Option ℝ
  minimum : Option (List ℝ)
  body : List ℝ → ℝ

/-- `OptimizationProblem.__check_input__` (optimization_problem.py:17-19); `none` is the `ValueError`. -/
def checkInput (dim : ℕ) (x : List ℝ) : Option Unit := if x.length ≠ dim then none else some ()

/-- `eval` of every class: `self.__check_input__(x)` followed by the computation.
(optimization_problem.py:17-23 and `eval` in every file of optimization_problems.) -/
def Problem.eval (p : Problem) (x : List ℝ) : Option ℝ := do
  checkInput p.dim x
  pure (p.body x)

/-- `c * np.ones(dim)` (and `np.zeros(dim)` for `c = 0`). (E.g. ackley.py:34-36.) -/
def const (dim : ℕ) (c : ℝ) : List ℝ := List.replicate dim c

/-- `np.arange(0, dim)` as integers. (E.g. ackley.py:38.) -/
def arange (dim : ℕ) : List ℤ := (List.range dim).map (fun (i : ℕ) => (i : ℤ))

/-- Python indexing `x[i]`: a negative index counts from the end.  Out-of-range indices (never used below for an array of
the right length) give 0. (E.g. perm.py:46, rosenbrock.py:51.) -/
def idx (x : List ℝ) (i : ℤ) : ℝ := if 0 ≤ i then x.getD i.toNat 0 else x.getD (x.length - (-i).toNat) 0

/-- `for i in range(n): s += f(i)` starting with `s = a`. (E.g. rosenbrock.py:49-52.) -/
def loopSum (n : ℕ) (a : ℝ) (f : ℕ → ℝ) : ℝ := (List.range n).foldl (fun s i => s + f i) a

/-- Elementwise operation of `np.arange(dim)` with `x` (broadcasting of equal lengths). (E.g. sum_of_squares.py:43.) -/
def withIndex (f : ℕ → ℝ → ℝ) (x : List ℝ) : List ℝ := List.zipWith f (List.range x.length) x

/-- Ackley (ackley.py:31-56). -/
noncomputable def ackley (dim : ℕ) : Problem where
  dim := dim
  min := some 0
  minimum := some (const dim 0)
  lb := const dim (-15)
  ub := const dim 20
  int := []
  cont := arange dim
  body x :=
    let d : ℝ := dim
    (-20) * Real.exp (-0.2 * Real.sqrt ((x.map (· ^ 2)).sum / d))
      - Real.exp ((x.map (fun y => Real.cos (2 * Real.pi * y))).sum / d) + 20 + Real.exp 1

/-- Branin (branin.py:23-55). -/
noncomputable def branin : Problem where
  min := some 0.397887
  minimum := some [-Real.pi, 12.275]
  dim := 2
  lb := const 2 (-3)
  ub := const 2 3
  int := []
  cont := arange 2
  body x :=
    let x1 := idx x 0
    let x2 := idx x 1
    let t := 1 / (8 * Real.pi)
    let s := 10
    let r := 6
    let c := 5 / Real.pi
    let b := 5.1 / (4 * Real.pi ^ 2)
    let a := 1
    let term1 := a * (x2 - b * x1 ^ 2 + c * x1 - r) ^ 2
    let term2 := s * (1 - t) * Real.cos x1
    term1 + term2 + s

/-- Exponential (exponential.py:29-51).  The index `i - 1` is the one of the code. -/
noncomputable def exponential (dim : ℕ) : Problem where
  dim := dim
  min := some 0
  minimum := some (const dim (-5.12))
  lb := const dim (-5.12)
  ub := const dim 5.12
  int := []
  cont := arange dim
  body x := loopSum x.length 0 (fun i =>
    Real.exp (((i : ℝ) + 1) * idx x ((i : ℤ) - 1)) - Real.exp (-5.12 * ((i : ℝ) + 1)))

/-- Goldstein-Price (goldstein_price.py:7-38). -/
noncomputable def goldsteinPrice : Problem where
  min := some 3
  minimum := some [0, -1]
  dim := 2
  lb := const 2 (-2)
  ub := const 2 2
  int := []
  cont := arange 2
  body x :=
    let x1 := idx x 0
    let x2 := idx x 1
    let fact1a := (x1 + x2 + 1) ^ 2
    let fact1b := 19 - 14 * x1 + 3 * x1 ^ 2 - 14 * x2 + 6 * x1 * x2 + 3 * x2 ^ 2
    let fact1 := 1 + fact1a * fact1b
    let fact2a := (2 * x1 - 3 * x2) ^ 2
    let fact2b := 18 - 32 * x1 + 12 * x1 ^ 2 + 48 * x2 - 36 * x1 * x2 + 27 * x2 ^ 2
    let fact2 := 30 + fact2a * fact2b
    fact1 * fact2

/-- Griewank (griewank.py:30-52); `for i, y in enumerate(x): total *= ...`. -/
noncomputable def griewank (dim : ℕ) : Problem where
  dim := dim
  min := some 0
  minimum := some (const dim 0)
  lb := const dim (-512)
  ub := const dim 512
  int := []
  cont := arange dim
  body x :=
    let total := (withIndex (fun i y => Real.cos (y / Real.sqrt ((i : ℝ) + 1))) x).foldl (· * ·) 1
    1 / 4000 * (x.map (· ^ 2)).sum - total + 1

/-- The matrix `A` of Hartmann3 (hartmann3.py:43). -/
noncomputable def hartmann3A : List (List ℝ) := [[3, 10, 30], [0.1, 10, 35], [3, 10, 30], [0.1, 10, 35]]

/-- The matrix `P` of Hartmann3 (hartmann3.py:44-46). -/
noncomputable def hartmann3P : List (List ℝ) :=
  [[0.3689, 0.1170, 0.2673], [0.4699, 0.4387, 0.747], [0.1091, 0.8732, 0.5547], [0.0381, 0.5743, 0.8828]]

/-- The double loop of the Hartmann problems (hartmann3.py:47-56, hartmann6.py:62-71). -/
noncomputable def hartmannLoop (m : ℕ) (alpha : List ℝ) (A P : List (List ℝ)) (x : List ℝ) : ℝ :=
  -loopSum 4 0 (fun ii => alpha.getD ii 0 * Real.exp (-loopSum m 0 (fun jj =>
    (A.getD ii []).getD jj 0 * (idx x jj - (P.getD ii []).getD jj 0) ^ 2)))

/-- Hartmann3 (hartmann3.py:23-56). -/
noncomputable def hartmann3 : Problem where
  dim := 3
  lb := const 3 0
  ub := const 3 1
  int := []
  cont := arange 3
  min := some (-3.86278)
  minimum := some [0.114614, 0.555649, 0.852547]
  body := hartmannLoop 3 [1, 1.2, 3, 3.2] hartmann3A hartmann3P

/-- The matrix `A` of Hartmann6 (hartmann6.py:46-53). -/
noncomputable def hartmann6A : List (List ℝ) :=
  [[10, 3, 17, 3.5, 1.7, 8], [0.05, 10, 17, 0.1, 8, 14], [3, 3.5, 1.7, 10, 17, 8], [17, 8, 0.05, 10, 0.1, 14]]

/-- The matrix `P` of Hartmann6 (hartmann6.py:54-61), with the factor `1e-4` multiplied in. -/
noncomputable def hartmann6P : List (List ℝ) :=
  [[0.1312, 0.1696, 0.5569, 0.0124, 0.8283, 0.5886], [0.2329, 0.4135, 0.8307, 0.3736, 0.1004, 0.9991],
   [0.2348, 0.1451, 0.3522, 0.2883, 0.3047, 0.6650], [0.4047, 0.8828, 0.8732, 0.5743, 0.1091, 0.0381]]

/-- Hartmann6 (hartmann6.py:23-71). -/
noncomputable def hartmann6 : Problem where
  min := some (-3.32237)
  minimum := some [0.20169, 0.150011, 0.476874, 0.275332, 0.311652, 0.6573]
  dim := 6
  lb := const 6 0
  ub := const 6 1
  int := []
  cont := arange 6
  body := hartmannLoop 6 [1, 1.2, 3, 3.2] hartmann6A hartmann6P

/-- Himmelblau (himmelblau.py:25-44). -/
noncomputable def himmelblau (dim : ℕ) : Problem where
  dim := dim
  min := some (-39.166165703771412)
  minimum := some (const dim (-2.903534027771178))
  lb := const dim (-5.12)
  ub := const dim 5.12
  int := []
  cont := arange dim
  body x := 0.5 * (x.map (fun y => y ^ 4 - 16 * y ^ 2 + 5 * y)).sum / (dim : ℝ)

/-- Levy (levy.py:23-48); `w[1 : d - 1]` is `(w.take (d - 1)).drop 1`. -/
noncomputable def levy (dim : ℕ) : Problem where
  dim := dim
  min := some 0
  minimum := some (const dim 1)
  lb := const dim (-5)
  ub := const dim 5
  int := []
  cont := arange dim
  body x :=
    let w := x.map (fun y => 1 + (y - 1) / 4)
    let d := dim
    Real.sin (Real.pi * idx w 0) ^ 2
      + (((w.take (d - 1)).drop 1).map (fun v => (v - 1) ^ 2 * (1 + 10 * Real.sin (Real.pi * v + 1) ^ 2))).sum
      + (idx w ((d : ℤ) - 1) - 1) ^ 2 * (1 + Real.sin (2 * Real.pi * idx w ((d : ℤ) - 1)) ^ 2)

/-- Michalewicz (michaelewicz.py:28-45). -/
noncomputable def michalewicz (dim : ℕ) : Problem where
  dim := dim
  lb := const dim 0
  ub := const dim Real.pi
  int := []
  cont := arange dim
  min := none
  minimum := none
  body x := -(withIndex (fun i y => Real.sin y * (Real.sin (((1 + (i : ℝ)) * y ^ 2) / Real.pi)) ^ 20) x).sum

/-- Perm (perm.py:21-49). -/
noncomputable def perm (dim : ℕ) : Problem where
  dim := dim
  min := some 0
  minimum := some ((List.range dim).map (fun (i : ℕ) => 1 / ((i : ℝ) + 1)))
  lb := const dim (-5)
  ub := const dim 5
  int := []
  cont := arange dim
  body x :=
    let beta : ℝ := 10
    let d := x.length
    loopSum d 0 (fun ii => (loopSum d 0 (fun jj =>
      (((jj : ℝ) + 1) + beta) * (idx x jj ^ (ii + 1) - (1 / ((jj : ℝ) + 1)) ^ (ii + 1)))) ^ 2)

/-- Rastrigin (rastrigin.py:29-48). -/
noncomputable def rastrigin (dim : ℕ) : Problem where
  dim := dim
  min := some 0
  minimum := some (const dim 0)
  lb := const dim (-5.12)
  ub := const dim 5.12
  int := []
  cont := arange dim
  body x := 10 * (dim : ℝ) + (x.map (fun y => y ^ 2 - 10 * Real.cos (2 * Real.pi * y))).sum

/-- Rosenbrock (rosenbrock.py:30-52). -/
noncomputable def rosenbrock (dim : ℕ) : Problem where
  dim := dim
  min := some 0
  minimum := some (const dim 1)
  lb := const dim (-2.048)
  ub := const dim 2.048
  int := []
  cont := arange dim
  body x := loopSum (x.length - 1) 0 (fun i =>
    100 * (idx x i ^ 2 - idx x ((i : ℤ) + 1)) ^ 2 + (idx x i - 1) ^ 2)

/-- Schwefel (schwefel.py:30-49). -/
noncomputable def schwefel (dim : ℕ) : Problem where
  dim := dim
  min := some 0
  minimum := some (const dim 420.968746)
  lb := const dim (-512)
  ub := const dim 512
  int := []
  cont := arange dim
  body x := 418.9829 * (dim : ℝ) - (x.map (fun y => y * Real.sin (Real.sqrt |y|))).sum

/-- Six-hump camel (six_hump_camel.py:23-42). -/
noncomputable def sixHumpCamel : Problem where
  min := some (-1.0316)
  minimum := some [0.0898, -0.7126]
  dim := 2
  lb := const 2 (-3)
  ub := const 2 3
  int := []
  cont := arange 2
  body x := (4 - 2.1 * idx x 0 ^ 2 + (idx x 0 ^ 4) / 3) * idx x 0 ^ 2 + idx x 0 * idx x 1
    + (-4 + 4 * idx x 1 ^ 2) * idx x 1 ^ 2

/-- Sphere (sphere.py:29-48). -/
noncomputable def sphere (dim : ℕ) : Problem where
  dim := dim
  min := some 0
  minimum := some (const dim 0)
  lb := const dim (-5.12)
  ub := const dim 5.12
  int := []
  cont := arange dim
  body x := (x.map (· ^ 2)).sum

/-- Sum of squares (sum_of_squares.py:24-43). -/
noncomputable def sumOfSquares (dim : ℕ) : Problem where
  dim := dim
  min := some 0
  minimum := some (const dim 0)
  lb := const dim (-5)
  ub := const dim 5
  int := []
  cont := arange dim
  body x := (withIndex (fun i y => (1 + (i : ℝ)) * y ^ 2) x).sum

/-- Weierstrass (weierstrass.py:7-32); the pair is `(f0, val)`. -/
noncomputable def weierstrass (dim : ℕ) : Problem where
  dim := dim
  min := some 0
  minimum := some (const dim 0)
  lb := const dim (-5)
  ub := const dim 5
  int := []
  cont := arange dim
  body x :=
    let d := x.length
    let s := (List.range 12).foldl (fun (s : ℝ × ℝ) k =>
      (s.1 + 1 / (2 ^ k) * Real.cos (Real.pi * 3 ^ k),
       loopSum d s.2 (fun i => 1 / (2 ^ k) * Real.cos (2 * Real.pi * 3 ^ k * (idx x i + 0.5))))) ((0, 0) : ℝ × ℝ)
    10 * (1 / (d : ℝ) * s.2 - s.1) ^ 3

/-- Zakharov (zakharov.py:21-44). -/
noncomputable def zakharov (dim : ℕ) : Problem where
  dim := dim
  min := some 0
  minimum := some (const dim 0)
  lb := const dim (-5)
  ub := const dim 10
  int := []
  cont := arange dim
  body x :=
    (x.map (· ^ 2)).sum
      + (withIndex (fun i y => 0.5 * (1 + (i : ℝ)) * y) x).sum ^ 2
      + (withIndex (fun i y => 0.5 * (1 + (i : ℝ)) * y) x).sum ^ 4

/-- The object passed to `check_opt_prob`: `dim` is the Python `int` given to `__init__`, the bounds and index arrays are
NumPy arrays. (utils.py:96-149 applied to the classes in optimization_problems.) -/
def Problem.asProb (p : Problem) : Verif.Utils.Prob where
  isProblem := true
  dimIsInt := true
  dim := p.dim
  lbIsArray := true
  lb := p.lb
  ubIsArray := true
  ub := p.ub
  contIsArray := true
  cont := p.cont
  intIsArray := true
  int := p.int

end Verif.Problems
