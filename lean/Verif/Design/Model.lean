import Verif.Utils.Box
import Mathlib.LinearAlgebra.Matrix.Rank
import Mathlib.Data.Real.Basic
import Mathlib.Data.Finset.Lattice.Fold
import Mathlib.Order.WithBot

/-!
# Model of the experimental designs

Source: /repo/pySOT/experimental_design/{experimental_design,slhd,two_factorial,lhd}.py.
A design of `n` points in dimension `d` is a matrix.
-/

namespace Verif.Design

open Verif.Num Verif.Utils

/-- An `n × d` array of points. (experimental_design.py:8-77.) -/
abbrev Des (n d : ℕ) := Fin n → Pt d

/-! ## Symmetric Latin hypercube (slhd.py:52-83) -/

/-- The integer array `points`; only entries with row `< num_pts` and column `< dim` are used. (slhd.py:35-83, lhd.py:36-57.) -/
abbrev Arr := ℕ → ℕ → ℤ

/-- `points[i, j] = v`. (slhd.py:58-82.) -/
def setAt (P : Arr) (i j : ℕ) (v : ℤ) : Arr := fun a b => if a = i ∧ b = j then v else P a b

/-- `np.zeros`, `points[:, 0] = np.arange(1, num_pts + 1)` (slhd.py:60-61). -/
def slhdInit : Arr := fun i j => if j = 0 then (i : ℤ) + 1 else 0

/-- `if self.num_pts % 2 == 1: points[middleind, :] = middleind + 1` (slhd.py:67-68). -/
def slhdMiddle (n : ℕ) (P : Arr) : Arr :=
  if n % 2 = 1 then fun a b => if a = n / 2 then ((n / 2 : ℕ) : ℤ) + 1 else P a b else P

/-- The inner loop of slhd.py:72-76; `coin i j` is the outcome of `np.random.random() < 0.5`. -/
def slhdFill (n : ℕ) (coin : ℕ → ℕ → Bool) (j : ℕ) (P : Arr) : Arr :=
  (List.range (n / 2)).foldl (fun P i => setAt P i j (if coin i j then (n : ℤ) - i else (i : ℤ) + 1)) P

/-- `np.random.shuffle(points[:middleind, j])` (slhd.py:77) with outcome `σ`. -/
def slhdShuffle {m : ℕ} (σ : Equiv.Perm (Fin m)) (j : ℕ) (P : Arr) : Arr :=
  fun a b => if h : b = j ∧ a < m then P (σ ⟨a, h.2⟩) b else P a b

/-- The outer loop of slhd.py:71-77. -/
def slhdTop (n d : ℕ) (coin : ℕ → ℕ → Bool) (σ : ℕ → Equiv.Perm (Fin (n / 2))) (P : Arr) : Arr :=
  (List.range' 1 (d - 1)).foldl (fun P j => slhdShuffle (σ j) j (slhdFill n coin j P)) P

/-- slhd.py:80-81: the bottom half, row by row. -/
def slhdBottom (n : ℕ) (P : Arr) : Arr :=
  (List.range' (n / 2) (n - n / 2)).foldl
    (fun P i a b => if a = i then (n : ℤ) + 1 - P (n - 1 - i) b else P a b) P

/-- `_slhd` (slhd.py:52-83).  For `num_pts = 1` the code divides zero by zero; the theorems assume `num_pts ≥ 2`. -/
noncomputable def slhd (n d : ℕ) (coin : ℕ → ℕ → Bool) (σ : ℕ → Equiv.Perm (Fin (n / 2))) : Des n d :=
  fun i j => (((slhdBottom n (slhdTop n d coin σ (slhdMiddle n slhdInit))) i j : ℝ) - 1) / ((n : ℝ) - 1)

/-! ## Two-factorial design (two_factorial.py:24-54) -/

/-- `itertools.product([0, 1], repeat=dim)`: the last coordinate changes fastest. (two_factorial.py:51.) -/
def product01 : (d : ℕ) → List (Pt d)
  | 0 => [Fin.elim0]
  | d + 1 => [0, 1].flatMap fun x : ℝ => (product01 d).map fun r => Fin.cons x r

/-- `TwoFactorial.__init__` (two_factorial.py:24-28): `none` is the `ValueError`, otherwise `num_pts`. -/
def twoFactorialInit (d : ℕ) : Option ℕ := if d ≥ 15 then none else some (2 ^ d)

/-- `TwoFactorial.generate_points` (two_factorial.py:30-54); `bounds = none` if `lb` or `ub` is `None`. -/
noncomputable def twoFactorialPoints (d : ℕ) (bounds : Option (Pt d × Pt d)) (intVar : List (Fin d)) : List (Pt d) :=
  match bounds with
  | none => product01 d
  | some (lb, ub) => (product01 d).map fun x => roundVars (fromUnitBox x lb ub) intVar lb ub

/-! ## Selection of the best design (experimental_design.py:42-77) -/

/-- Mapping to the domain (experimental_design.py:64-65). -/
noncomputable def mapDesign {n d : ℕ} (bounds : Option (Pt d × Pt d)) (intVar : List (Fin d)) (D : Des n d) : Des n d :=
  match bounds with
  | none => D
  | some (lb, ub) => fun i => roundVars (fromUnitBox (D i) lb ub) intVar lb ub

open Classical in
/-- `dists = cdist(cand, cand)`, `inf` on the diagonal, minimum (experimental_design.py:67-69). -/
noncomputable def score {n d : ℕ} (D : Des n d) : WithTop ℝ :=
  Finset.univ.inf fun p : Fin n × Fin n => if p.1 = p.2 then ⊤ else ((eucl (D p.1) (D p.2) : ℝ) : WithTop ℝ)

open Classical in
/-- The loop body (experimental_design.py:71-73).  `numpy.linalg.matrix_rank` is modelled by the exact rank. -/
noncomputable def pickStep {n d : ℕ} (s : Option (Des n d) × WithTop ℝ) (c : Des n d) : Option (Des n d) × WithTop ℝ :=
  if score c > s.2 ∧ (Matrix.of c).rank = d then (some c, score c) else s

/-- `_expdes_dist` (experimental_design.py:42-77): `gens` are the results of the calls of `gen`, one per iteration;
`none` is the `ValueError`. -/
noncomputable def expdesDist {n d : ℕ} (gens : List (Des n d)) (bounds : Option (Pt d × Pt d)) (intVar : List (Fin d)) :
    Option (Des n d) :=
  ((gens.map (mapDesign bounds intVar)).foldl pickStep (none, 0)).1

/-- `SymmetricLatinHypercube.generate_points` (slhd.py:26-50): the random choices of each iteration are given. -/
noncomputable def slhdPoints (n d : ℕ) (rnd : List ((ℕ → ℕ → Bool) × (ℕ → Equiv.Perm (Fin (n / 2)))))
    (bounds : Option (Pt d × Pt d)) (intVar : List (Fin d)) : Option (Des n d) :=
  expdesDist (rnd.map fun r => slhd n d r.1 r.2) bounds intVar

/-- `pydoe.lhs(dim, num_pts, iterations=1)` (lhd.py:54-55; pyDOE2's `_lhsclassic`: one random point in each of the
`num_pts` equal intervals, columns permuted independently).  pyDOE2 is not part of the repository: this is the contract
assumed of it. -/
noncomputable def lhs (n d : ℕ) (u : Fin n → Fin d → ℝ) (σ : Fin d → Equiv.Perm (Fin n)) : Des n d :=
  fun i j => ((σ j i : ℕ) + u (σ j i) j) / (n : ℝ)

/-- `LatinHypercube.generate_points` (lhd.py:33-57). -/
noncomputable def lhdPoints (n d : ℕ) (rnd : List ((Fin n → Fin d → ℝ) × (Fin d → Equiv.Perm (Fin n))))
    (bounds : Option (Pt d × Pt d)) (intVar : List (Fin d)) : Option (Des n d) :=
  expdesDist (rnd.map fun r => lhs n d r.1 r.2) bounds intVar

end Verif.Design
