import Verif.Surrogate.Base
import Mathlib.Algebra.BigOperators.Fin
import Mathlib.Algebra.BigOperators.Intervals
import Mathlib.Analysis.SpecialFunctions.Log.Basic

/-!
# Model of the RBF interpolant

Source: /repo/pySOT/surrogate/rbf.py, kernels/*.py, tails/*.py.

Arrays are functions of the indices together with their size.  Arithmetic is exact.  `solve_triangular` is modelled by
substitution, `lu_factor` and `cholesky` (LAPACK) by their contracts `LuSpec` and `CholSpec`.
-/

namespace Verif.Surrogate

open Verif.Num Verif.Utils

/-- rbf.py:97-168. -/
abbrev Mat := ℕ → ℕ → ℝ
/-- rbf.py:97-168. -/
abbrev Vec := ℕ → ℝ

/-- `np.finfo(float).eps`. (tps_kernel.py:28, 41.) -/
noncomputable def eps : ℝ := 2⁻¹ ^ 52

/-! ## Kernels and tails -/

/-- A kernel: `order`, `eval` and `deriv` on one distance (kernels/kernel.py). -/
structure Kernel where
  order : ℕ
  eval : ℝ → ℝ
  deriv : ℝ → ℝ

/-- `CubicKernel` (kernels/cubic_kernel.py:11-37). -/
noncomputable def cubicKernel : Kernel := ⟨2, fun r => r ^ 3, fun r => 3 * r ^ 2⟩

/-- `LinearKernel` (kernels/linear_kernel.py:14-39). -/
noncomputable def linearKernel : Kernel := ⟨1, fun r => r, fun _ => 1⟩

open Classical in
/-- `dists[dists < eps] = eps`. (tps_kernel.py:28, 41.) -/
noncomputable def clampEps (r : ℝ) : ℝ := if r < eps then eps else r

/-- `TPSKernel` (kernels/tps_kernel.py:14-42). -/
noncomputable def tpsKernel : Kernel :=
  ⟨2, fun r => clampEps r ^ 2 * Real.log (clampEps r), fun r => clampEps r * (1 + 2 * Real.log (clampEps r))⟩

/-- A polynomial tail: degree, number of basis functions, the basis (`eval`, one row) and its derivatives: `deriv x i k` is
the derivative of basis function `k` by coordinate `i` (tails/tail.py). -/
structure Tail (d : ℕ) where
  degree : ℕ
  dimTail : ℕ
  eval : Pt d → ℕ → ℝ
  deriv : Pt d → Fin d → ℕ → ℝ

/-- `ConstantTail` (tails/constant_tail.py:12-44). -/
def constantTail (d : ℕ) : Tail d := ⟨0, 1, fun _ _ => 1, fun _ _ _ => 0⟩

/-- `LinearTail` (tails/linear_tail.py:13-45): the row `[1, x_1, ..., x_d]` and the matrix `[0 | I]`. -/
def linearTail (d : ℕ) : Tail d :=
  ⟨1, 1 + d, fun x k => if h : 1 ≤ k ∧ k < 1 + d then x ⟨k - 1, by omega⟩ else 1,
    fun _ i k => if k = i.1 + 1 then 1 else 0⟩

/-! ## Linear algebra -/

/-- Forward substitution: solution of `T x = b` using only the lower triangle of `T`. (rbf.py:143-168.) -/
noncomputable def fwd (T : Mat) (b : Vec) (i : ℕ) : ℝ :=
  (b i - ∑ j : Fin i, T i j * fwd T b j) / T i i
termination_by i
decreasing_by exact j.2

/-- Back substitution: solution of `T x = b` for the upper triangle of the leading `N × N` part. (rbf.py:143-168.) -/
noncomputable def bwd (N : ℕ) (T : Mat) (b : Vec) (i : ℕ) : ℝ :=
  fwd (fun a c => T (N - 1 - a) (N - 1 - c)) (fun a => b (N - 1 - a)) (N - 1 - i)

/-- `solve_triangular` raises `LinAlgError` exactly if a diagonal element is zero. (rbf.py:143-168.) -/
def zeroDiag (N : ℕ) (T : Mat) : Prop := ∃ i < N, T i i = 0

/-- Result of `lu_factor`: the packed factors and the sequence of row interchanges. (rbf.py:123.) -/
structure LuOut where
  LU : Mat
  ipiv : ℕ → ℕ

/-- `np.tril(LU, -1) + np.eye(nact)` (rbf.py:124). -/
def lowerOf (LU : Mat) : Mat := fun i j => (if j < i then LU i j else 0) + if i = j then 1 else 0

/-- `np.triu(LU)` (rbf.py:125). -/
def upperOf (LU : Mat) : Mat := fun i j => if i ≤ j then LU i j else 0

/-- `a[i], a[j] = a[j], a[i]`. (rbf.py:128-130.) -/
def swapAt {α : Type} (a : ℕ → α) (i j : ℕ) : ℕ → α := fun x => if x = i then a j else if x = j then a i else a x

/-- Applying the interchanges `i ↔ ipiv[i]`, `i = 0, 1, ...`, to the rows of an array. (rbf.py:128-130.) -/
def interchange {α : Type} (N : ℕ) (ipiv : ℕ → ℕ) (a : ℕ → α) : ℕ → α :=
  (List.range N).foldl (fun a i => swapAt a i (ipiv i)) a

/-- Contract of `scipy.linalg.lu_factor` (LAPACK `getrf`): the matrix with interchanged rows is the product of the unit
lower and the upper triangle. (Used at rbf.py:123.) -/
def LuSpec (lu : ℕ → Mat → LuOut) : Prop :=
  ∀ N A, (∀ i < N, i ≤ (lu N A).ipiv i ∧ (lu N A).ipiv i < N) ∧
    ∀ i < N, ∀ j < N, interchange N (lu N A).ipiv A i j =
      ∑ k ∈ Finset.range N, lowerOf (lu N A).LU i k * upperOf (lu N A).LU k j

/-- Contract of `scipy.linalg.cholesky(lower=True)` (LAPACK `potrf`): if it succeeds, the result is lower triangular with
positive diagonal and reproduces the lower triangle of the argument (only this is read). (Used at rbf.py:150.) -/
def CholSpec (chol : ℕ → Mat → Option Mat) : Prop :=
  ∀ N S C, chol N S = some C → (∀ i < N, 0 < C i i) ∧ (∀ i < N, ∀ j < N, i < j → C i j = 0) ∧
    ∀ i < N, ∀ j ≤ i, S i j = ∑ k ∈ Finset.range N, C i k * C j k

/-! ## The interpolant -/

/-- The stored factorization and coefficients (rbf.py:78-83) when `c` is not `None`; `k` is `c.shape[0] - ntail` and `n` is
`L.shape[0] - ntail`. -/
structure Fac where
  k : ℕ
  n : ℕ
  L : Mat
  U : Mat
  piv : ℕ → ℕ
  c : Vec

/-- The parameters: kernel, tail, regularization, output transformation, and the numerical library. (rbf.py:67-87.) -/
structure Par (d : ℕ) where
  lb : Pt d
  ub : Pt d
  kernel : Kernel
  tail : Tail d
  eta : ℝ
  trans : List ℝ → List ℝ
  lu : ℕ → Mat → LuOut
  chol : ℕ → Mat → Option Mat

variable {d : ℕ}

/-- State of the interpolant. (rbf.py:67-87.) -/
abbrev RSt (d : ℕ) := St d (Option Fac)

/-- A new interpolant (rbf.py:67-87). -/
def rinit (d : ℕ) : RSt d := { numPts := 0, X := [], Xu := [], fX := [], updated := false, model := none }

/-- The system matrix (rbf.py:113-121): tail rows first. -/
noncomputable def sysMat (p : Par d) (X : List (Pt d)) : Mat := fun i j =>
  let t := p.tail.dimTail
  if i < t then if j < t then 0 else p.tail.eval (X.getD (j - t) 0) i
  else if j < t then p.tail.eval (X.getD (i - t) 0) j
  else p.kernel.eval (eucl (X.getD (i - t) 0) (X.getD (j - t) 0)) + p.eta * if i = j then 1 else 0

/-- `rhs` (rbf.py:164-165). -/
def rhsVec (t : ℕ) (f : List ℝ) : Vec := fun i => if i < t then 0 else f.getD (i - t) 0

open Classical in
/-- Computing the coefficients (rbf.py:164-168) after `L`, `U`, `piv` were stored: what is stored afterwards and whether
`LinAlgError` was raised.  `old` is what was stored before: if the first triangular solve raises, `c` is unchanged; if the
second raises, `c` is the solution of the first. -/
noncomputable def solveCoef (p : Par d) (s : RSt d) (old : Option Fac) (L U : Mat) (piv : ℕ → ℕ) : Res (Option Fac) :=
  let N := p.tail.dimTail + s.numPts
  let rhs := rhsVec p.tail.dimTail (p.trans s.fX)
  let y := fwd L fun i => rhs (piv i)
  if zeroDiag N L then ⟨old.map fun F => { k := F.k, n := s.numPts, L := L, U := U, piv := piv, c := F.c }, true⟩
  else if zeroDiag N U then ⟨some { k := s.numPts, n := s.numPts, L := L, U := U, piv := piv, c := y }, true⟩
  else ⟨some { k := s.numPts, n := s.numPts, L := L, U := U, piv := piv, c := bwd N U y }, false⟩

/-- The initial fit (rbf.py:110-130, 164-168), `c` is `None`: the `AssertionError` leaves it so. -/
noncomputable def fitInit (p : Par d) (s : RSt d) : Res (Option Fac) :=
  if s.numPts ≥ p.tail.dimTail then
    let N := p.tail.dimTail + s.numPts
    let o := p.lu N (sysMat p s.Xu)
    solveCoef p s none (lowerOf o.LU) (upperOf o.LU) (interchange N o.ipiv fun i => i)
  else ⟨none, true⟩

/-- `Pnew` (rbf.py:139-140). -/
noncomputable def pNew (p : Par d) (X : List (Pt d)) (k : ℕ) : Mat := fun a i =>
  if a < p.tail.dimTail then p.tail.eval (X.getD (k + i) 0) a
  else p.kernel.eval (eucl (X.getD (a - p.tail.dimTail) 0) (X.getD (k + i) 0))

/-- `Phinew` (rbf.py:141). -/
noncomputable def phiNew (p : Par d) (X : List (Pt d)) (k : ℕ) : Mat := fun a i =>
  p.kernel.eval (eucl (X.getD (k + a) 0) (X.getD (k + i) 0)) + p.eta * if a = i then 1 else 0

/-- `L21` after the transposition (rbf.py:143-148): row `i` solves `U^T x = Pnew[:, i]`. -/
noncomputable def l21 (U B : Mat) : Mat := fun i a => fwd (fun r c => U c r) (fun b => B b i) a

/-- `U12` (rbf.py:144-147): column `i` solves `L x = Pnew[piv, i]`. -/
noncomputable def u12 (L : Mat) (piv : ℕ → ℕ) (B : Mat) : Mat := fun a i => fwd L (fun b => B (piv b) i) a

/-- The Schur complement (rbf.py:150). -/
noncomputable def schur (K : ℕ) (Phi l u : Mat) : Mat := fun a b => Phi a b - ∑ m ∈ Finset.range K, l a m * u m b

/-- The extended `L` (rbf.py:156-158). -/
def extL (K : ℕ) (L l C : Mat) : Mat := fun i j =>
  if i < K then if j < K then L i j else 0 else if j < K then l (i - K) j else C (i - K) (j - K)

/-- The extended `U` (rbf.py:159-161). -/
def extU (K : ℕ) (U u C : Mat) : Mat := fun i j =>
  if i < K then if j < K then U i j else u i (j - K) else if j < K then 0 else C (j - K) (i - K)

/-- The extended `piv` (rbf.py:155). -/
def extPiv (K : ℕ) (piv : ℕ → ℕ) : ℕ → ℕ := fun i => if i < K then piv i else i

open Classical in
/-- `_fit` when not up to date (rbf.py:106-168): what is stored afterwards and whether an exception was raised.  The
triangular solves of lines 146-147 are outside the `try`: if they raise (zero on a diagonal, or a factorization whose size
is not that of `c`) nothing is changed.  A failing Cholesky factorization sets `c` to `None` and leads to a fit from
scratch. -/
noncomputable def fitNew (p : Par d) (s : RSt d) : Res (Option Fac) :=
  match s.model with
  | none => fitInit p s
  | some F =>
    let K := p.tail.dimTail + F.k
    let B := pNew p s.Xu F.k
    if F.n ≠ F.k ∨ (s.numPts - F.k > 0 ∧ (zeroDiag K F.U ∨ zeroDiag K F.L)) then ⟨some F, true⟩
    else
      let l := l21 F.U B
      let u := u12 F.L F.piv B
      match p.chol (s.numPts - F.k) (schur K (phiNew p s.Xu F.k) l u) with
      | none => fitInit p s
      | some C => solveCoef p s (some F) (extL K F.L l C) (extU K F.U u C) (extPiv K F.piv)

/-- `_fit` (rbf.py:97-168): the state afterwards and whether an exception was raised; `updated` is only set if not. -/
noncomputable def fit (p : Par d) (s : RSt d) : Res (RSt d) :=
  if s.updated then ⟨s, false⟩
  else
    let r := fitNew p s
    ⟨{ s with model := r.st, updated := !r.raised }, r.raised⟩

open Classical in
/-- The state after `_fit` if `output_transformation` raises (rbf.py:97-163, exception in line 164): the factorization has
been replaced, the coefficients have not.  (If the factorization is new, `c` is `None`.) -/
noncomputable def fitTransRaises (p : Par d) (s : RSt d) : RSt d :=
  if s.updated then s
  else match s.model with
    | none => s
    | some F =>
      let K := p.tail.dimTail + F.k
      let B := pNew p s.Xu F.k
      if F.n ≠ F.k ∨ (s.numPts - F.k > 0 ∧ (zeroDiag K F.U ∨ zeroDiag K F.L)) then s
      else
        let l := l21 F.U B
        let u := u12 F.L F.piv B
        match p.chol (s.numPts - F.k) (schur K (phiNew p s.Xu F.k) l u) with
        | none => { s with model := none }
        | some C => { s with
            model := some ⟨F.k, s.numPts, extL K F.L l C, extU K F.U u C, extPiv K F.piv, F.c⟩ }

/-- The value of the expansion at a point of the unit box (rbf.py:180-185). -/
noncomputable def evalAt (p : Par d) (X : List (Pt d)) (n : ℕ) (c : Vec) (y : Pt d) : ℝ :=
  (∑ i ∈ Finset.range n, p.kernel.eval (eucl y (X.getD i 0)) * c (p.tail.dimTail + i)) +
    ∑ k ∈ Finset.range p.tail.dimTail, p.tail.eval y k * c k

/-- `predict` at one point (rbf.py:170-185): the state afterwards and the value, `none` for an exception. -/
noncomputable def predict (p : Par d) (s : RSt d) (x : Pt d) : RSt d × Option ℝ :=
  let r := fit p s
  (r.st, if r.raised then none
    else match r.st.model with
      | none => none
      | some F => some (evalAt p r.st.Xu r.st.numPts F.c (toUnitBox x p.lb p.ub)))

/-- `predict_deriv` at one point, coordinate `j` (rbf.py:187-215). -/
noncomputable def evalDeriv (p : Par d) (X : List (Pt d)) (n : ℕ) (c : Vec) (x : Pt d) (j : Fin d) : ℝ :=
  let y := toUnitBox x p.lb p.ub
  ((∑ k ∈ Finset.range p.tail.dimTail, p.tail.deriv y j k * c k) +
    ∑ i ∈ Finset.range n,
      (y j - X.getD i 0 j) *
        (p.kernel.deriv (clampEps (eucl (X.getD i 0) y)) * c (p.tail.dimTail + i) / clampEps (eucl (X.getD i 0) y))) /
    (p.ub j - p.lb j)

/-- `predict_deriv` at one point (rbf.py:187-215): the state afterwards and the row, `none` for an exception. -/
noncomputable def predictDeriv (p : Par d) (s : RSt d) (x : Pt d) : RSt d × Option (Fin d → ℝ) :=
  let r := fit p s
  (r.st, if r.raised then none
    else match r.st.model with
      | none => none
      | some F => some (evalDeriv p r.st.Xu r.st.numPts F.c x))

end Verif.Surrogate
