import Verif.Surrogate.Rbf

/-!
# Model of the constructor of the RBF interpolant

Source: /repo/pySOT/surrogate/rbf.py:67-87.
-/

namespace Verif.Surrogate

open Verif.Num Verif.Utils

/-- `RBFInterpolant.__init__` (rbf.py:67-87): the parameters of the new object; `none` for an exception (`ValueError` for a
mismatch of kernel and tail, `AssertionError` for a tail of another dimension).  If one of `kernel` and `tail` is missing
both are replaced by the defaults.  A tail carries its dimension.  The numerical library is part of the model only. -/
noncomputable def rbfCreate (d : ℕ) (lb ub : Pt d) (trans : Option (List ℝ → List ℝ)) (kernel : Option Kernel)
    (tail : Option (Σ d', Tail d')) (eta : ℝ) (lu : ℕ → Mat → LuOut) (chol : ℕ → Mat → Option Mat) : Option (Par d) :=
  let kt : Kernel × (Σ d', Tail d') :=
    match kernel, tail with
    | some k, some t => (k, t)
    | _, _ => (cubicKernel, ⟨d, linearTail d⟩)
  if (kt.1.order : ℤ) - 1 > kt.2.2.degree then none
  else if h : kt.2.1 = d then some ⟨lb, ub, kt.1, h ▸ kt.2.2, eta, trans.getD fun f => f, lu, chol⟩
  else none

end Verif.Surrogate
