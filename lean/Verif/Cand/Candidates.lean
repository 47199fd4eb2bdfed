import Verif.Utils.Box
import Verif.Num.Spec

/-!
# Model of the candidate-point methods

Sources: /repo/pySOT/auxiliary_problems/candidate_srbf.py (`weighted_distance_merit`, `candidate_srbf`; cited `srbf.py`),
candidate_dycors.py (`dycors.py`), candidate_uniform.py (`uniform.py`).

Evaluated points are `X : Fin (n + 1) → Pt d` (at least one, otherwise `np.argmin` raises), there is at least one candidate
(`num_cand = 100 * dim` by default).  The surrogate is an arbitrary function.  `weights` is the list of the `num_pts`
weights that are used.
-/

namespace Verif.Cand

open Verif.Num Verif.Utils

variable {d m n : ℕ}

/-- Float values that occur in the merit: finite, `inf`, `nan`.  (`-inf` does not occur: the weights are nonnegative,
srbf_strategy.py:139-140.) -/
inductive Fl where
  | fin (r : ℝ)
  | inf
  | nan

open Classical in
/-- `w * v` (candidate_srbf.py:46). -/
noncomputable def Fl.smul (w : ℝ) : Fl → Fl
  | .fin r => .fin (w * r)
  | .inf => if w = 0 then .nan else .inf
  | .nan => .nan

/-- `v + r` (candidate_srbf.py:46). -/
noncomputable def Fl.add : Fl → ℝ → Fl
  | .fin a, r => .fin (a + r)
  | .inf, _ => .inf
  | .nan, _ => .nan

/-- Sort key of `np.argmin`, for which a `nan` is smaller than everything. (candidate_srbf.py:49.) -/
noncomputable def Fl.key : Fl → WithBot (WithTop ℝ)
  | .fin r => ((r : WithTop ℝ) : WithBot (WithTop ℝ))
  | .inf => ((⊤ : WithTop ℝ) : WithBot (WithTop ℝ))
  | .nan => ⊥

/-- `np.argmin` of a float array. (candidate_srbf.py:49.) -/
noncomputable def flArgmin (v : Fin (m + 1) → Fl) : Fin (m + 1) := argmin fun j => (v j).key

/-- Smallest distance of `x` to the points `y0 :: ys`: one row of `np.amin(cdist(...), axis=1)` (srbf.py:35-36). -/
noncomputable def minDist (x y0 : Pt d) (ys : List (Pt d)) : ℝ := ys.foldl (fun a y => min a (eucl x y)) (eucl x y0)

open Classical in
/-- `merit` (srbf.py:46-48). -/
noncomputable def merit (w dtol : ℝ) (fvals : Fin (m + 1) → Fl) (dmerit : Fin (m + 1) → ℝ) : Fin (m + 1) → Fl :=
  fun j => if dmerit j < dtol then .inf else ((fvals j).smul w).add ((1 - w) * (1 - unitRescale dmerit j))

open Classical in
/-- The loop of `weighted_distance_merit` (srbf.py:44-55): the selected candidates. -/
noncomputable def wdmLoop (cand : Fin (m + 1) → Pt d) (dtol : ℝ) :
    List ℝ → (Fin (m + 1) → Fl) → (Fin (m + 1) → ℝ) → List (Fin (m + 1))
  | [], _, _ => []
  | w :: ws, fvals, dmerit =>
    let jj := flArgmin (merit w dtol fvals dmerit)
    jj :: wdmLoop cand dtol ws (Function.update fvals jj .inf) (fun j => min (dmerit j) (eucl (cand j) (cand jj)))

/-- `weighted_distance_merit` (srbf.py:8-57): indices of the selected candidates, one per weight. -/
noncomputable def wdmIdx (pred : Pt d → ℝ) (X : Fin (n + 1) → Pt d) (Xpend : List (Pt d)) (cand : Fin (m + 1) → Pt d)
    (weights : List ℝ) (dtol : ℝ) : List (Fin (m + 1)) :=
  wdmLoop cand dtol weights (fun j => .fin (unitRescale (fun k => pred (cand k)) j))
    (fun j => minDist (cand j) (X 0) (List.ofFn (fun k : Fin n => X k.succ) ++ Xpend))

/-- The selected points. (candidate_srbf.py:51-57.) -/
noncomputable def weightedDistanceMerit (pred : Pt d → ℝ) (X : Fin (n + 1) → Pt d) (Xpend : List (Pt d))
    (cand : Fin (m + 1) → Pt d) (weights : List ℝ) (dtol : ℝ) : List (Pt d) :=
  (wdmIdx pred X Xpend cand weights dtol).map cand

/-- The part of the optimization problem that is used. (optimization_problem.py:10-15; read in candidate_srbf.py:94-116.) -/
structure OptProb (d : ℕ) where
  lb : Pt d
  ub : Pt d
  intVar : List (Fin d)

open Classical in
/-- `scalefactors` (srbf.py:102-105, dycors.py:67-70). -/
noncomputable def scalefactors (p : OptProb d) (radius : ℝ) (subset : List (Fin d)) : Pt d :=
  fun i => if i ∈ p.intVar ∧ i ∈ subset then max (radius * (p.ub i - p.lb i)) 1 else radius * (p.ub i - p.lb i)

/-- A draw of `stats.truncnorm.rvs(a, b, loc, scale)` is `loc + scale * z` with `a ≤ z ≤ b` (scipy).
(candidate_srbf.py:111-113, candidate_dycors.py:84-86.) -/
def truncnorm (loc scale z : ℝ) : ℝ := loc + scale * z

/-- The range of the draws for coordinate `i` (srbf.py:110-113, dycors.py:82-86). -/
def DrawOk (p : OptProb d) (xbest σ : Pt d) (i : Fin d) (z : ℝ) : Prop :=
  (p.lb i - xbest i) / σ i ≤ z ∧ z ≤ (p.ub i - xbest i) / σ i

/-- `xbest = np.copy(X[np.argmin(fX), :]).ravel()` (candidate_srbf.py:92, candidate_dycors.py:57). -/
noncomputable def xbestOf (X : Fin (n + 1) → Pt d) (fX : Fin (n + 1) → ℝ) : Pt d := X (argmin fX)

/-- One SRBF candidate before rounding (srbf.py:108-113). -/
noncomputable def srbfCand (xbest σ : Pt d) (subset : List (Fin d)) (z : Pt d) : Pt d :=
  fun i => if i ∈ subset then truncnorm (xbest i) (σ i) (z i) else xbest i

/-- `candidate_srbf` (srbf.py:60-121). -/
noncomputable def candidateSrbf (p : OptProb d) (pred : Pt d → ℝ) (X : Fin (n + 1) → Pt d) (fX : Fin (n + 1) → ℝ)
    (weights : List ℝ) (Xpend : List (Pt d)) (radius : ℝ) (subset : List (Fin d)) (dtol : ℝ)
    (z : Fin (m + 1) → Pt d) : List (Pt d) :=
  let xbest := xbestOf X fX
  let σ := scalefactors p radius subset
  weightedDistanceMerit pred X Xpend
    (fun j => roundVars (srbfCand xbest σ subset (z j)) p.intVar p.lb p.ub) weights dtol

/-- One uniform candidate before rounding (uniform.py:44-45); `u` is drawn uniformly from the box. -/
noncomputable def uniformCand (xbest : Pt d) (subset : List (Fin d)) (u : Pt d) : Pt d :=
  fun i => if i ∈ subset then u i else xbest i

/-- `candidate_uniform` (uniform.py:7-53). -/
noncomputable def candidateUniform (p : OptProb d) (pred : Pt d → ℝ) (X : Fin (n + 1) → Pt d) (fX : Fin (n + 1) → ℝ)
    (weights : List ℝ) (Xpend : List (Pt d)) (subset : List (Fin d)) (dtol : ℝ)
    (u : Fin (m + 1) → Pt d) : List (Pt d) :=
  weightedDistanceMerit pred X Xpend
    (fun j => roundVars (uniformCand (xbestOf X fX) subset (u j)) p.intVar p.lb p.ub) weights dtol

open Classical in
/-- One row of the mask `ar` (dycors.py:73-78), with `k = len(subset)` columns: `u` uniform draws, `forced` the draw of
`np.random.randint(0, k - 1)`, which is less than `k - 1`. -/
noncomputable def dycorsMask (k : ℕ) (prob : ℝ) (u : ℕ → ℝ) (forced : ℕ) : ℕ → Bool :=
  if k = 1 then fun _ => true
  else if ∀ c < k, ¬ u c < prob then fun c => decide (u c < prob) || decide (c = forced)
  else fun c => decide (u c < prob)

/-- Loop over `subset` (dycors.py:81-86) for one candidate.  The mask is indexed by the coordinate `i` itself, and the
column written is `subset[i]`; `none` is an `IndexError`. -/
noncomputable def dycorsLoop (xbest σ : Pt d) (subset : List (Fin d)) (mask : ℕ → Bool) (z : Pt d) :
    List (Fin d) → Pt d → Option (Pt d)
  | [], x => some x
  | i :: is, x =>
    if i.val < subset.length then
      match subset[i.val]? with
      | none => none
      | some c => dycorsLoop xbest σ subset mask z is
          (if mask i.val then Function.update x c (truncnorm (xbest i) (σ i) (z i)) else x)
    else none

/-- One DYCORS candidate before rounding (dycors.py:80-86). -/
noncomputable def dycorsCand (xbest σ : Pt d) (subset : List (Fin d)) (mask : ℕ → Bool) (z : Pt d) : Option (Pt d) :=
  dycorsLoop xbest σ subset mask z subset xbest

/-- `candidate_dycors` (dycors.py:8-94); `xbest` is the given point or the best one (dycors.py:56-57).  `none` is an
`IndexError`. -/
noncomputable def candidateDycors (p : OptProb d) (pred : Pt d → ℝ) (X : Fin (n + 1) → Pt d)
    (weights : List ℝ) (prob : ℝ) (Xpend : List (Pt d)) (radius : ℝ) (subset : List (Fin d)) (dtol : ℝ) (xbest : Pt d)
    (u : Fin (m + 1) → ℕ → ℝ) (forced : Fin (m + 1) → ℕ) (z : Fin (m + 1) → Pt d) : Option (List (Pt d)) :=
  let σ := scalefactors p radius subset
  let row := fun j => dycorsCand xbest σ subset (dycorsMask subset.length prob (u j) (forced j)) (z j)
  if h : ∀ j, (row j).isSome then
    some (weightedDistanceMerit pred X Xpend
      (fun j => roundVars ((row j).get (h j)) p.intVar p.lb p.ub) weights dtol)
  else none

end Verif.Cand
