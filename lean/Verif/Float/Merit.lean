import Verif.Float.Model
import Verif.Cand.Candidates

/-!
# `weighted_distance_merit` in double precision

Source: /repo/pySOT/auxiliary_problems/candidate_srbf.py:8-57 (`srbf.py`).  The same code as `weightedDistanceMerit` in
`Verif.Cand.Candidates`, with one rounding `rnd` after each arithmetic operation.
-/

namespace Verif.Fl

open Verif.Num

variable {d m n : ℕ}

/-- One entry of `scipy.spatial.distance.cdist(...)` (srbf.py:35, 54): `d = u[i] - v[i]; s += d * d` for one coordinate after the
other, then the square root.  scipy is not part of the repository: this is the contract assumed of it. -/
noncomputable def dist (rnd : ℝ → ℝ) (x y : Pt d) : ℝ :=
  rnd (Real.sqrt ((List.finRange d).foldl (fun s i => rnd (s + rnd (rnd (x i - y i) * rnd (x i - y i)))) 0))

/-- One row of `np.amin(cdist(...), axis=1)` (srbf.py:35-36), for the points `y0 :: ys`. -/
noncomputable def minDist (rnd : ℝ → ℝ) (x y0 : Pt d) (ys : List (Pt d)) : ℝ :=
  ys.foldl (fun a y => min a (dist rnd x y)) (dist rnd x y0)

open Classical in
/-- `w * v` (srbf.py:46). -/
noncomputable def smul (rnd : ℝ → ℝ) (w : ℝ) : Cand.Fl → Cand.Fl
  | .fin r => .fin (rnd (w * r))
  | .inf => if w = 0 then .nan else .inf
  | .nan => .nan

/-- `v + r` (srbf.py:46). -/
noncomputable def add (rnd : ℝ → ℝ) : Cand.Fl → ℝ → Cand.Fl
  | .fin a, r => .fin (rnd (a + r))
  | .inf, _ => .inf
  | .nan, _ => .nan

open Classical in
/-- `merit` (srbf.py:46-48). -/
noncomputable def merit (rnd : ℝ → ℝ) (w dtol : ℝ) (fvals : Fin (m + 1) → Cand.Fl) (dmerit : Fin (m + 1) → ℝ) :
    Fin (m + 1) → Cand.Fl :=
  fun j => if dmerit j < dtol then .inf
    else add rnd (smul rnd w (fvals j)) (rnd (rnd (1 - w) * rnd (1 - unitRescale rnd dmerit j)))

/-- The loop of `weighted_distance_merit` (srbf.py:44-55): the selected candidates. -/
noncomputable def wdmLoop (rnd : ℝ → ℝ) (cand : Fin (m + 1) → Pt d) (dtol : ℝ) :
    List ℝ → (Fin (m + 1) → Cand.Fl) → (Fin (m + 1) → ℝ) → List (Fin (m + 1))
  | [], _, _ => []
  | w :: ws, fvals, dmerit =>
    let jj := Cand.flArgmin (merit rnd w dtol fvals dmerit)
    jj :: wdmLoop rnd cand dtol ws (Function.update fvals jj .inf) (fun j => min (dmerit j) (dist rnd (cand j) (cand jj)))

/-- `weighted_distance_merit` (srbf.py:8-57): indices of the selected candidates, one per weight.  `pred` is what
`surrogate.predict` returns. -/
noncomputable def wdmIdx (rnd : ℝ → ℝ) (pred : Pt d → ℝ) (X : Fin (n + 1) → Pt d) (Xpend : List (Pt d))
    (cand : Fin (m + 1) → Pt d) (weights : List ℝ) (dtol : ℝ) : List (Fin (m + 1)) :=
  wdmLoop rnd cand dtol weights (fun j => .fin (unitRescale rnd (fun k => pred (cand k)) j))
    (fun j => minDist rnd (cand j) (X 0) (List.ofFn (fun k : Fin n => X k.succ) ++ Xpend))

end Verif.Fl
