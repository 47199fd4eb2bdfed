import Verif.Strategy.Model
import Verif.Utils.Box
import Verif.Utils.NdSort
import Mathlib.Data.Prod.Lex
import Mathlib.Data.List.Sort

/-!
# Model of `SOPStrategy`

Source: /repo/pySOT/strategy/sop_strategy.py (cited as `sop.py`).

The strategy is the base strategy (`Verif.Strategy`, `srbf = none`, never giving up) together with the memory of SOP.
Distances and objective vectors are real, values rational.  `none` as result of a function is an exception.
-/

namespace Verif.Sop

open Verif.Num Verif.Utils Verif.Strategy

variable {d : ℕ}

/-- Equality of rows (`np.array_equal`). -/
noncomputable instance : DecidableEq (Pt d) := Classical.decEq _

/-- `_SopRecord` (sop.py:15-76).  The attribute `rank` is only ever assigned in the constructor (`inf`), it is left out. -/
structure SopRec (d : ℕ) where
  x : Pt d
  fx : Val
  nfail : ℕ
  ntabu : ℕ
  sigma : ℚ

/-- The initial `sampling_radius` (sop.py:209), never changed. -/
def radius0 : ℚ := 2 / 10

/-- A new record (sop.py:31-37, 244, 256). -/
def SopRec.new (x : Pt d) (fx : Val) : SopRec d := ⟨x, fx, 0, 0, radius0⟩

/-- `increment_failure_count` and `reduce_sigma` (sop.py:54-60, 349-351). -/
def SopRec.fail (r : SopRec d) : SopRec d := { r with nfail := r.nfail + 1, sigma := r.sigma / 2 }

/-- `make_tabu` (sop.py:62-66). -/
def SopRec.makeTabu (r : SopRec d) : SopRec d := { r with nfail := 0, ntabu := 1, sigma := radius0 }

/-- `increment_tabu_tenure` resp. `reset` in the loop over all points (sop.py:68-76, 357-362). -/
def SopRec.tick (r : SopRec d) : SopRec d :=
  if r.ntabu > 0 then
    if r.ntabu < 5 then { r with ntabu := r.ntabu + 1 } else { r with nfail := 0, ntabu := 0, sigma := radius0 }
  else r

/-- `_SopCenter` (sop.py:79-123). -/
structure Center (d : ℕ) where
  xc : Pt d
  index : ℕ
  newPoint : Option (Pt d)
  newIndex : Option ℕ

/-- A row of `F_ranked` (sop.py:375-382): unit-box point, value, minus the minimum distance, tabu count, rank (`⊤` is
`inf`), failure count. -/
structure FRow (d : ℕ) where
  u : Pt d
  f : Val
  dist : ℝ
  tabu : ℕ
  rank : WithTop ℕ
  nfail : ℕ

/-- The attributes of SOP (sop.py:209-216).  `record_queue` is only appended to and never read, it is left out. -/
structure Sop (d : ℕ) where
  evals : List (SopRec d)
  centers : List (Center d)
  F : Option (List (FRow d))

/-- Constructor arguments. (sop.py:188-228.) -/
structure Cfg (d : ℕ) where
  base : Config (Pt d)
  lb : Pt d
  ub : Pt d
  ncenters : ℕ

/-- One row of `update_F` (sop.py:376-382); the distance column stays zero, the rank is the attribute `rank`. -/
noncomputable def fRow (c : Cfg d) (r : SopRec d) : FRow d :=
  { u := toUnitBox r.x c.lb c.ub, f := r.fx, dist := 0, tabu := r.ntabu, rank := ⊤, nfail := r.nfail }

/-- `update_F` (sop.py:372-383); `n` is `self.num_evals`.  If it is not the number of records the assignment of the columns
raises an exception (a single record would be broadcast; that case does not occur, C52). -/
noncomputable def Sop.updateF (c : Cfg d) (n : ℕ) (z : Sop d) : Option (Sop d) :=
  if z.evals.length = n then some { z with F := some (z.evals.map (fRow c)) } else none

open Classical in
/-- `np.min(a[np.nonzero(a)])` (sop.py:397-398); `none` is the `ValueError` for an empty array. -/
noncomputable def minNonzero (a : List ℝ) : Option ℝ := (a.filter fun t => decide (t ≠ 0)).min?

/-- The second objective of each row (sop.py:395-398). -/
noncomputable def distCol (us : List (Pt d)) : Option (List ℝ) :=
  us.mapM fun u => (minNonzero (us.map fun u' => eucl u u')).map fun m => -m

/-- The result of `nd_sorting` as a number or `inf`. (utils.py:452-484, sop.py:385-403.) -/
def rankOf : Option ℕ → WithTop ℕ
  | none => ⊤
  | some k => (k : WithTop ℕ)

/-- The objective vectors passed to `nd_sorting` (sop.py:401). -/
noncomputable def objVecs (rows : List (FRow d)) (ds : List ℝ) : List (Utils.Vec 2) :=
  (rows.zip ds).map fun p => ![(p.1.f : ℝ), p.2]

/-- The rows with distances and ranks (sop.py:395-402). -/
noncomputable def rankRows (rows : List (FRow d)) (ds : List ℝ) : List (FRow d) :=
  (rows.zip ds).zipIdx.map fun p =>
    { p.1.1 with dist := p.1.2, rank := rankOf (ndSorting (objVecs rows ds) 100 p.2) }

/-- `update_ranks` (sop.py:385-403). -/
noncomputable def Sop.updateRanks (c : Cfg d) (n : ℕ) (z : Sop d) : Option (Sop d) :=
  match z.updateF c n with
  | none => none
  | some z =>
    let rows := z.evals.map (fRow c)
    match distCol (rows.map FRow.u) with
    | none => none
    | some ds => some { z with F := some (rankRows rows ds) }

/-! ## The list of centers -/

/-- Tagging the centers that are being processed (sop.py:425-430). -/
def tagRows (cs : List (Center d)) (F : List (FRow d)) : List (FRow d) :=
  F.zipIdx.map fun p =>
    if cs.any fun ce => ce.newIndex.isNone && ce.index == p.2 then { p.1 with tabu := 2 } else p.1

/-- The sort key of `np.lexsort` (sop.py:436): tabu status, rank, value; the sort is stable, so ties are resolved by the
index. -/
def key (F : List (FRow d)) (i : ℕ) : ℕ ×ₗ WithTop ℕ ×ₗ Val ×ₗ ℕ :=
  match F[i]? with
  | none => toLex (0, toLex (⊤, toLex (0, i)))
  | some r => toLex (r.tabu, toLex (r.rank, toLex (r.f, i)))

/-- `ind` (sop.py:436). -/
def lexOrder (F : List (FRow d)) : List ℕ := (List.range F.length).insertionSort fun i j => key F i ≤ key F j

/-- `np.argmin(F[:, dim])` (sop.py:437): the first index of a smallest value; `none` for no rows. -/
def minIndex (F : List (FRow d)) : Option ℕ :=
  match (F.map FRow.f).min? with
  | none => none
  | some m => some ((F.map FRow.f).findIdx (· == m))

/-- `ind_new` (sop.py:438-450): the loop moves the entries in front of `min_index` one place to the right. -/
def bestFirst (F : List (FRow d)) (ind : List ℕ) (mi : ℕ) : List ℕ :=
  if ind.head? = some mi ∨ (F[mi]?).map FRow.tabu = some 2 then ind else mi :: ind.erase mi

/-- The rows of the centers chosen so far, as `check_radius_rule` reads them (sop.py:465). -/
noncomputable def centerRows (F : List (FRow d)) (chosen : List ℕ) : List (Pt d × ℕ) :=
  chosen.map fun i => match F[i]? with
    | none => (0, 0)
    | some r => (r.u, r.nfail)

/-- The point of row `i` (sop.py:464). -/
def rowPt (F : List (FRow d)) (i : ℕ) : Pt d := (F[i]?).elim 0 FRow.u

/-- The loop of the radius rule (sop.py:460-474) over the rest of `ind_new`, until `k` centers are chosen. -/
noncomputable def chooseLoop (F : List (FRow d)) (dThresh : ℝ) (k : ℕ) : List ℕ → List ℕ → List ℕ
  | [], chosen => chosen
  | i :: rest, chosen =>
    if chosen.length < k then
      if checkRadiusRule (rowPt F i) (radius0 : ℝ) dThresh (centerRows F chosen) = 1 then
        chooseLoop F dThresh k rest (chosen ++ [i])
      else chooseLoop F dThresh k rest chosen
    else chosen

/-- The rest is filled by repeating the chosen ones (sop.py:476-479). -/
def fillUp (k : ℕ) (chosen : List ℕ) : List ℕ :=
  chosen ++ (List.range (k - chosen.length)).map fun j =>
    chosen.getD ((chosen.length + j) % chosen.length) 0

/-- `center_index` (sop.py:454-479) for `k = center_count > 0` places; `n` is `self.num_evals`.  If `F` has fewer rows than
that (an initial evaluation completed after the last update of `F`) the search may run past the last row, which is an
`IndexError`. -/
noncomputable def chooseCenters (F : List (FRow d)) (n : ℕ) (dThresh : ℝ) (k : ℕ) (ind : List ℕ) : Option (List ℕ) :=
  match ind with
  | [] => none
  | i0 :: rest =>
    let chosen := chooseLoop F dThresh k rest [i0]
    if chosen.length < k ∧ F.length < n then none else some (fillUp k chosen)

/-- `d_thresh` (sop.py:420); `ZeroDivisionError` if the budget is the size of the design. -/
noncomputable def dThreshOf (c : Cfg d) (n : ℕ) : Option ℝ :=
  if c.base.maxEvals = c.base.numPts then none
  else some (1 - (((n : ℤ) - c.base.numPts : ℤ) : ℝ) / ((c.base.maxEvals - c.base.numPts : ℤ) : ℝ))

/-- New centers (sop.py:481-483). -/
def newCenters (evals : List (SopRec d)) (idx : List ℕ) : Option (List (Center d)) :=
  idx.mapM fun i => (evals[i]?).map fun r => { xc := r.x, index := i, newPoint := none, newIndex := none }

/-- `update_center_list` (sop.py:405-483). -/
noncomputable def Sop.updateCenterList (c : Cfg d) (n : ℕ) (z : Sop d) : Option (Sop d) :=
  match z.F, dThreshOf c n with
  | some F, some dt =>
    let F := tagRows z.centers F
    let centers := z.centers.filter fun ce => ce.newIndex.isNone
    match minIndex F with
    | none => none
    | some mi =>
      let ind := bestFirst F (lexOrder F) mi
      let k := c.ncenters - centers.length
      if k > 0 then
        match (chooseCenters F n dt k ind).bind (newCenters z.evals) with
        | none => none
        | some new => some { z with centers := centers ++ new }
      else some { z with centers := centers }
  | _, _ => none

/-- Assigning a new point to the first free center (sop.py:289-313); the index error of a missing center is `none`.  Which
point is found around the center is up to the candidate search (`Verif.Cand`). -/
def assignPoint (cs : List (Center d)) (x : Pt d) : Option (List (Center d)) :=
  match cs with
  | [] => none
  | ce :: rest =>
    match ce.newPoint with
    | none => some ({ ce with newPoint := some x } :: rest)
    | some _ => (assignPoint rest x).map (ce :: ·)

/-- The ranks are computed at the start of the adaptive phase (sop.py:275-276). -/
noncomputable def Sop.firstRanks (c : Cfg d) (n : ℕ) (z : Sop d) : Option (Sop d) :=
  match z.F with
  | none => z.updateRanks c n
  | some _ => some z

/-- `generate_evals` (sop.py:271-317), given the points that the candidate search returns. -/
noncomputable def Sop.generate (c : Cfg d) (n : ℕ) (pts : List (Pt d)) (z : Sop d) : Option (Sop d) :=
  match z.firstRanks c n with
  | none => none
  | some z1 =>
    match z1.updateCenterList c n with
    | none => none
    | some z2 =>
      match pts.foldlM assignPoint z2.centers with
      | none => none
      | some cs => some { z2 with centers := cs }

/-! ## Completed evaluations -/

/-- Step 2 of `adjust_memory` for one center (sop.py:341-351): the failures are recorded.  A center without `new_index`
raises an exception (`F_ranked[None, dim + 3]` is an array, whose truth value is ambiguous). -/
def failStep (F : List (FRow d)) (cs : List (Center d)) (evals : List (SopRec d)) (i : ℕ) : Option (List (SopRec d)) :=
  match cs[i]? with
  | none => none
  | some ce =>
    match ce.newIndex.bind fun ni => F[ni]? with
    | none => none
    | some row => some (if row.rank = 1 then evals else evals.modify ce.index SopRec.fail)

/-- Step 3, second loop, for one center (sop.py:364-368). -/
def tabuStep (cs : List (Center d)) (evals : List (SopRec d)) (i : ℕ) : List (SopRec d) :=
  match cs[i]? with
  | none => evals
  | some ce => evals.modify ce.index fun r => if r.nfail > 3 then r.makeTabu else r

/-- The positions of the centers processed in a call of `adjust_memory` (sop.py:327-330). -/
def processed (c : Cfg d) (index : Option ℕ) : List ℕ :=
  match index with
  | none => List.range c.ncenters
  | some i => [i]

/-- `adjust_memory` (sop.py:319-370). -/
noncomputable def Sop.adjustMemory (c : Cfg d) (n : ℕ) (index : Option ℕ) (z : Sop d) : Option (Sop d) :=
  match z.updateRanks c n with
  | none => none
  | some z =>
    match z.F with
    | none => none
    | some F =>
      match (processed c index).foldlM (failStep F z.centers) z.evals with
      | none => none
      | some evals =>
        let evals := evals.map SopRec.tick
        let evals := (processed c index).foldl (tabuStep z.centers) evals
        Sop.updateF c n { z with evals := evals }

/-- Marking the center whose new point was evaluated (sop.py:259-264): the list and the position. -/
noncomputable def markCenter (cs : List (Center d)) (x : Pt d) (ni : ℕ) : List (Center d) × Option ℕ :=
  match cs with
  | [] => ([], none)
  | ce :: rest =>
    if ce.newPoint = some x then ({ ce with newIndex := some ni } :: rest, some 0)
    else
      let r := markCenter rest x ni
      (ce :: r.1, r.2.map (· + 1))

/-- `on_initial_completed` after `super()` (sop.py:243-245). -/
def Sop.onInitialCompleted (st : State (Pt d)) (z : Sop d) (x : Pt d) (v : Val) (evId : ℕ) : Sop d :=
  if evId ≥ st.evLast then { z with evals := z.evals ++ [.new x v] } else z

/-- `on_adapt_completed` after `super()` (sop.py:251-269); `st` is the state of the base class after `super()`. -/
noncomputable def Sop.onAdaptCompleted (c : Cfg d) (st : State (Pt d)) (z : Sop d) (x : Pt d) (v : Val) (evId : ℕ) :
    Option (Sop d) :=
  if evId ≥ st.evLast then
    let z := { z with evals := z.evals ++ [SopRec.new x v] }
    let m := markCenter z.centers x (st.numEvals.toNat - 1)
    let z := { z with centers := m.1 }
    if c.base.asynchronous then z.adjustMemory c st.numEvals.toNat m.2
    else if st.batchQueue.isEmpty && st.pendingEvals == 0 then z.adjustMemory c st.numEvals.toNat none
    else some z
  else some z

/-! ## The strategy in its environment -/

/-- The base strategy with its environment, and the memory of SOP. (sop.py:188-228.) -/
structure SopSys (d : ℕ) where
  sys : Sys (Pt d)
  sop : Sop d

/-- Did this step of the base strategy call `generate_evals`, and with which points?  (The base model logs the call.)
(ss.py:282-288, sop.py:271-317). -/
def generatedNow (old new : List (Event (Pt d))) : Option (List (Pt d)) :=
  match new[old.length]? with
  | some (.generated pts _) => some pts
  | _ => none

/-- The constructor (sop.py:188-228). -/
def SopSys.create (c : Cfg d) (o : Oracle (Pt d)) : SopSys d :=
  { sys := Sys.create c.base o, sop := ⟨[], [], none⟩ }

/-- One event. (ss.py:249-439, sop.py:239-317.) -/
noncomputable def SopSys.step (c : Cfg d) (w : SopSys d) (op : Strategy.Op (Pt d)) : Option (SopSys d) :=
  match op with
  | .propose o =>
    match w.sys.step c.base (.propose { o with giveUp := false }) with
    | none => none
    | some sys =>
      match generatedNow w.sys.st.log sys.st.log with
      | none => some ⟨sys, w.sop⟩
      | some pts => (w.sop.generate c w.sys.st.numEvals.toNat pts).map fun z => ⟨sys, z⟩
  | .complete i v =>
    match w.sys.recs[i]?, w.sys.step c.base (.complete i v) with
    | some r, some sys =>
      match r.kind with
      | .init => some ⟨sys, w.sop.onInitialCompleted sys.st r.x v r.evId⟩
      | .adapt => (w.sop.onAdaptCompleted c sys.st r.x v r.evId).map fun z => ⟨sys, z⟩
    | _, _ => none
  | op => (w.sys.step c.base op).map fun sys => ⟨sys, w.sop⟩

/-- Reachable states (with snapshots and resumes at any time). (ss.py:166-191, controller.py:65-131.) -/
inductive Reach (c : Cfg d) : SopSys d → Prop
  | create (o : Oracle (Pt d)) : Reach c (SopSys.create c o)
  | step {w w' : SopSys d} (op : Strategy.Op (Pt d)) : Reach c w → w.step c op = some w' → Reach c w'
  | resume {w : SopSys d} : Reach c w → Reach c ⟨w.sys.resumed, w.sop⟩

end Verif.Sop
