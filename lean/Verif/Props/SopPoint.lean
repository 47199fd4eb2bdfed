import Verif.Props.SopUnits

/-! # Property C116: the points proposed by SOP -/

namespace Verif.Props

open Verif.Num Verif.Utils Verif.Cand Verif.Design Verif.Strategy Verif.Spec Verif.Loop Verif.Sop

variable {d : ℕ}

/-- `x` is found by a search around `xc` with the radius `radius`, in view of the points `L`: there are feasible candidates, each
of which differs from `xc` only in a nonempty set `moved` of coordinates; a moved coordinate which is not an integer variable
is the one of `xc` plus a number `z` times the radius times the length of the interval; if some candidate is at least `dtol` from
all points of `L`, then so is `x`, and no such candidate has a smaller predicted value. -/
def FoundAround (p : OptProb d) (pred : Pt d → ℝ) (dtol : ℝ) (L : List (Pt d)) (xc : Pt d) (radius : ℝ) (x : Pt d) : Prop :=
  ∃ (m : ℕ) (cand : Fin (m + 1) → Pt d) (moved : Fin (m + 1) → Finset (Fin d)) (z : Fin (m + 1) → Pt d),
    (∀ j, Feasible p (cand j)) ∧ (∀ j, (moved j).Nonempty) ∧ (∀ j, ∀ i ∉ moved j, cand j i = xc i) ∧
    (∀ j, ∀ i ∈ moved j, i ∉ p.intVar → cand j i = xc i + radius * (p.ub i - p.lb i) * z j i) ∧ (∃ j, x = cand j) ∧
    ((∃ j, Separated dtol (cand j) L) →
      Separated dtol x L ∧ ∀ j, Separated dtol (cand j) L → pred x ≤ pred (cand j))

/-- With weight 1 the merit of the candidates is in the order of the predictions. -/
theorem weightedMerit_one {m : ℕ} {pred : Pt d → ℝ} {cand : Fin (m + 1) → Pt d} {L : List (Pt d)} {i j : Fin (m + 1)}
    (h : weightedMerit pred cand L 1 i ≤ weightedMerit pred cand L 1 j) : pred (cand i) ≤ pred (cand j) := by
  simp only [weightedMerit, one_mul, sub_self, zero_mul, add_zero] at h
  by_cases hc : ∃ a b, pred (cand a) ≠ pred (cand b)
  · exact ((C37_order (fun k => pred (cand k)) hc).1 i j).mp h
  · push Not at hc
    exact (hc i j).le

/-- One candidate search of SOP: around the center `xc` with radius `sigma`. -/
theorem sopPoint_found {L : SopSetup d} (ok : ProbOk L.prob) {S : Surr d} {s : State (Pt d)} {pred : Pt d → ℝ}
    (hS : S.mean (surrData s) = some pred) {xc x : Pt d} (hc : Feasible L.prob xc) {sigma : ℚ} (hsig : 0 < sigma) {r : CandRnd d}
    (hz : ∀ j i, DrawOk L.prob xc (scalefactors L.prob ((sigma : ℚ) : ℝ) (List.finRange d)) i (r.draws j i))
    (h : sopPoint L S s xc sigma r = some x) :
    ∃ (cand : Fin (r.m + 1) → Pt d) (jj : Fin (r.m + 1)), x = cand jj ∧
      (∀ j, Feasible L.prob (cand j) ∧ ∀ i : Fin d, dycorsMask d (probOf (State.perturbProb L.base d s)) (r.u j) (r.forced j) i = false →
        cand j i = xc i) ∧
      (∀ j (i : Fin d), dycorsMask d (probOf (State.perturbProb L.base d s)) (r.u j) (r.forced j) i = true → i ∉ L.prob.intVar →
        cand j i = xc i + scalefactors L.prob ((sigma : ℚ) : ℝ) (List.finRange d) i * r.draws j i) ∧
      ((∃ j, Separated 1e-3 (cand j) (s.curX ++ s.Xpend)) → Separated 1e-3 x (s.curX ++ s.Xpend) ∧
        (∀ j, Separated 1e-3 (cand j) (s.curX ++ s.Xpend) → pred x ≤ pred (cand j)) ∧
        (∀ j < jj, Separated 1e-3 (cand j) (s.curX ++ s.Xpend) → pred x < pred (cand j))) ∧
      ((¬ ∃ j, Separated 1e-3 (cand j) (s.curX ++ s.Xpend)) → jj = 0) := by
  obtain ⟨σ, hσ⟩ : ∃ σ, σ = scalefactors L.prob ((sigma : ℚ) : ℝ) (List.finRange d) := ⟨_, rfl⟩
  have hpos : ∀ i, 0 < σ i := fun i => by rw [hσ]; exact scale_pos ok (by exact_mod_cast hsig) _ i
  unfold sopPoint at h
  cases hX : s.curX with
  | nil => rw [hX] at h; cases h
  | cons x0 xs =>
    rw [hX] at h
    simp only [hS, Option.bind_some, Option.bind_eq_some_iff] at h
    obtain ⟨l, hl, hx⟩ := h
    unfold candidateDycors at hl
    dsimp only at hl
    rw [← hσ] at hl hz ⊢
    have hrow : ∀ j, ∃ y, dycorsCand xc σ (List.finRange d)
      (dycorsMask (List.finRange d).length (probOf (State.perturbProb L.base d s)) (r.u j) (r.forced j)) (r.draws j) = some y ∧
        ∀ i : Fin d, y i = if dycorsMask d (probOf (State.perturbProb L.base d s)) (r.u j) (r.forced j) i = true then
          truncnorm (xc i) (σ i) (r.draws j i) else xc i := by
      intro j
      obtain ⟨y, h1, h2⟩ := dycorsCand_prefix xc σ (List.finRange d) (fun i h => by simp)
        (dycorsMask (List.finRange d).length (probOf (State.perturbProb L.base d s)) (r.u j) (r.forced j)) (r.draws j)
      refine ⟨y, h1, fun i => ?_⟩
      rw [h2]
      simp only [List.mem_finRange, true_and, List.length_finRange]
    choose y hy1 hy2 using hrow
    rw [dif_pos fun j => by rw [hy1 j]; rfl] at hl
    simp only [hy1, Option.get_some, Option.some.injEq] at hl
    obtain ⟨jj, h1, h2⟩ := C28_selection pred (fun i : Fin (xs.length + 1) => (x0 :: xs)[i]) s.Xpend
      (fun j => roundVars (y j) L.prob.intVar L.prob.lb L.prob.ub) [1] 1e-3 (by norm_num) 0 (by simp)
    have h3 := h2 _ rfl
    clear h2
    rw [hl] at h1 h3
    rw [← List.head?_eq_getElem?, hx, Option.some.injEq] at h1
    have hlist : List.ofFn (fun i : Fin (xs.length + 1) => (x0 :: xs)[i]) = x0 :: xs := List.ofFn_getElem (xs := x0 :: xs)
    rw [hlist, List.take_zero, List.append_nil] at h3
    refine ⟨fun j => roundVars (y j) L.prob.intVar L.prob.lb L.prob.ub, jj, h1, fun j => ?_, fun j i hm hi => ?_, fun hex => ?_, h3.2⟩
    · have hbox : InBox L.prob.lb L.prob.ub (y j) := by
        intro i
        rw [hy2]
        split
        · exact truncnorm_mem (hpos i) (hz j i)
        · exact hc.1 i
      refine ⟨roundVars_feasible ok hbox, fun i hm => ?_⟩
      have hyi : y j i = xc i := by rw [hy2, if_neg (by rw [hm]; simp)]
      show roundVars (y j) _ _ _ i = _
      rw [roundVars_of_feasible (hbox i) (fun hv => by rw [hyi]; exact hc.2 i hv), hyi]
    · show roundVars (y j) _ _ _ i = _
      rw [C38_cont _ _ _ _ _ hi, hy2, if_pos hm]; rfl
    · obtain ⟨a, b, c⟩ := h3.1 hex
      rw [h1]
      refine ⟨a, fun j hj => weightedMerit_one (b j hj), fun j hj hs => ?_⟩
      have := c j hj hs
      by_contra hn
      push Not at hn
      exact absurd this (not_lt.mpr (by
        simp only [List.getElem_cons_zero, weightedMerit, one_mul, sub_self, zero_mul, add_zero]
        by_cases hcst : ∃ a b, pred (roundVars (y a) L.prob.intVar L.prob.lb L.prob.ub) ≠ pred (roundVars (y b) L.prob.intVar L.prob.lb L.prob.ub)
        · exact ((C37_order (fun k => pred (roundVars (y k) L.prob.intVar L.prob.lb L.prob.ub)) hcst).1 j jj).mpr hn
        · push Not at hcst
          rw [C37_const _ hcst, C37_const _ hcst]))

theorem sopPoints_found {L : SopSetup d} (hd : 0 < d) (ok : ProbOk L.prob) {S : Surr d} {s : State (Pt d)} {pred : Pt d → ℝ}
    (hS : S.mean (surrData s) = some pred) {evals : List (SopRec d)} (he : ∀ rec ∈ evals, 0 < rec.sigma) (rs : List (CandRnd d))
    (hf : ∀ r ∈ rs, ∀ j, 1 < d → r.forced j < d - 1)
    {cs : List (Center d)} (hc : ∀ ce ∈ cs, Feasible L.prob ce.xc ∧ (evals[ce.index]?).map SopRec.x = some ce.xc)
    (hok : CandsOk L S s evals cs rs) {pts : List (Pt d)} (h : sopPoints L S s evals cs rs = some pts) :
    ∀ x ∈ pts, ∃ rec ∈ evals, FoundAround L.prob pred 1e-3 (s.curX ++ s.Xpend) rec.x ((rec.sigma : ℚ) : ℝ) x := by
  induction rs generalizing cs pts with
  | nil => simp only [sopPoints, Option.some.injEq] at h; subst h; simp
  | cons r rs ih =>
    simp only [sopPoints, Option.bind_eq_some_iff, Option.map_eq_some_iff] at h
    obtain ⟨ce, h1, rec, h2, y, h3, cs', h4, ys, h5, rfl⟩ := h
    obtain ⟨o1, o2, o3⟩ := hok ce rec h1 h2
    intro x hx
    rcases List.mem_cons.mp hx with rfl | hx
    · have hce := hc ce (List.mem_of_find?_eq_some h1)
      rw [h2, Option.map_some, Option.some.injEq] at hce
      refine ⟨rec, List.mem_of_getElem? h2, ?_⟩
      rw [hce.2]
      obtain ⟨cand, jj, e1, e2, e3, e4, _⟩ := sopPoint_found ok hS hce.1 (he rec (List.mem_of_getElem? h2)) o2 h3
      refine ⟨r.m, cand, fun j => Finset.univ.filter fun i : Fin d =>
        dycorsMask d (probOf (State.perturbProb L.base d s)) (r.u j) (r.forced j) i = true,
        r.draws, fun j => (e2 j).1, fun j => ?_, fun j i hi => ?_,
        fun j i hi hv => ?_, ⟨jj, e1⟩, fun hex => ⟨(e4 hex).1, (e4 hex).2.1⟩⟩
      · obtain ⟨c, hc, hm⟩ := C29_nonempty_partial d hd (probOf (State.perturbProb L.base d s)) (r.u j) (r.forced j)
          (hf r (by simp) j)
        exact ⟨⟨c, hc⟩, by simpa using hm⟩
      · exact (e2 j).2 i (by simpa using hi)
      · rw [e3 j i (by simpa using hi) hv]
        congr 2
        simp [scalefactors, hv]
    · refine ih (fun r hr => hf r (by simp [hr])) ?_ (o3 y cs' h3 h4) h5 x hx
      exact assignPoint_centers h4 (fun x i => Feasible L.prob x ∧ (evals[i]?).map SopRec.x = some x) hc

/-- Every point of a batch of SOP is found by a search around an evaluated point (one of the archive, with its radius), in view of
the evaluated points (since the last restart) and the pending ones: for every problem, surrogate, objective, all random draws
in the ranges of their distributions, and every history. -/
theorem C116_search {L : SopSetup d} (hd : 0 < d) (ok : ProbOk L.prob) (hs : L.base.srbf = none)
    (hx : ∀ e ∈ L.base.extras, Feasible L.prob e.1) {S : Surr d} {w : SopSys d} (h : SopLoopReach L w) {pred : Pt d → ℝ}
    (hS : S.mean (surrData w.sys.st) = some pred) {r : SopRnd d} (hr : SopRndOk L S w r)
    (hf : ∀ k j, 1 < d → (r.cands k).forced j < d - 1) {pts : List (Pt d)} (hp : sopAnswer L S w r = some pts) :
    ∀ x ∈ pts, ∃ rec ∈ w.sop.evals, (rec.x, rec.fx) ∈ completions w.sys.st.log ∧
      FoundAround L.prob pred 1e-3 (w.sys.st.curX ++ w.sys.st.Xpend) rec.x ((rec.sigma : ℚ) : ℝ) x := by
  have hs' : L.cfg.base.srbf = none := hs
  unfold sopAnswer at hp
  by_cases hw : wantsPoints L.base w.sys.st
  · rw [if_pos hw] at hp
    simp only [sopGen, Option.bind_eq_some_iff] at hp
    obtain ⟨z1, h1, z2, h2, hp⟩ := hp
    obtain ⟨e1, i1⟩ := firstRanks_keeps h1 (h.reach.cinv hs')
    have e2 := (updateCenterList_keeps h2).1
    have i2 := (updateCenterList_cinv h2 i1).1
    have e : z2.evals = w.sop.evals := by rw [e2, e1]
    have hall := C90_feasible ok hs hx h
    intro x hxm
    obtain ⟨rec, hrec, hfd⟩ := sopPoints_found hd ok hS (evals := z2.evals) (fun rec hm => by
        rw [(h.reach.evals_ok hs' rec (e ▸ hm)).sig]
        unfold radius0; positivity) _ (by
        intro q hq
        obtain ⟨k, _, rfl⟩ := List.mem_map.mp hq
        exact hf k) (cs := z2.centers) (fun ce hce => by
          obtain ⟨v, hv⟩ := i2.at_ ce hce
          unfold archive at hv
          rw [List.getElem?_map] at hv
          obtain ⟨rec, hrec, hv⟩ := Option.map_eq_some_iff.mp hv
          have hxc : rec.x = ce.xc := congrArg Prod.fst hv
          refine ⟨?_, by rw [hrec]; simp [hxc]⟩
          rw [← hxc]
          exact hall.2.2.2.2.2.1 rec (e ▸ List.mem_of_getElem? hrec)) (hr.2 z1 z2 h1 h2) hp x hxm
    refine ⟨rec, e ▸ hrec, ?_, hfd⟩
    rw [← (C52_archive hs' h.reach).1]
    exact List.mem_map.mpr ⟨rec, e ▸ hrec, rfl⟩
  · rw [if_neg hw] at hp
    cases hp
    simp

/-! ## Within a batch the points are not kept apart -/

/-- Synchronous SOP on the unit interval, two centers, batches of two. -/
noncomputable def pairSetup : SopSetup 1 :=
  { prob := unitProb
    base := { asynchronous := false, batchSize := 2, maxEvals := 10, useRestarts := false, numPts := 2, extras := [],
              srbf := none }
    ncenters := 2 }

/-- A surrogate whose predictions have their minimum at `t`. -/
noncomputable def valleySurr (t : ℝ) : Surr 1 := ⟨fun _ => some fun x => |x 0 - t|, fun _ => none⟩

/-- The draws with which a search around `xc` has the two candidates 1/2 and 1/4. -/
noncomputable def halfRnd (xc : Pt 1) : CandRnd 1 :=
  ⟨1, fun j _ => ((if j = 0 then 1 / 2 else 1 / 4) - xc 0) / (2 / 10), fun _ _ => 0, fun _ => 0⟩

theorem pair_scale : scalefactors pairSetup.prob (((2 / 10 : ℚ) : ℚ) : ℝ) (List.finRange 1) = fun _ => 2 / 10 := by
  funext i
  simp [scalefactors, pairSetup, unitProb]

theorem half_drawOk {xc : Pt 1} (j : Fin 2) (i : Fin 1) :
    DrawOk pairSetup.prob xc (scalefactors pairSetup.prob (((2 / 10 : ℚ) : ℚ) : ℝ) (List.finRange 1)) i ((halfRnd xc).draws j i) := by
  obtain rfl : i = 0 := Fin.ext (by omega)
  rw [pair_scale]
  simp only [DrawOk, halfRnd, pairSetup, unitProb]
  constructor
  · refine div_le_div_of_nonneg_right ?_ (by norm_num)
    split_ifs <;> norm_num
  · refine div_le_div_of_nonneg_right ?_ (by norm_num)
    split_ifs <;> norm_num

/-- With these draws the search returns the better one of the two candidates. -/
theorem half_point {s : State (Pt 1)} (hX : s.curX = [fun _ => 1, fun _ => 0]) (hP : s.Xpend = []) {xc : Pt 1}
    (hc : Feasible unitProb xc) {t : ℝ} (ht : t = 1 / 2 ∨ t = 1 / 4) :
    sopPoint pairSetup (valleySurr t) s xc (2 / 10) (halfRnd xc) = some fun _ => t := by
  have hS : (valleySurr t).mean (surrData s) = some fun x => |x 0 - t| := rfl
  obtain ⟨x, hx⟩ := sopPoint_isSome (L := pairSetup) (by rw [hX]; simp) hS xc (2 / 10) (halfRnd xc)
  obtain ⟨cand, jj, e1, _, e3, e4, _⟩ := sopPoint_found (L := pairSetup) unitProb_ok hS hc (by norm_num) half_drawOk hx
  rw [hX, hP, List.append_nil] at e4
  have hcand : ∀ j : Fin 2, cand j = fun _ => if j = 0 then 1 / 2 else 1 / 4 := by
    intro j
    funext i
    obtain rfl : i = 0 := Fin.ext (by omega)
    rw [e3 j 0 (by simp [dycorsMask]) (by simp [pairSetup, unitProb]), pair_scale]
    simp only [halfRnd]
    ring
  have hsep : ∀ j : Fin 2, Separated 1e-3 (cand j) [fun _ => 1, fun _ => 0] := by
    intro j y hy
    rw [hcand j]
    simp only [List.mem_cons, List.not_mem_nil, or_false] at hy
    have hE : ∀ a b : ℝ, eucl (fun _ : Fin 1 => a) (fun _ => b) = |a - b| := by
      intro a b
      simp [eucl, Real.sqrt_sq_eq_abs]
    rcases hy with rfl | rfl
    · rw [hE]; split_ifs <;> norm_num [abs_of_nonneg, abs_of_nonpos]
    · rw [hE]; split_ifs <;> norm_num [abs_of_nonneg, abs_of_nonpos]
  obtain ⟨_, hmin, _⟩ := e4 ⟨0, hsep 0⟩
  rw [hx]
  have h0 : |x 0 - t| ≤ 0 := by
    rcases ht with rfl | rfl
    · have hv : cand (0 : Fin 2) 0 = 1 / 2 := by rw [hcand]; simp
      have := hmin (0 : Fin 2) (hsep 0)
      rw [hv] at this
      simpa using this
    · have hv : cand (1 : Fin 2) 0 = 1 / 4 := by rw [hcand]; simp
      have := hmin (1 : Fin 2) (hsep 1)
      rw [hv] at this
      simpa using this
  have h1 : x 0 = t := sub_eq_zero.mp (abs_nonpos_iff.mp h0)
  rw [Option.some.injEq]
  funext i
  obtain rfl : i = 0 := Fin.ext (by omega)
  exact h1

/-- The design is evaluated. -/
theorem pair_warm : ∃ w : SopSys 1, SopLoopReach pairSetup w ∧
    w.sop = ⟨[SopRec.new (fun _ => 1) 0, SopRec.new (fun _ => 0) 1], [], none⟩ ∧ w.sys.st.batchQueue = [] ∧
    w.sys.st.pendingEvals = 0 ∧ w.sys.st.numEvals = 2 ∧ w.sys.st.terminate = false ∧
    w.sys.st.converged = false ∧ w.sys.st.curX = [fun _ => 1, fun _ => 0] ∧ w.sys.st.Xpend = [] := by
  have hD : DesignOf pairSetup.prob pairSetup.base.numPts [fun _ => 0, fun _ => 1] := design_unit unitProb rfl rfl
  have c0 : SopLoopReach pairSetup _ := .create _ hD
  have c1 := SopLoopReach.propose _ [] c0 hD (fun h => by cases h.2.2.2.1) (fun _ => rfl) rfl
  have c2 := SopLoopReach.propose _ [] c1 hD (fun h => by cases h.2.2.2.1) (fun _ => rfl) rfl
  have c3 := SopLoopReach.other (.accept 0) c2 (by simp) rfl
  have c4 := SopLoopReach.other (.accept 0) c3 (by simp) rfl
  have c5 := SopLoopReach.other (.complete 0 0) c4 (by simp) rfl
  have c6 := SopLoopReach.other (.complete 0 1) c5 (by simp) rfl
  refine ⟨_, c6, rfl, rfl, rfl, rfl, rfl, rfl, rfl, ?_⟩
  have hle := (C05_xpend_partial c6.reach.base).1
  refine List.eq_nil_iff_forall_not_mem.mpr fun x hx => ?_
  have h1 := List.count_pos_iff.mpr hx
  exact absurd (lt_of_lt_of_le h1 (hle x)) (lt_irrefl 0)

/-- Full statement: a point of a batch is also kept apart from the other points of the batch, if some candidate is.  False: after
a design of two points SOP generates the batch 1/2, 1/2, although every search has a candidate (1/4) that is far from all
evaluated and pending points and from 1/2 — with another surrogate and the same draws it is returned. -/
theorem C116_batch_refuted : ∃ (w w' : SopSys 1) (r : SopRnd 1), SopLoopReach pairSetup w ∧
    SopRndOk pairSetup (valleySurr (1 / 2)) w r ∧
    sopLoopStep pairSetup (valleySurr (1 / 2)) (fun _ => 0) w (.propose r) = some w' ∧
    sopAnswer pairSetup (valleySurr (1 / 2)) w r = some [fun _ => 1 / 2, fun _ => 1 / 2] ∧
    lastBatch w'.sys.st.log = [fun _ => 1 / 2, fun _ => 1 / 2] ∧
    sopAnswer pairSetup (valleySurr (1 / 4)) w r = some [fun _ => 1 / 4, fun _ => 1 / 4] ∧
    Separated 1e-3 (fun _ => 1 / 4) ((fun _ => 1 / 2) :: (w.sys.st.curX ++ w.sys.st.Xpend)) := by
  have hs : pairSetup.cfg.base.srbf = none := rfl
  obtain ⟨w, hw, hsop, hq, hpend, hnum, ht, hcv, hX, hXp⟩ := pair_warm
  have hrr := hw.reach
  have hD : DesignOf pairSetup.prob pairSetup.base.numPts [fun _ => 0, fun _ => 1] := design_unit unitProb rfl rfl
  have hg : Going pairSetup.cfg.base w.sys.st := ⟨ht, by rw [hnum, hpend]; norm_num [SopSetup.cfg, pairSetup]⟩
  obtain ⟨z, hz⟩ := generate_isSome (c := pairSetup.cfg) (z := w.sop) (n := w.sys.st.numEvals.toNat)
    (pts := [fun _ => 1 / 2] ++ [fun _ => 1 / 2]) (hrr.cinv hs)
    (by rw [hsop, hnum]; rfl)
    (by
      rw [hsop]
      refine ⟨SopRec.new (fun _ => 1) 0, by simp, SopRec.new (fun _ => 0) 1, by simp, ?_⟩
      simp only [SopRec.new]
      intro he
      have := congrFun he 0
      simp [toUnitBox, SopSetup.cfg, pairSetup, unitProb] at this)
    (by rw [hsop]; simp) (by simp [SopSetup.cfg, pairSetup]) (by rw [hsop]; simp [busyPts, SopSetup.cfg, pairSetup])
  obtain ⟨z1, z2, h1, h2⟩ := generate_first hz
  obtain ⟨e1, i1⟩ := firstRanks_keeps h1 (hrr.cinv hs)
  have e2 := (updateCenterList_keeps h2).1
  have hev : z2.evals = [SopRec.new (fun _ => 1) 0, SopRec.new (fun _ => 0) 1] := by rw [e2, e1, hsop]
  have hc1 : z1.centers = [] := by
    have h1' := h1
    unfold Sop.firstRanks at h1'
    rw [hsop] at h1'
    simp only at h1'
    obtain ⟨_, _, _, rfl⟩ := updateRanks_spec h1'; rfl
  obtain ⟨_, _, _, _, _, _, _, _, new, hc, hnew, hl, _⟩ := updateCenterList_spec h2
  rw [hc1] at hc hl
  simp only [List.filter_nil, List.nil_append, List.length_nil] at hc hl
  rw [← e2, hev] at hnew
  have hl2 : new.length = 2 := hl
  obtain ⟨a, b, rfl⟩ := List.length_eq_two.mp hl2
  have key : ∀ ce ∈ [a, b], ∃ r : SopRec 1,
      ([SopRec.new (fun _ => 1) 0, SopRec.new (fun _ => 0) 1] : List (SopRec 1))[ce.index]? = some r ∧
      r.sigma = 2 / 10 ∧ Feasible unitProb ce.xc := by
    intro ce hce
    obtain ⟨r, hr1, hr2⟩ := Option.map_eq_some_iff.mp (hnew ce hce).1
    refine ⟨r, hr1, ?_⟩
    have hm := List.mem_of_getElem? hr1
    simp only [List.mem_cons, List.not_mem_nil, or_false] at hm
    rw [← hr2]
    rcases hm with rfl | rfl
    · exact ⟨rfl, fun i => by simp [unitProb, SopRec.new], fun i hi => by simp [unitProb] at hi⟩
    · exact ⟨rfl, fun i => by simp [unitProb, SopRec.new], fun i hi => by simp [unitProb] at hi⟩
  obtain ⟨ra, ha1, ha2, ha3⟩ := key a (by simp)
  obtain ⟨rb, hb1, hb2, hb3⟩ := key b (by simp)
  have na := (hnew a (by simp)).2.1
  have nb := (hnew b (by simp)).2.1
  have hans : ∀ t : ℝ, (t = 1 / 2 ∨ t = 1 / 4) → sopAnswer pairSetup (valleySurr t) w
      ⟨[fun _ => 0, fun _ => 1], fun k => halfRnd (if k = 0 then a.xc else b.xc)⟩ = some [fun _ => t, fun _ => t] := by
    intro t htt
    unfold sopAnswer
    rw [if_pos ⟨ht, hg.2, hcv, hq, .inr hpend⟩]
    unfold sopGen
    rw [h1]
    simp only [Option.bind_some]
    rw [h2]
    simp only [Option.bind_some]
    rw [hev, hc, show wanted pairSetup.base = 2 from rfl]
    have pa := half_point hX hXp ha3 htt
    have pb := half_point hX hXp hb3 htt
    simp only [List.range_succ, List.range_zero, List.nil_append, List.cons_append, List.map_cons, List.map_nil, if_true,
      one_ne_zero, if_false, sopPoints, List.find?_cons, na, Option.isNone_none, Option.bind_some, ha1, ha2, pa, assignPoint, nb,
      Option.isNone_some, hb1, hb2, pb, Option.map_some]
  have hstep := step_propose_gen hs w hcv (sopOracle pairSetup [fun _ => 0, fun _ => 1] [fun _ => 1 / 2, fun _ => 1 / 2]) hg hq
    (.inr hpend) (fun _ => 1 / 2) [fun _ => 1 / 2] rfl
  rw [hz, Option.map_some] at hstep
  obtain ⟨w', hstep, hlast⟩ : ∃ w', w.step pairSetup.cfg
      (.propose (sopOracle pairSetup [fun _ => 0, fun _ => 1] [fun _ => 1 / 2, fun _ => 1 / 2])) = some w' ∧
      lastBatch w'.sys.st.log = [fun _ => 1 / 2, fun _ => 1 / 2] :=
    ⟨_, hstep, by simp [proposeLast, genState, State.note, State.makeProposal, lastBatch]⟩
  have hsig : ∀ {ce : Center 1} {rec : SopRec 1}, z2.evals[ce.index]? = some rec → rec.sigma = 2 / 10 := by
    intro ce rec hr
    rw [hev] at hr
    have hm := List.mem_of_getElem? hr
    simp only [List.mem_cons, List.not_mem_nil, or_false] at hm
    rcases hm with rfl | rfl <;> rfl
  refine ⟨w, w', ⟨[fun _ => 0, fun _ => 1], fun k => halfRnd (if k = 0 then a.xc else b.xc)⟩, hw, ⟨hD, ?_⟩, ?_, hans _ (.inl rfl), hlast,
    hans _ (.inr rfl), ?_⟩
  · intro y1 y2 hy1 hy2
    rw [h1, Option.some.injEq] at hy1
    subst hy1
    rw [h2, Option.some.injEq] at hy2
    subst hy2
    rw [hc, show wanted pairSetup.base = 2 from rfl]
    simp only [List.range_succ, List.range_zero, List.nil_append, List.cons_append, List.map_cons, List.map_nil, if_true,
      one_ne_zero, if_false]
    intro ce rec hf hr
    simp only [List.find?_cons, na, Option.isNone_none, Option.some.injEq] at hf
    subst hf
    rw [hsig hr]
    refine ⟨fun _ _ => by simp [halfRnd], fun j i => half_drawOk j i, fun x cs' hx hcs => ?_⟩
    simp only [assignPoint, na, Option.some.injEq] at hcs
    subst hcs
    intro ce rec hf hr
    simp only [List.find?_cons, nb, Option.isNone_none, Option.isNone_some, Option.some.injEq] at hf
    subst hf
    rw [hsig hr]
    exact ⟨fun _ _ => by simp [halfRnd], fun j i => half_drawOk j i, fun _ _ _ _ => trivial⟩
  · simp only [sopLoopStep, hans _ (.inl rfl), Option.bind_some]
    exact hstep
  · rw [hX, hXp]
    intro y hy
    have hE : ∀ a b : ℝ, eucl (fun _ : Fin 1 => a) (fun _ => b) = |a - b| := by
      intro a b
      simp [eucl, Real.sqrt_sq_eq_abs]
    simp only [List.append_nil, List.mem_cons, List.not_mem_nil, or_false] at hy
    rcases hy with rfl | rfl | rfl <;> rw [hE] <;> norm_num [abs_of_nonneg, abs_of_nonpos]

/-- The hypotheses of `C116_search` are met by this call. -/
example : 0 < 1 ∧ ProbOk pairSetup.prob ∧ pairSetup.base.srbf = none ∧ (∀ e ∈ pairSetup.base.extras, Feasible pairSetup.prob e.1) ∧
    ∃ (w : SopSys 1) (r : SopRnd 1) (pts : List (Pt 1)), SopLoopReach pairSetup w ∧ SopRndOk pairSetup (valleySurr (1 / 2)) w r ∧
      (∀ k j, 1 < 1 → (r.cands k).forced j < 1 - 1) ∧ sopAnswer pairSetup (valleySurr (1 / 2)) w r = some pts ∧ pts.length = 2 := by
  obtain ⟨w, _, r, h1, h2, _, h3, _⟩ := C116_batch_refuted
  exact ⟨one_pos, unitProb_ok, rfl, by simp [pairSetup], w, r, _, h1, h2, fun _ _ h => absurd h (lt_irrefl 1), h3, rfl⟩

end Verif.Props
