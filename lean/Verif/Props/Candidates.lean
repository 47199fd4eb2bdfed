import Verif.Cand.CandProofs

/-! # Properties C26–C29: candidate methods -/

namespace Verif.Props

open Verif.Num Verif.Spec Verif.Utils Verif.Cand

variable {d m n : ℕ}

/-! ## C28: selection by the weighted distance merit -/

/-- One point is selected for each weight, and it is a candidate. -/
theorem C28_candidates (pred : Pt d → ℝ) (X : Fin (n + 1) → Pt d) (Xpend : List (Pt d)) (cand : Fin (m + 1) → Pt d)
    (ws : List ℝ) (dtol : ℝ) :
    (weightedDistanceMerit pred X Xpend cand ws dtol).length = ws.length ∧
    ∀ x ∈ weightedDistanceMerit pred X Xpend cand ws dtol, ∃ j, x = cand j := by
  refine ⟨by simp [weightedDistanceMerit, wdmIdx, wdmLoop_length], ?_⟩
  intro x hx
  obtain ⟨j, _, rfl⟩ := List.mem_map.mp hx
  exact ⟨j, rfl⟩

/-- The `i`-th selected point, where `L` are the evaluated, pending and previously selected points: if some candidate is at
distance at least `dtol` from all of `L`, so is the selected one, and it has the smallest weighted merit of all such
candidates (ties: the first one).  If there is none, the first candidate is taken whatever its distance. -/
theorem C28_selection (pred : Pt d → ℝ) (X : Fin (n + 1) → Pt d) (Xpend : List (Pt d)) (cand : Fin (m + 1) → Pt d)
    (ws : List ℝ) (dtol : ℝ) (hd : 0 < dtol) (i : ℕ) (hi : i < ws.length) :
    ∃ jj, (weightedDistanceMerit pred X Xpend cand ws dtol)[i]? = some (cand jj) ∧
      ∀ L, L = List.ofFn X ++ Xpend ++ (weightedDistanceMerit pred X Xpend cand ws dtol).take i →
        ((∃ j, Separated dtol (cand j) L) →
          Separated dtol (cand jj) L ∧
          (∀ j, Separated dtol (cand j) L → weightedMerit pred cand L ws[i] jj ≤ weightedMerit pred cand L ws[i] j) ∧
          (∀ j < jj, Separated dtol (cand j) L → weightedMerit pred cand L ws[i] jj < weightedMerit pred cand L ws[i] j)) ∧
        ((¬ ∃ j, Separated dtol (cand j) L) → jj = 0) := by
  have hidx : wdmIdx pred X Xpend cand ws dtol = wdmLoop cand dtol ws
      (fun j => .fin (unitRescale (fun k => pred (cand k)) j)) (fun j => nearestDist (cand j) (List.ofFn X ++ Xpend)) := by
    unfold wdmIdx
    congr 1
    funext j
    rw [minDist_eq, List.ofFn_succ, List.cons_append]
  have hlen : i < (wdmIdx pred X Xpend cand ws dtol).length := by rw [hidx, wdmLoop_length]; exact hi
  refine ⟨(wdmIdx pred X Xpend cand ws dtol)[i], ?_, ?_⟩
  · simp [weightedDistanceMerit, hlen]
  · rintro L rfl
    have h := wdmLoop_spec pred cand hd ws (fun j => .fin (unitRescale (fun k => pred (cand k)) j))
      (List.ofFn X ++ Xpend) (by simp [List.ofFn_succ]) (fun _ _ => rfl) i hi ((wdmIdx pred X Xpend cand ws dtol)[i])
      (by rw [← hidx]; simp [hlen])
    rw [← hidx, List.map_take] at h
    exact ⟨h.best, h.fallback⟩

/-- Consequence: as long as there are separated candidates at every selection, the returned points are at distance at
least `dtol` from all evaluated and pending points and from each other. -/
theorem C28_separated (pred : Pt d → ℝ) (X : Fin (n + 1) → Pt d) (Xpend : List (Pt d)) (cand : Fin (m + 1) → Pt d)
    (ws : List ℝ) (dtol : ℝ) (hd : 0 < dtol)
    (hex : ∀ i < ws.length, ∃ j, Separated dtol (cand j)
      (List.ofFn X ++ Xpend ++ (weightedDistanceMerit pred X Xpend cand ws dtol).take i)) :
    (∀ x ∈ weightedDistanceMerit pred X Xpend cand ws dtol, Separated dtol x (List.ofFn X ++ Xpend)) ∧
    (weightedDistanceMerit pred X Xpend cand ws dtol).Pairwise fun x y => dtol ≤ eucl x y := by
  have hl := (C28_candidates pred X Xpend cand ws dtol).1
  have key : ∀ i (hi : i < (weightedDistanceMerit pred X Xpend cand ws dtol).length),
      Separated dtol ((weightedDistanceMerit pred X Xpend cand ws dtol)[i])
        (List.ofFn X ++ Xpend ++ (weightedDistanceMerit pred X Xpend cand ws dtol).take i) := by
    intro i hi
    obtain ⟨jj, h1, h2⟩ := C28_selection pred X Xpend cand ws dtol hd i (hl ▸ hi)
    have h3 := ((h2 _ rfl).1 (hex i (hl ▸ hi))).1
    rw [List.getElem?_eq_getElem hi, Option.some.injEq] at h1
    rw [h1]; exact h3
  constructor
  · intro x hx
    obtain ⟨i, hi, rfl⟩ := List.getElem_of_mem hx
    exact fun y hy => key i hi y (List.mem_append_left _ hy)
  · rw [List.pairwise_iff_getElem]
    intro i j hi hj hij
    rw [eucl_comm]
    refine key j hj _ (List.mem_append_right _ ?_)
    rw [List.mem_take_iff_getElem]
    exact ⟨i, by omega, rfl⟩

/-- The condition is needed: with a single candidate that is already evaluated, it is proposed again. -/
theorem C28_fallback_witness : weightedDistanceMerit (fun _ => 0) (fun _ : Fin 1 => (![0.5] : Pt 1)) []
    (fun _ : Fin 1 => (![0.5] : Pt 1)) [0.3] 0.001 = [![0.5]] := by
  obtain ⟨jj, h1, _⟩ := C28_selection (fun _ => 0) (fun _ : Fin 1 => (![0.5] : Pt 1)) []
    (fun _ : Fin 1 => (![0.5] : Pt 1)) [0.3] 0.001 (by norm_num) 0 (by simp)
  have hl := (C28_candidates (fun _ => 0) (fun _ : Fin 1 => (![0.5] : Pt 1)) []
    (fun _ : Fin 1 => (![0.5] : Pt 1)) [0.3] 0.001).1
  obtain ⟨a, ha⟩ := List.length_eq_one_iff.mp hl
  rw [ha] at h1 ⊢
  simpa using h1

/-- The hypothesis of `C28_separated` is met: one candidate far away. -/
example : ∃ j, Separated 0.001 ((fun _ : Fin 1 => (![0.5] : Pt 1)) j) (List.ofFn (fun _ : Fin 1 => (![0] : Pt 1)) ++ [] ++
    (weightedDistanceMerit (fun _ => 0) (fun _ : Fin 1 => (![0] : Pt 1)) [] (fun _ : Fin 1 => (![0.5] : Pt 1)) [0.3] 0.001).take 0) := by
  refine ⟨0, ?_⟩
  intro y hy
  have : y = ![0] := by simpa using hy
  subst this
  simp only [eucl, Fin.sum_univ_one]
  rw [Real.sqrt_sq_eq_abs]
  norm_num [abs_of_pos]

/-! ## C26: bounds and integrality -/

/-- What is assumed of the problem: lower bounds below upper bounds, integer bounds for integer variables. -/
structure ProbOk (p : OptProb d) : Prop where
  lt : ∀ i, p.lb i < p.ub i
  lbInt : IntegerOn p.intVar p.lb
  ubInt : IntegerOn p.intVar p.ub

/-- A point that may be evaluated. -/
def Feasible (p : OptProb d) (x : Pt d) : Prop := InBox p.lb p.ub x ∧ IntegerOn p.intVar x

theorem roundVars_feasible {p : OptProb d} (ok : ProbOk p) {x : Pt d} (hx : InBox p.lb p.ub x) :
    Feasible p (roundVars x p.intVar p.lb p.ub) := by
  obtain ⟨h1, h2, _⟩ := C38_box_idempotent x p.lb p.ub p.intVar (fun i => (ok.lt i).le) ok.lbInt ok.ubInt
  exact ⟨h2 hx, h1⟩

theorem roundVars_of_feasible {p : OptProb d} {x : Pt d} {i : Fin d} (hb : p.lb i ≤ x i ∧ x i ≤ p.ub i)
    (hz : i ∈ p.intVar → ∃ z : ℤ, x i = z) : roundVars x p.intVar p.lb p.ub i = x i := by
  by_cases hi : i ∈ p.intVar
  · obtain ⟨z, hz⟩ := hz hi
    rw [roundVars_apply, if_pos hi, hz, rint_intCast, ← hz, clip, max_eq_left hb.1, min_eq_left hb.2]
  · exact C38_cont _ _ _ _ _ hi

theorem scale_pos {p : OptProb d} (ok : ProbOk p) {r : ℝ} (hr : 0 < r) (subset : List (Fin d)) (i : Fin d) :
    0 < scalefactors p r subset i := by
  have := mul_pos hr (sub_pos.mpr (ok.lt i))
  unfold scalefactors
  split
  · exact lt_of_lt_of_le this (le_max_left _ _)
  · exact this

theorem truncnorm_mem {p : OptProb d} {xbest σ : Pt d} {i : Fin d} (hσ : 0 < σ i) {z : ℝ} (hz : DrawOk p xbest σ i z) :
    p.lb i ≤ truncnorm (xbest i) (σ i) z ∧ truncnorm (xbest i) (σ i) z ≤ p.ub i := by
  obtain ⟨h1, h2⟩ := hz
  rw [div_le_iff₀ hσ] at h1
  rw [le_div_iff₀ hσ] at h2
  unfold truncnorm
  constructor <;> linarith

theorem xbestOf_mem (X : Fin (n + 1) → Pt d) (fX : Fin (n + 1) → ℝ) {Q : Pt d → Prop} (h : ∀ k, Q (X k)) :
    Q (xbestOf X fX) := h _

/-- SRBF: with feasible evaluated points every returned point is feasible, for every subset, surrogate, weights and
draws.  With the default subset the evaluated points may be anything. -/
theorem C26_srbf (p : OptProb d) (ok : ProbOk p) (pred : Pt d → ℝ) (X : Fin (n + 1) → Pt d) (fX : Fin (n + 1) → ℝ)
    (ws : List ℝ) (Xpend : List (Pt d)) (radius : ℝ) (hr : 0 < radius) (subset : List (Fin d)) (dtol : ℝ)
    (hX : (∀ k, Feasible p (X k)) ∨ ∀ i, i ∈ subset) (z : Fin (m + 1) → Pt d)
    (hz : ∀ j, ∀ i ∈ subset, DrawOk p (xbestOf X fX) (scalefactors p radius subset) i (z j i)) :
    ∀ x ∈ candidateSrbf p pred X fX ws Xpend radius subset dtol z, Feasible p x := by
  intro x hx
  obtain ⟨j, rfl⟩ := (C28_candidates _ _ _ _ _ _).2 x hx
  refine roundVars_feasible ok fun i => ?_
  unfold srbfCand
  split
  · rename_i hi; exact truncnorm_mem (scale_pos ok hr subset i) (hz j i hi)
  · rename_i hi
    rcases hX with hX | hX
    · exact (xbestOf_mem X fX hX).1 i
    · exact absurd (hX i) hi

/-- Uniform candidates. -/
theorem C26_uniform (p : OptProb d) (ok : ProbOk p) (pred : Pt d → ℝ) (X : Fin (n + 1) → Pt d) (fX : Fin (n + 1) → ℝ)
    (ws : List ℝ) (Xpend : List (Pt d)) (subset : List (Fin d)) (dtol : ℝ)
    (hX : (∀ k, Feasible p (X k)) ∨ ∀ i, i ∈ subset) (u : Fin (m + 1) → Pt d) (hu : ∀ j, InBox p.lb p.ub (u j)) :
    ∀ x ∈ candidateUniform p pred X fX ws Xpend subset dtol u, Feasible p x := by
  intro x hx
  obtain ⟨j, rfl⟩ := (C28_candidates _ _ _ _ _ _).2 x hx
  refine roundVars_feasible ok fun i => ?_
  unfold uniformCand
  split
  · exact hu j i
  · rename_i hi
    rcases hX with hX | hX
    · exact (xbestOf_mem X fX hX).1 i
    · exact absurd (hX i) hi

/-- The loop of DYCORS for the subset `0, …, k-1` (any order-preserving prefix, in particular the default). -/
theorem dycorsLoop_prefix (xbest σ : Pt d) (subset : List (Fin d)) (hs : ∀ i (h : i < subset.length), (subset[i] : ℕ) = i)
    (mask : ℕ → Bool) (z : Pt d) (l : List (Fin d)) (hl : ∀ i ∈ l, i ∈ subset) (x : Pt d) :
    ∃ y, dycorsLoop xbest σ subset mask z l x = some y ∧
      ∀ i, y i = if i ∈ l ∧ mask i = true then truncnorm (xbest i) (σ i) (z i) else x i := by
  induction l generalizing x with
  | nil => exact ⟨x, rfl, by simp⟩
  | cons a l ih =>
    have ha : a.val < subset.length := by
      obtain ⟨k, hk, he⟩ := List.getElem_of_mem (hl a (by simp))
      have := hs k hk
      rw [he] at this; omega
    have hga : subset[a.val]? = some a := by
      rw [List.getElem?_eq_getElem ha, Option.some.injEq]
      exact Fin.ext (hs a.val ha)
    obtain ⟨y, h1, h2⟩ := ih (fun i hi => hl i (by simp [hi]))
      (if mask a.val then Function.update x a (truncnorm (xbest a) (σ a) (z a)) else x)
    refine ⟨y, by simp only [dycorsLoop, ha, if_true, hga]; exact h1, fun i => ?_⟩
    rw [h2]
    by_cases hia : i = a
    · subst hia
      by_cases hm : mask i.val = true <;> simp [hm]
    · by_cases hm : mask a.val = true <;> simp [hia, hm]

theorem dycorsCand_prefix (xbest σ : Pt d) (subset : List (Fin d)) (hs : ∀ i (h : i < subset.length), (subset[i] : ℕ) = i)
    (mask : ℕ → Bool) (z : Pt d) : ∃ y, dycorsCand xbest σ subset mask z = some y ∧
      ∀ i, y i = if i ∈ subset ∧ mask i = true then truncnorm (xbest i) (σ i) (z i) else xbest i :=
  dycorsLoop_prefix xbest σ subset hs mask z subset (fun _ h => h) xbest

/-- DYCORS around a feasible point with a subset of the form `0, …, k-1` (the default is all coordinates): the call
succeeds and every returned point is feasible; coordinates outside the subset are those of the given point. -/
theorem dycors_prefix (p : OptProb d) (ok : ProbOk p) (pred : Pt d → ℝ) (X : Fin (n + 1) → Pt d)
    (ws : List ℝ) (prob : ℝ) (Xpend : List (Pt d)) (radius : ℝ) (hr : 0 < radius) (subset : List (Fin d)) (dtol : ℝ)
    (hs : ∀ i (h : i < subset.length), (subset[i] : ℕ) = i)
    (xbest : Pt d) (hX : Feasible p xbest) (u : Fin (m + 1) → ℕ → ℝ) (forced : Fin (m + 1) → ℕ) (z : Fin (m + 1) → Pt d)
    (hz : ∀ j, ∀ i ∈ subset, DrawOk p xbest (scalefactors p radius subset) i (z j i)) :
    ∃ res, candidateDycors p pred X ws prob Xpend radius subset dtol xbest u forced z = some res ∧
      res.length = ws.length ∧ (∀ x ∈ res, Feasible p x ∧ ∀ i ∉ subset, x i = xbest i) := by
  have hrow : ∀ j, ∃ y, dycorsCand xbest (scalefactors p radius subset) subset
      (dycorsMask subset.length prob (u j) (forced j)) (z j) = some y ∧ InBox p.lb p.ub y ∧ ∀ i ∉ subset, y i = xbest i := by
    intro j
    obtain ⟨y, h1, h2⟩ := dycorsCand_prefix xbest (scalefactors p radius subset) subset hs
      (dycorsMask subset.length prob (u j) (forced j)) (z j)
    refine ⟨y, h1, fun i => ?_, fun i hi => ?_⟩
    · rw [h2]
      split
      · rename_i hi; exact truncnorm_mem (scale_pos ok hr subset i) (hz j i hi.1)
      · exact hX.1 i
    · rw [h2, if_neg (fun h => hi h.1)]
  have hall : ∀ j, (dycorsCand xbest (scalefactors p radius subset) subset
      (dycorsMask subset.length prob (u j) (forced j)) (z j)).isSome := by
    intro j; obtain ⟨y, h, _⟩ := hrow j; simp [h]
  refine ⟨_, by simp only [candidateDycors, hall, implies_true, dif_pos]; rfl, ?_, ?_⟩
  · exact (C28_candidates _ _ _ _ _ _).1
  · intro x hx
    obtain ⟨j, rfl⟩ := (C28_candidates _ _ _ _ _ _).2 x hx
    obtain ⟨y, h, hy, hy2⟩ := hrow j
    simp only [h, Option.get_some]
    refine ⟨roundVars_feasible ok hy, fun i hi => ?_⟩
    rw [roundVars_of_feasible (hy i) (fun hv => by rw [hy2 i hi]; exact hX.2 i hv)]
    exact hy2 i hi

/-- DYCORS with the default subset. -/
theorem C26_dycors (p : OptProb d) (ok : ProbOk p) (pred : Pt d → ℝ) (X : Fin (n + 1) → Pt d)
    (ws : List ℝ) (prob : ℝ) (Xpend : List (Pt d)) (radius : ℝ) (hr : 0 < radius) (dtol : ℝ)
    (xbest : Pt d) (hX : Feasible p xbest) (u : Fin (m + 1) → ℕ → ℝ) (forced : Fin (m + 1) → ℕ) (z : Fin (m + 1) → Pt d)
    (hz : ∀ j i, DrawOk p xbest (scalefactors p radius (List.finRange d)) i (z j i)) :
    ∃ res, candidateDycors p pred X ws prob Xpend radius (List.finRange d) dtol xbest u forced z = some res ∧
      res.length = ws.length ∧ ∀ x ∈ res, Feasible p x := by
  obtain ⟨res, h1, h2, h3⟩ := dycors_prefix p ok pred X ws prob Xpend radius hr (List.finRange d) dtol
    (fun i h => by simp) xbest hX u forced z (fun j i _ => hz j i)
  exact ⟨res, h1, h2, fun x hx => (h3 x hx).1⟩

/-- A problem, a feasible best point and draws that meet the hypotheses. -/
noncomputable def demoProb : OptProb 2 := { lb := ![0, -1], ub := ![3, 1], intVar := [0] }

theorem demoProb_ok : ProbOk demoProb := by
  refine ⟨fun i => ?_, fun i hi => ?_, fun i hi => ?_⟩
  · fin_cases i <;> norm_num [demoProb]
  · have : i = 0 := by simpa [demoProb] using hi
    subst this; exact ⟨0, by simp [demoProb]⟩
  · have : i = 0 := by simpa [demoProb] using hi
    subst this; exact ⟨3, by simp [demoProb]⟩

theorem demo_feasible : Feasible demoProb ![2, 0.5] := by
  refine ⟨fun i => ?_, fun i hi => ?_⟩
  · fin_cases i <;> norm_num [demoProb]
  · have : i = 0 := by simpa [demoProb] using hi
    subst this; exact ⟨2, by simp⟩

example : ∀ i, DrawOk demoProb ![2, 0.5] (scalefactors demoProb 0.2 (List.finRange 2)) i (![-0.5, 1] i : ℝ) := by
  intro i; fin_cases i
  · norm_num [DrawOk, demoProb, scalefactors]
  · norm_num [DrawOk, demoProb, scalefactors]

/-! ## C27: the subset argument -/

/-- SRBF and uniform candidates differ from the best point only in the listed coordinates (and are feasible by `C26`). -/
theorem C27_srbf_uniform_partial (p : OptProb d) (pred : Pt d → ℝ) (X : Fin (n + 1) → Pt d)
    (fX : Fin (n + 1) → ℝ) (hX : ∀ k, Feasible p (X k)) (ws : List ℝ) (Xpend : List (Pt d)) (radius : ℝ)
    (subset : List (Fin d)) (dtol : ℝ) (z u : Fin (m + 1) → Pt d) (i : Fin d) (hi : i ∉ subset) :
    (∀ x ∈ candidateSrbf p pred X fX ws Xpend radius subset dtol z, x i = X (argmin fX) i) ∧
    (∀ x ∈ candidateUniform p pred X fX ws Xpend subset dtol u, x i = X (argmin fX) i) := by
  have hbest := hX (argmin fX)
  constructor
  · intro x hx
    obtain ⟨j, rfl⟩ := (C28_candidates _ _ _ _ _ _).2 x hx
    have : srbfCand (xbestOf X fX) (scalefactors p radius subset) subset (z j) i = X (argmin fX) i := by
      simp [srbfCand, hi, xbestOf]
    rw [roundVars_of_feasible (by rw [this]; exact hbest.1 i) (fun hv => by rw [this]; exact hbest.2 i hv), this]
  · intro x hx
    obtain ⟨j, rfl⟩ := (C28_candidates _ _ _ _ _ _).2 x hx
    have : uniformCand (xbestOf X fX) subset (u j) i = X (argmin fX) i := by
      simp [uniformCand, hi, xbestOf]
    rw [roundVars_of_feasible (by rw [this]; exact hbest.1 i) (fun hv => by rw [this]; exact hbest.2 i hv), this]

/-- DYCORS respects subsets of the form `0, …, k-1`. -/
theorem C27_dycors_partial (p : OptProb d) (ok : ProbOk p) (pred : Pt d → ℝ) (X : Fin (n + 1) → Pt d)
    (ws : List ℝ) (prob : ℝ) (Xpend : List (Pt d)) (radius : ℝ) (hr : 0 < radius) (subset : List (Fin d)) (dtol : ℝ)
    (hs : ∀ i (h : i < subset.length), (subset[i] : ℕ) = i)
    (xbest : Pt d) (hX : Feasible p xbest) (u : Fin (m + 1) → ℕ → ℝ) (forced : Fin (m + 1) → ℕ) (z : Fin (m + 1) → Pt d)
    (hz : ∀ j, ∀ i ∈ subset, DrawOk p xbest (scalefactors p radius subset) i (z j i)) :
    ∃ res, candidateDycors p pred X ws prob Xpend radius subset dtol xbest u forced z = some res ∧
      ∀ x ∈ res, Feasible p x ∧ ∀ i ∉ subset, x i = xbest i := by
  obtain ⟨res, h1, _, h3⟩ := dycors_prefix p ok pred X ws prob Xpend radius hr subset dtol hs xbest hX u forced z hz
  exact ⟨res, h1, h3⟩

/-- Full statement: false for DYCORS.  With `subset=[1]` every call raises an `IndexError` (the mask has one column, but
column 1 is read). -/
theorem C27_refuted (p : OptProb 2) (pred : Pt 2 → ℝ) (X : Fin (n + 1) → Pt 2) (ws : List ℝ) (prob : ℝ)
    (Xpend : List (Pt 2)) (radius dtol : ℝ) (xbest : Pt 2) (u : Fin (m + 1) → ℕ → ℝ) (forced : Fin (m + 1) → ℕ)
    (z : Fin (m + 1) → Pt 2) :
    candidateDycors p pred X ws prob Xpend radius [1] dtol xbest u forced z = none := by
  unfold candidateDycors
  rw [dif_neg]
  intro h
  have := h 0
  simp [dycorsCand, dycorsLoop] at this

/-- With `subset=[1, 0]` the draw for one coordinate is written to the other one, and leaves its bounds: coordinate 1 of the
box `[0,1] × [10,11]` gets the value 0. -/
theorem C27_bounds_refuted : ∃ (p : OptProb 2) (xbest : Pt 2) (z : Pt 2) (y : Pt 2), ProbOk p ∧ Feasible p xbest ∧
    (∀ i, DrawOk p xbest (scalefactors p 0.2 [1, 0]) i (z i)) ∧
    dycorsCand xbest (scalefactors p 0.2 [1, 0]) [1, 0] (dycorsMask 2 1 (fun _ => 0) 0) z = some y ∧
    ¬ InBox p.lb p.ub y := by
  refine ⟨{ lb := ![0, 10], ub := ![1, 11], intVar := [] }, ![0, 10], fun _ => 0, ![10, 0], ⟨?_, ?_, ?_⟩, ⟨?_, ?_⟩, ?_, ?_, ?_⟩
  · intro i; fin_cases i <;> norm_num
  · intro i hi; simp at hi
  · intro i hi; simp at hi
  · intro i; fin_cases i <;> norm_num
  · intro i hi; simp at hi
  · intro i; fin_cases i <;> norm_num [DrawOk, scalefactors]
  · have hm : dycorsMask 2 1 (fun _ => 0) 0 = fun _ => true := by
      unfold dycorsMask
      rw [if_neg (by norm_num), if_neg (by push Not; exact ⟨0, by norm_num, by norm_num⟩)]
      funext c; simp
    rw [hm]
    simp only [dycorsCand, dycorsLoop, truncnorm]
    simp
    funext i; fin_cases i <;> simp
  · intro h; have := (h 1).1; norm_num at this

/-! ## C29: at least one coordinate is perturbed -/

/-- In every row of the mask at least one column is set, for all uniform draws and every draw of
`np.random.randint(0, k - 1)`. -/
theorem C29_nonempty_partial (k : ℕ) (hk : 1 ≤ k) (prob : ℝ) (u : ℕ → ℝ) (forced : ℕ) (hf : 1 < k → forced < k - 1) :
    ∃ c < k, dycorsMask k prob u forced c = true := by
  unfold dycorsMask
  by_cases h1 : k = 1
  · exact ⟨0, by omega, by simp [h1]⟩
  · rw [if_neg h1]
    by_cases h2 : ∀ c < k, ¬ u c < prob
    · rw [if_pos h2]
      have := hf (by omega)
      exact ⟨forced, by omega, by simp⟩
    · rw [if_neg h2]
      push Not at h2
      obtain ⟨c, hc, h⟩ := h2
      exact ⟨c, hc, by simp [h]⟩

/-- The mask keeps all columns drawn, and adds one only if none was drawn. -/
theorem C29_mask (k : ℕ) (hk : 1 < k) (prob : ℝ) (u : ℕ → ℝ) (forced : ℕ) (c : ℕ) :
    dycorsMask k prob u forced c = true ↔ u c < prob ∨ ((∀ c < k, ¬ u c < prob) ∧ c = forced) := by
  unfold dycorsMask
  rw [if_neg (by omega)]
  by_cases h2 : ∀ c < k, ¬ u c < prob
  · rw [if_pos h2]; simp only [Bool.or_eq_true, decide_eq_true_eq]
    exact or_congr Iff.rfl ⟨fun h => ⟨h2, h⟩, And.right⟩
  · rw [if_neg h2]; simp only [decide_eq_true_eq]
    constructor
    · exact .inl
    · rintro (h | ⟨h, _⟩)
      · exact h
      · exact absurd h h2

/-- Full statement: if no column is drawn, every coordinate can be the forced one.  False: the last one is never forced
(the upper end of `randint` is exclusive). -/
theorem C29_refuted (k : ℕ) (hk : 1 < k) (prob : ℝ) (u : ℕ → ℝ) (hu : ∀ c < k, ¬ u c < prob) (forced : ℕ)
    (hf : forced < k - 1) : dycorsMask k prob u forced (k - 1) = false := by
  by_contra h
  rw [Bool.not_eq_false, C29_mask k hk] at h
  rcases h with h | ⟨_, h⟩
  · exact hu _ (by omega) h
  · omega

end Verif.Props
