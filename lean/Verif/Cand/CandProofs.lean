import Verif.Cand.Candidates
import Verif.Props.Utils

/-! # Proofs about the candidate methods -/

namespace Verif.Spec

open Verif.Num Verif.Utils

/-- Distance to the nearest point of a list. -/
noncomputable def nearestDist {d : ℕ} (x : Pt d) (L : List (Pt d)) : ℝ := ⨅ y : {y // y ∈ L}, eucl x y.1

/-- The weighted merit of candidate `j`: predicted value and closeness, both rescaled to the unit interval over all
candidates. -/
noncomputable def weightedMerit {d m : ℕ} (pred : Pt d → ℝ) (cand : Fin (m + 1) → Pt d) (L : List (Pt d)) (w : ℝ)
    (j : Fin (m + 1)) : ℝ :=
  w * unitRescale (fun k => pred (cand k)) j + (1 - w) * (1 - unitRescale (fun k => nearestDist (cand k) L) j)

end Verif.Spec

namespace Verif.Cand

open Verif.Num Verif.Utils Verif.Spec

variable {d m n : ℕ}

theorem nearestDist_le {x y : Pt d} {L : List (Pt d)} (h : y ∈ L) : nearestDist x L ≤ eucl x y :=
  ciInf_le (Finite.bddBelow_range _) (⟨y, h⟩ : {y // y ∈ L})

theorem exists_nearest (x : Pt d) {L : List (Pt d)} (h : L ≠ []) : ∃ y ∈ L, nearestDist x L = eucl x y := by
  obtain ⟨a, ha⟩ := List.exists_mem_of_ne_nil L h
  haveI : Nonempty {y // y ∈ L} := ⟨⟨a, ha⟩⟩
  obtain ⟨y, hy⟩ := exists_eq_ciInf_of_finite (f := fun y : {y // y ∈ L} => eucl x y.1)
  exact ⟨y.1, y.2, hy.symm⟩

theorem le_nearestDist_iff {x : Pt d} {L : List (Pt d)} (h : L ≠ []) (δ : ℝ) :
    δ ≤ nearestDist x L ↔ Separated δ x L := by
  constructor
  · intro hd y hy; exact hd.trans (nearestDist_le hy)
  · intro hs; obtain ⟨y, hy, he⟩ := exists_nearest x h; rw [he]; exact hs y hy

theorem nearestDist_snoc {x y : Pt d} {L : List (Pt d)} (h : L ≠ []) :
    nearestDist x (L ++ [y]) = min (nearestDist x L) (eucl x y) := by
  apply le_antisymm
  · apply le_min
    · obtain ⟨z, hz, he⟩ := exists_nearest x h
      rw [he]; exact nearestDist_le (List.mem_append_left _ hz)
    · exact nearestDist_le (by simp)
  · obtain ⟨z, hz, he⟩ := exists_nearest x (L := L ++ [y]) (by simp)
    rw [he]
    rcases List.mem_append.mp hz with h1 | h1
    · exact (min_le_left _ _).trans (nearestDist_le h1)
    · rw [List.mem_singleton.mp h1]; exact min_le_right _ _

theorem minDist_eq (x y0 : Pt d) (ys : List (Pt d)) : minDist x y0 ys = nearestDist x (y0 :: ys) := by
  unfold minDist
  suffices H : ∀ (L : List (Pt d)), L ≠ [] →
      ys.foldl (fun a y => min a (eucl x y)) (nearestDist x L) = nearestDist x (L ++ ys) by
    have h0 : nearestDist x [y0] = eucl x y0 := by
      obtain ⟨z, hz, he⟩ := exists_nearest x (L := [y0]) (by simp)
      rw [he, List.mem_singleton.mp hz]
    rw [← h0, H _ (by simp)]; rfl
  induction ys with
  | nil => simp
  | cons y ys ih =>
    intro L hL
    rw [List.foldl_cons, ← nearestDist_snoc hL, ih _ (by simp)]
    simp

/-- What one selection must satisfy, with `L` the points that count. -/
structure Selects (pred : Pt d → ℝ) (cand : Fin (m + 1) → Pt d) (dtol w : ℝ) (L : List (Pt d)) (jj : Fin (m + 1)) : Prop where
  best : (∃ j, Separated dtol (cand j) L) → Separated dtol (cand jj) L ∧
    (∀ j, Separated dtol (cand j) L → weightedMerit pred cand L w jj ≤ weightedMerit pred cand L w j) ∧
    (∀ j < jj, Separated dtol (cand j) L → weightedMerit pred cand L w jj < weightedMerit pred cand L w j)
  fallback : (¬ ∃ j, Separated dtol (cand j) L) → jj = 0

theorem select_spec (pred : Pt d → ℝ) (cand : Fin (m + 1) → Pt d) {dtol : ℝ} (w : ℝ) (L : List (Pt d)) (hL : L ≠ [])
    (fvals : Fin (m + 1) → Fl)
    (hf : ∀ j, Separated dtol (cand j) L → fvals j = .fin (unitRescale (fun k => pred (cand k)) j)) :
    Selects pred cand dtol w L (flArgmin (merit w dtol fvals (fun j => nearestDist (cand j) L))) := by
  have hmer : ∀ j, merit w dtol fvals (fun j => nearestDist (cand j) L) j =
      open Classical in if Separated dtol (cand j) L then .fin (weightedMerit pred cand L w j) else .inf := by
    intro j
    unfold merit
    by_cases hs : Separated dtol (cand j) L
    · rw [if_neg (not_lt.mpr ((le_nearestDist_iff hL dtol).mpr hs)), if_pos hs, hf j hs]
      rfl
    · rw [if_pos (not_le.mp (fun hc => hs ((le_nearestDist_iff hL dtol).mp hc))), if_neg hs]
  set v := merit w dtol fvals (fun j => nearestDist (cand j) L) with hv
  have hle := argmin_le (fun j => (v j).key)
  have hfirst := argmin_first (fun j => (v j).key)
  constructor
  · rintro ⟨j0, hj0⟩
    have hsep : Separated dtol (cand (flArgmin v)) L := by
      by_contra hns
      have := hle j0
      have h1 : v (flArgmin v) = .inf := by rw [hmer, if_neg hns]
      have h2 : v j0 = .fin (weightedMerit pred cand L w j0) := by rw [hmer, if_pos hj0]
      change (v (flArgmin v)).key ≤ (v j0).key at this
      rw [h1, h2] at this
      simp [Fl.key] at this
    have hval : v (flArgmin v) = .fin (weightedMerit pred cand L w (flArgmin v)) := by rw [hmer, if_pos hsep]
    refine ⟨hsep, fun j hj => ?_, fun j hlt hj => ?_⟩
    · have := hle j
      change (v (flArgmin v)).key ≤ (v j).key at this
      rw [hval, hmer j, if_pos hj] at this
      simpa [Fl.key] using this
    · have := hfirst j hlt
      change (v (flArgmin v)).key < (v j).key at this
      rw [hval, hmer j, if_pos hj] at this
      simpa [Fl.key] using this
  · intro hno
    have : ∀ j, v j = .inf := fun j => by rw [hmer, if_neg (fun h => hno ⟨j, h⟩)]
    unfold flArgmin
    apply argmin_unique
    · intro j; simp [this]
    · intro j hj; exact absurd hj (Fin.not_lt_zero j)

theorem wdmLoop_length (cand : Fin (m + 1) → Pt d) (dtol : ℝ) (ws) (fv) (dm) :
    (wdmLoop cand dtol ws fv dm).length = ws.length := by
  induction ws generalizing fv dm with
  | nil => rfl
  | cons w ws ih => simp [wdmLoop, ih]

theorem wdmLoop_spec (pred : Pt d → ℝ) (cand : Fin (m + 1) → Pt d) {dtol : ℝ} (hd : 0 < dtol) (ws : List ℝ)
    (fvals : Fin (m + 1) → Fl) (L : List (Pt d)) (hL : L ≠ [])
    (hf : ∀ j, Separated dtol (cand j) L → fvals j = .fin (unitRescale (fun k => pred (cand k)) j))
    (i : ℕ) (hi : i < ws.length) (jj : Fin (m + 1))
    (hjj : (wdmLoop cand dtol ws fvals (fun j => nearestDist (cand j) L))[i]? = some jj) :
    Selects pred cand dtol ws[i]
      (L ++ ((wdmLoop cand dtol ws fvals (fun j => nearestDist (cand j) L)).take i).map cand) jj := by
  induction ws generalizing fvals L i with
  | nil => simp at hi
  | cons w ws ih =>
    simp only [wdmLoop] at hjj ⊢
    set k := flArgmin (merit w dtol fvals (fun j => nearestDist (cand j) L)) with hk
    cases i with
    | zero =>
      simp only [List.getElem?_cons_zero, Option.some.injEq] at hjj
      subst hjj
      simpa using select_spec pred cand w L hL fvals hf
    | succ i =>
      have hdm : (fun j => min (nearestDist (cand j) L) (eucl (cand j) (cand k))) =
          fun j => nearestDist (cand j) (L ++ [cand k]) := by
        funext j; rw [nearestDist_snoc hL]
      rw [hdm] at hjj ⊢
      simp only [List.getElem?_cons_succ] at hjj
      have := ih (Function.update fvals k .inf) (L ++ [cand k]) (by simp) ?_ i (by simpa using hi) hjj
      · simpa using this
      · intro j hj
        have hne : j ≠ k := by
          rintro rfl
          have := hj (cand k) (by simp)
          rw [eucl_self] at this; linarith
        rw [Function.update_of_ne hne]
        exact hf j (fun y hy => hj y (List.mem_append_left _ hy))

end Verif.Cand
