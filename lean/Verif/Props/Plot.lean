import Verif.Checkpoint.Plot
import Verif.Props.Result

/-! # Property C106: the progress plot -/

namespace Verif.Props

open Verif.Strategy Verif.Spec Verif.Checkpoint

variable {P : Type}

theorem scanl_min_get (x : ℚ) (l : List ℚ) (i : ℕ) (h : i < (l.scanl min x).length) :
    IsLeast {v | v ∈ (x :: l).take (i + 1)} ((l.scanl min x)[i]) := by
  induction l generalizing x i with
  | nil =>
    simp only [List.scanl_nil, List.length_singleton, Nat.lt_one_iff] at h
    subst h
    exact ⟨by simp, by rintro v hv; simp at hv; simp [hv]⟩
  | cons y l ih =>
    cases i with
    | zero => exact ⟨by simp, by rintro v hv; simp at hv; simp [hv]⟩
    | succ i =>
      have h' : i < (l.scanl min (min x y)).length := by simpa using h
      have := ih (min x y) i h'
      have he : (List.scanl min x (y :: l))[i + 1] = (l.scanl min (min x y))[i] := by simp
      rw [he]
      obtain ⟨h1, h2⟩ := this
      constructor
      · simp only [List.take_succ_cons, Set.mem_setOf_eq, List.mem_cons] at h1 ⊢
        rcases h1 with h1 | h1
        · rcases min_choice x y with h3 | h3
          · exact .inl (h1.trans h3)
          · exact .inr (.inl (h1.trans h3))
        · exact .inr (.inr h1)
      · intro v hv
        simp only [List.take_succ_cons, Set.mem_setOf_eq, List.mem_cons] at hv
        have h0 : (l.scanl min (min x y))[i] ≤ min x y := h2 (by simp)
        rcases hv with rfl | rfl | hv
        · exact h0.trans (min_le_left _ _)
        · exact h0.trans (min_le_right _ _)
        · exact h2 (by simp [hv])

theorem foldl_min_bound (x : ℚ) (l : List ℚ) : l.foldl min x ≤ x ∧ ∀ v ∈ l, l.foldl min x ≤ v := by
  induction l generalizing x with
  | nil => simp
  | cons y l ih =>
    obtain ⟨h1, h2⟩ := ih (min x y)
    simp only [List.foldl_cons]
    refine ⟨h1.trans (min_le_left _ _), fun v hv => ?_⟩
    rcases List.mem_cons.1 hv with rfl | hv
    · exact h1.trans (min_le_right _ _)
    · exact h2 v hv

theorem foldl_max_bound (x : ℚ) (l : List ℚ) : x ≤ l.foldl max x ∧ ∀ v ∈ l, v ≤ l.foldl max x := by
  induction l generalizing x with
  | nil => simp
  | cons y l ih =>
    obtain ⟨h1, h2⟩ := ih (max x y)
    simp only [List.foldl_cons]
    refine ⟨(le_max_left _ _).trans h1, fun v hv => ?_⟩
    rcases List.mem_cons.1 hv with rfl | hv
    · exact (le_max_right _ _).trans h1
    · exact h2 v hv

/-- If matplotlib is available and an evaluation has completed, the plot shows one point per completed evaluation, in order,
the curve whose `i`-th ordinate is the smallest of the first `i + 1` values and which ends at the value of the best record
(the result of the run), and everything lies inside the limits (strictly inside, if two values differ). -/
theorem C106_shown_partial (fevals : List (CRec P)) (p : P × Val) (hb : bestPoint fevals = some p) :
    ∃ curve lo hi, progressPlot true fevals = .shown ((plotValues fevals).zipIdx.map Prod.swap) curve lo hi ∧
      curve.length = (plotValues fevals).length ∧
      (∀ i q, curve[i]? = some q → q.1 = i ∧ IsLeast {v | v ∈ (plotValues fevals).take (i + 1)} q.2) ∧
      (curve.getLast?).map Prod.snd = some p.2 ∧
      (∀ v ∈ plotValues fevals, lo ≤ v ∧ v ≤ hi ∧ ((∃ u ∈ plotValues fevals, u ≠ v) → lo < v ∧ v < hi)) := by
  have hmem : p.2 ∈ plotValues fevals := List.mem_map_of_mem (List.argmin_mem hb)
  have hle : ∀ v ∈ plotValues fevals, p.2 ≤ v := by
    intro v hv
    obtain ⟨q, hq, rfl⟩ := List.mem_map.1 hv
    exact List.le_of_mem_argmin hq hb
  have hpl : ∀ f : List (CRec P), progressPlot true f = match plotValues f with
    | [] => .emptyError
    | v :: l => .shown ((List.range (plotValues f).length).zip (plotValues f))
        ((List.range (plotValues f).length).zip (accumulateMin (plotValues f)))
        (l.foldl min v - 1 / 10 * (l.foldl max v - l.foldl min v))
        (l.foldl max v + 1 / 10 * (l.foldl max v - l.foldl min v)) := fun f => rfl
  rw [hpl]
  generalize plotValues fevals = vs at hmem hle
  cases vs with
  | nil => simp at hmem
  | cons x l =>
  have hlen : ((List.range (x :: l).length).zip (accumulateMin (x :: l))).length = (x :: l).length := by
    simp [accumulateMin]
  have hget : ∀ i q, ((List.range (x :: l).length).zip (accumulateMin (x :: l)))[i]? = some q →
      q.1 = i ∧ IsLeast {v | v ∈ (x :: l).take (i + 1)} q.2 := by
    intro i q hq
    obtain ⟨hi, hq⟩ := List.getElem?_eq_some_iff.1 hq
    rw [List.getElem_zip] at hq
    subst hq
    refine ⟨by simp, ?_⟩
    exact scanl_min_get x l i (by simpa [accumulateMin] using hi)
  have hz : (List.range (x :: l).length).zip (x :: l) = (x :: l).zipIdx.map Prod.swap := by
    apply List.ext_getElem
    · simp
    · intro i h1 h2
      rw [List.getElem_zip, List.getElem_map, List.getElem_zipIdx]
      simp
  refine ⟨_, _, _, congrArg (fun t => PlotOut.shown t _ _ _) hz, hlen, hget, ?_, ?_⟩
  · rw [List.getLast?_eq_getElem?, hlen]
    have hi : (x :: l).length - 1 < ((List.range (x :: l).length).zip (accumulateMin (x :: l))).length := by
      rw [hlen]; simp
    rw [List.getElem?_eq_getElem hi, Option.map_some, Option.some.injEq]
    have h := (hget _ _ (List.getElem?_eq_getElem hi)).2
    have ht : (x :: l).take ((x :: l).length - 1 + 1) = x :: l := List.take_of_length_le (by simp)
    rw [ht] at h
    exact h.unique ⟨hmem, hle⟩
  · intro v hv
    obtain ⟨a1, a2⟩ := foldl_min_bound x l
    obtain ⟨b1, b2⟩ := foldl_max_bound x l
    generalize l.foldl min x = m at *
    generalize l.foldl max x = M at *
    have hm : ∀ u ∈ x :: l, m ≤ u ∧ u ≤ M := by
      intro u hu
      rcases List.mem_cons.1 hu with rfl | hu
      · exact ⟨a1, b1⟩
      · exact ⟨a2 u hu, b2 u hu⟩
    obtain ⟨c1, c2⟩ := hm v hv
    refine ⟨by linarith, by linarith, ?_⟩
    rintro ⟨u, hu, hne⟩
    obtain ⟨d1, d2⟩ := hm u hu
    have : m < M := by
      rcases lt_or_gt_of_ne hne with h | h <;> linarith
    exact ⟨by linarith, by linarith⟩

/-- Documented: without matplotlib the function prints a message and returns.  It never does: the exception of the import
is raised again after the `finally` block. -/
theorem C106_unavailable_refuted (fevals : List (CRec P)) :
    progressPlot false fevals = .importError ∧ ∀ b, progressPlot b fevals ≠ .message := by
  refine ⟨rfl, fun b => ?_⟩
  cases b
  · exact nofun
  · unfold progressPlot importPlt
    dsimp only
    split <;> simp_all
    split <;> simp

/-- Before the first completed evaluation there is an exception instead of an empty plot. -/
theorem C106_empty_refuted (fevals : List (CRec P)) (h : bestPoint fevals = none) :
    progressPlot true fevals = .emptyError := by
  have : fevals.filterMap CRec.done = [] := List.argmin_eq_none.1 h
  have h2 : plotValues fevals = [] := by simp [plotValues, this]
  unfold progressPlot importPlt
  simp [h2]

/-- A run in progress: the plot has points. -/
example : progressPlot true [⟨0, 1, .completed 3⟩, ⟨1, 2, .dead⟩, ⟨2, 3, .completed 1⟩, ⟨3, 4, .running⟩,
    (⟨4, 5, .completed 2⟩ : CRec ℕ)] = .shown [(0, 3), (1, 1), (2, 2)] [(0, 3), (1, 1), (2, 1)] (4 / 5) (16 / 5) := by
  decide +kernel

end Verif.Props
