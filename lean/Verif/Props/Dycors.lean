import Verif.Strategy.Perturb
import Verif.Props.Strategy

/-! # Property C25: the perturbation probability of DYCORS -/

namespace Verif.Props

open Verif.Strategy Verif.Spec

variable {P : Type} [DecidableEq P] {cfg : Config P}

/-- The closed form, when the logarithms are finite and the divisor is not zero. -/
theorem perturbProb_eq {dim numExp a b : ℕ} {maxEvals : ℤ} (hn : numExp ≤ a + b) (hb : (numExp : ℤ) + 2 ≤ maxEvals) :
    perturbProb dim maxEvals numExp a b =
      .fin (max (min (20 / (dim : ℝ)) 1 * (1 - Real.log (a + b - numExp + 1) / Real.log (maxEvals - numExp)))
        (min 1 (1 / (dim : ℝ)))) := by
  have h1 : (0 : ℝ) < (a : ℝ) + b - numExp + 1 := by
    have : (numExp : ℝ) ≤ (a : ℝ) + b := by exact_mod_cast hn
    linarith
  have h2 : (2 : ℝ) ≤ (maxEvals : ℝ) - numExp := by
    have : ((numExp : ℤ) : ℝ) + 2 ≤ (maxEvals : ℝ) := by exact_mod_cast hb
    have e : ((numExp : ℤ) : ℝ) = (numExp : ℝ) := by norm_cast
    linarith
  have h3 : Real.log (maxEvals - numExp) ≠ 0 := (Real.log_pos (by linarith)).ne'
  simp only [perturbProb, npLog, h1, if_true, (by linarith : (0 : ℝ) < (maxEvals : ℝ) - numExp), NF.div, h3, if_false,
    NF.oneSub, NF.scale, NF.max]

/-- With a budget of at least two adaptive evaluations, and at least `num_exp` points evaluated or pending, the value is
a number between `1/dim` and 1. -/
theorem C25_range_partial {dim numExp a b : ℕ} {maxEvals : ℤ} (hd : 1 ≤ dim) (hn : numExp ≤ a + b)
    (hb : (numExp : ℤ) + 2 ≤ maxEvals) :
    ∃ p, perturbProb dim maxEvals numExp a b = .fin p ∧ 1 / (dim : ℝ) ≤ p ∧ p ≤ 1 := by
  refine ⟨_, perturbProb_eq hn hb, ?_, ?_⟩
  · have hd' : (1 : ℝ) ≤ dim := by exact_mod_cast hd
    have : (1 : ℝ) / dim ≤ 1 := by rw [div_le_one (by linarith)]; exact hd'
    exact le_max_of_le_right (le_min this le_rfl)
  · have h2 : (1 : ℝ) < (maxEvals : ℝ) - numExp := by
      have : ((numExp : ℤ) : ℝ) + 2 ≤ (maxEvals : ℝ) := by exact_mod_cast hb
      have e : ((numExp : ℤ) : ℝ) = (numExp : ℝ) := by norm_cast
      linarith
    have h1 : (1 : ℝ) ≤ (a : ℝ) + b - numExp + 1 := by
      have : (numExp : ℝ) ≤ (a : ℝ) + b := by exact_mod_cast hn
      linarith
    have h3 : 0 ≤ Real.log (a + b - numExp + 1) / Real.log (maxEvals - numExp) :=
      div_nonneg (Real.log_nonneg h1) (Real.log_pos h2).le
    have h4 : (0 : ℝ) ≤ min (20 / (dim : ℝ)) 1 := le_min (by positivity) zero_le_one
    refine max_le ?_ (min_le_left _ _)
    calc _ ≤ min (20 / (dim : ℝ)) 1 * 1 := mul_le_mul_of_nonneg_left (by linarith) h4
      _ ≤ 1 := by rw [mul_one]; exact min_le_right _ _

/-- The value never increases with the number of points evaluated or pending. -/
theorem C25_decreasing_partial {dim numExp a b a' b' : ℕ} {maxEvals : ℤ} {p p' : ℝ} (hn : numExp ≤ a + b)
    (hb : (numExp : ℤ) + 2 ≤ maxEvals) (hle : a + b ≤ a' + b')
    (h : perturbProb dim maxEvals numExp a b = .fin p) (h' : perturbProb dim maxEvals numExp a' b' = .fin p') :
    p' ≤ p := by
  rw [perturbProb_eq hn hb, NF.fin.injEq] at h
  rw [perturbProb_eq (hn.trans hle) hb, NF.fin.injEq] at h'
  subst h; subst h'
  have h2 : (1 : ℝ) < (maxEvals : ℝ) - numExp := by
    have : ((numExp : ℤ) : ℝ) + 2 ≤ (maxEvals : ℝ) := by exact_mod_cast hb
    have e : ((numExp : ℤ) : ℝ) = (numExp : ℝ) := by norm_cast
    linarith
  have h1 : (0 : ℝ) < (a : ℝ) + b - numExp + 1 := by
    have : (numExp : ℝ) ≤ (a : ℝ) + b := by exact_mod_cast hn
    linarith
  have h4 : (0 : ℝ) ≤ min (20 / (dim : ℝ)) 1 := le_min (by positivity) zero_le_one
  have hle' : (a : ℝ) + b ≤ (a' : ℝ) + b' := by exact_mod_cast hle
  have h5 := div_le_div_of_nonneg_right (Real.log_le_log h1 (by linarith : (a : ℝ) + b - numExp + 1 ≤ a' + b' - numExp + 1))
    (Real.log_pos h2).le
  refine max_le_max (mul_le_mul_of_nonneg_left ?_ h4) le_rfl
  linarith

/-- The first adaptive point (all design points evaluated, nothing else) has probability `min(20/dim, 1)`; once the
budget is used up the probability is `1/dim`. -/
theorem C25_ends_partial {dim numExp : ℕ} {maxEvals : ℤ} (hd : 1 ≤ dim) (hb : (numExp : ℤ) + 2 ≤ maxEvals) :
    perturbProb dim maxEvals numExp numExp 0 = .fin (min (20 / (dim : ℝ)) 1) ∧
    ∀ a b : ℕ, maxEvals = a + b + 1 → perturbProb dim maxEvals numExp a b = .fin (1 / (dim : ℝ)) := by
  have hd' : (1 : ℝ) ≤ dim := by exact_mod_cast hd
  have hm : (1 : ℝ) / dim ≤ 1 := by rw [div_le_one (by linarith)]; exact hd'
  constructor
  · rw [perturbProb_eq (by omega) hb]
    congr 1
    have e : ((numExp : ℝ) + (0 : ℕ) - numExp + 1) = 1 := by push_cast; ring
    rw [e, Real.log_one, zero_div, sub_zero, mul_one, min_eq_right hm, max_eq_left]
    refine le_min ?_ hm
    gcongr; norm_num
  · intro a b hab
    rw [perturbProb_eq (by omega) hb]
    congr 1
    have e : ((a : ℝ) + b - numExp + 1) = (maxEvals : ℝ) - numExp := by rw [hab]; push_cast; ring
    have h2 : (1 : ℝ) < (maxEvals : ℝ) - numExp := by
      have : ((numExp : ℤ) : ℝ) + 2 ≤ (maxEvals : ℝ) := by exact_mod_cast hb
      have e : ((numExp : ℤ) : ℝ) = (numExp : ℝ) := by norm_cast
      linarith
    rw [e, div_self (Real.log_pos h2).ne', sub_self, mul_zero, min_eq_right hm, max_eq_right (by positivity)]

omit [DecidableEq P] in
theorem length_le_of_head {log : List (Event P)} {q : List P} (h : log.head? = some (.start q)) :
    q.length ≤ (queuedBy log).length := by
  cases log with
  | nil => simp at h
  | cons e l =>
    simp only [List.head?_cons, Option.some.injEq] at h
    subst h
    simp [queuedBy]

omit [DecidableEq P] in
theorem no_loss {as : Bool} {log : List (Event P)} (h : ∀ e ∈ log, isLoss e = false) :
    droppedBy as log = [] ∧ crashedBy log = [] := by
  constructor
  · unfold droppedBy
    rw [List.filterMap_eq_nil_iff]
    intro e he
    have := h e he
    cases e <;> simp_all [isLoss]
  · unfold crashedBy
    rw [List.flatMap_eq_nil_iff]
    intro e he
    have := h e he
    cases e <;> simp_all [isLoss]

/-- Full statement: whenever an adaptive point is generated, the probability is one.  Proved for all histories of a run
with a budget of at least two adaptive evaluations in which nothing was rejected, aborted or lost in a crash and no point
was in flight twice: then, whenever the queue is empty (as it is when adaptive points are generated), the value is a
number between `1/dim` and 1.  Each of these conditions is needed, see `C25_refuted`. -/
theorem C25_reachable_partial {dim : ℕ} (hd : 1 ≤ dim) (hb : (cfg.numPts : ℤ) + 2 ≤ cfg.maxEvals) {w : Sys P}
    (h : Reach cfg w) (hq : w.st.batchQueue = []) (hl : ∀ e ∈ w.st.log, isLoss e = false)
    (hu : ∀ l, l <+: w.st.log → (openPoints l).Nodup) :
    ∃ p, w.st.perturbProb cfg dim = .fin p ∧ 1 / (dim : ℝ) ≤ p ∧ p ≤ 1 := by
  refine C25_range_partial hd ?_ hb
  have h1 := (C06_conservation h).length_eq
  have h2 := ((C05_xpend_partial h).2 hu).length_eq
  have h3 := congrArg List.length (C03_history h).1
  obtain ⟨d, hd⟩ := (C16_once h).1
  have h4 := length_le_of_head hd
  obtain ⟨h5, h6⟩ := no_loss (as := cfg.asynchronous) hl
  simp only [hq, h5, h6, List.length_append, List.length_map, List.length_nil, List.length_range] at h1 h3 h4
  omega

/-- A DYCORS strategy with two design points, in asynchronous mode. -/
def dycorsDemo (maxEvals : Int) : Config Nat where
  asynchronous := true
  batchSize := 1
  maxEvals := maxEvals
  useRestarts := true
  numPts := 2
  extras := []
  srbf := some { dim := 2, weights := [3 / 10, 5 / 10] }

example : ∃ w, Reach (dycorsDemo 6) w ∧ (decide (w.st.batchQueue = []) && decide (w.st.X = [1, 0, 100]) &&
    decide (∀ e ∈ w.st.log, isLoss e = false) && decide (∀ l ∈ w.st.log.inits, (openPoints l).Nodup)) = true :=
  exists_reach (orc 0) [pr 100, .accept 0, .complete 0 1, pr 100, .accept 0, .complete 0 1, pr 100, .accept 0,
    .complete 0 1] _ (by decide +kernel)

/-- The same with `n` design points. -/
def dycorsDemo6 (n : Nat) : Config Nat := { dycorsDemo 7 with numPts := n }

/-- States in which the next call of `propose_action` generates an adaptive point with a perturbation "probability" that
is not a number, or infinite:
(1) NaN: the budget leaves one adaptive evaluation (`log 1 / log 1 = 0/0`), without any failure;
(2) infinite: the process died while a design point was being evaluated after the queue had run empty, and was resumed
(`log 0`);
(3) infinite: a design point was aborted twice after the queue had run empty, and an adaptive evaluation was aborted
(`log 0`);
(4) NaN: a process with three design points died while two of them were running, and was resumed (`log` of a negative number). -/
theorem C25_refuted :
    (∃ w s', Reach (dycorsDemo 3) w ∧ (∀ e ∈ w.st.log, isLoss e = false) ∧
      w.st.proposeAction (dycorsDemo 3) (orc 100) = some (.eval 100 .adapt, s') ∧
      w.st.perturbProb (dycorsDemo 3) 2 = .nan) ∧
    (∃ w s', Reach (dycorsDemo 6) w ∧
      w.st.proposeAction (dycorsDemo 6) (orc 100) = some (.eval 100 .adapt, s') ∧
      w.st.perturbProb (dycorsDemo 6) 2 = .pinf) ∧
    (∃ w s', Reach (dycorsDemo 6) w ∧ crashedBy w.st.log = [] ∧
      w.st.proposeAction (dycorsDemo 6) (orc 100) = some (.eval 100 .adapt, s') ∧
      w.st.perturbProb (dycorsDemo 6) 2 = .pinf) ∧
    (∃ w s', Reach (dycorsDemo6 3) w ∧ w.st.curX ≠ [] ∧
      w.st.proposeAction (dycorsDemo6 3) (orc 100) = some (.eval 100 .adapt, s') ∧
      w.st.perturbProb (dycorsDemo6 3) 2 = .nan) := by
  refine ⟨?_, ?_, ?_, ?_⟩
  · obtain ⟨w, h1, h2⟩ := exists_reach (cfg := dycorsDemo 3) (orc 0)
      [pr 100, .accept 0, .complete 0 1, pr 100, .accept 0, .complete 0 1]
      (fun w => decide ((w.st.proposeAction (dycorsDemo 3) (orc 100)).map Prod.fst = some (.eval 100 .adapt)) &&
        decide (∀ e ∈ w.st.log, isLoss e = false) &&
        decide (w.st.X = [1, 0]) && decide (w.st.Xpend = [])) (by decide +kernel)
    simp only [Bool.and_eq_true, decide_eq_true_eq, Option.map_eq_some_iff] at h2
    obtain ⟨⟨⟨⟨⟨a, s'⟩, h3, rfl⟩, h4⟩, h5⟩, h6⟩ := h2
    refine ⟨w, s', h1, h4, h3, ?_⟩
    simp only [State.perturbProb, perturbProb, h5, h6, dycorsDemo, npLog]
    norm_num [NF.div, NF.oneSub, NF.scale, NF.max]
  · obtain ⟨w, h1, h2⟩ := exists_reach (cfg := dycorsDemo 6) (orc 0)
      [pr 100, .accept 0, .complete 0 1, pr 100, .accept 0, pr 100, .accept 0]
      (fun w => decide ((w.resumed.st.proposeAction (dycorsDemo 6) (orc 100)).map Prod.fst = some (.eval 100 .adapt)) &&
        decide (w.resumed.st.X = [1]) && decide (w.resumed.st.Xpend = [])) (by decide +kernel)
    simp only [Bool.and_eq_true, decide_eq_true_eq, Option.map_eq_some_iff] at h2
    obtain ⟨⟨⟨⟨a, s'⟩, h3, rfl⟩, h5⟩, h6⟩ := h2
    refine ⟨w.resumed, s', h1.resume, h3, ?_⟩
    have hl := Real.log_pos (show (1 : ℝ) < 4 by norm_num)
    simp only [State.perturbProb, perturbProb, h5, h6, dycorsDemo, npLog]
    norm_num [NF.div, NF.oneSub, NF.scale, NF.max, hl.le]
  · obtain ⟨w, h1, h2⟩ := exists_reach (cfg := dycorsDemo 6) (orc 0)
      [pr 100, .accept 0, .complete 0 1, pr 100, .accept 0, pr 100, .accept 0, .abort 0, .abort 0, pr 100, .accept 0,
        .abort 0]
      (fun w => decide ((w.st.proposeAction (dycorsDemo 6) (orc 100)).map Prod.fst = some (.eval 100 .adapt)) &&
        decide (crashedBy w.st.log = []) &&
        decide (w.st.X = [1]) && decide (w.st.Xpend = [])) (by decide +kernel)
    simp only [Bool.and_eq_true, decide_eq_true_eq, Option.map_eq_some_iff] at h2
    obtain ⟨⟨⟨⟨⟨a, s'⟩, h3, rfl⟩, h4⟩, h5⟩, h6⟩ := h2
    refine ⟨w, s', h1, h4, h3, ?_⟩
    have hl := Real.log_pos (show (1 : ℝ) < 4 by norm_num)
    simp only [State.perturbProb, perturbProb, h5, h6, dycorsDemo, npLog]
    norm_num [NF.div, NF.oneSub, NF.scale, NF.max, hl.le]
  · obtain ⟨w, h1, h2⟩ := exists_reach (cfg := dycorsDemo6 3) (orc 0)
      [pr 100, .accept 0, .complete 0 1, pr 100, .accept 0, pr 100, .accept 0, pr 100, .accept 0]
      (fun w => decide ((w.resumed.st.proposeAction (dycorsDemo6 3) (orc 100)).map Prod.fst = some (.eval 100 .adapt)) &&
        decide (w.resumed.st.curX ≠ []) &&
        decide (w.resumed.st.X = [2]) && decide (w.resumed.st.Xpend = [])) (by decide +kernel)
    simp only [Bool.and_eq_true, decide_eq_true_eq, Option.map_eq_some_iff] at h2
    obtain ⟨⟨⟨⟨⟨a, s'⟩, h3, rfl⟩, h4⟩, h5⟩, h6⟩ := h2
    refine ⟨w.resumed, s', h1.resume, h4, h3, ?_⟩
    simp only [State.perturbProb, perturbProb, h5, h6, dycorsDemo6, dycorsDemo, npLog]
    norm_num [NF.div, NF.oneSub, NF.scale, NF.max]

end Verif.Props
