import Verif.Random.Model
import Verif.Num.Spec
import Mathlib.Data.List.FinRange
import Mathlib.Data.List.Perm.Basic
import Mathlib.Data.Fin.VecNotation

/-! # Property C60: RandomStrategy -/

namespace Verif.Props

open Verif.Num Verif.Spec Verif.Random

/-! Specification: projections of the history seen by the controller. -/

/-- The evaluations completed in the history, in order. -/
def completedIn {n : ℕ} (log : List (Random.Event n)) : List (Fin n) :=
  log.filterMap fun e => match e with | .completed k => some k | _ => none

/-- The points proposed in the history, in order. -/
def proposedIn {n : ℕ} (log : List (Random.Event n)) : List (Fin n) :=
  log.filterMap fun e => match e with | .proposed k => some k | _ => none

/-- The failures (rejected proposals and killed evaluations) in the history, in order. -/
def failedIn {n : ℕ} (log : List (Random.Event n)) : List (Fin n) :=
  log.filterMap fun e => match e with | .rejected k => some k | .killed k => some k | _ => none

variable {n : ℕ}

/-- Bookkeeping, counted per point. -/
structure RandomInv (w : Random.Sys n) : Prop where
  once : ∀ k, w.queue.count k + w.pending.count k + w.running.count k + (completedIn w.log).count k = 1
  out : w.outstanding + (completedIn w.log).length = n
  prop : ∀ k, (proposedIn w.log).count k =
    w.pending.count k + w.running.count k + (completedIn w.log).count k + (failedIn w.log).count k

theorem completedIn_append (l : List (Random.Event n)) (e : Random.Event n) :
    completedIn (l ++ [e]) = completedIn l ++ completedIn [e] := List.filterMap_append

theorem proposedIn_append (l : List (Random.Event n)) (e : Random.Event n) :
    proposedIn (l ++ [e]) = proposedIn l ++ proposedIn [e] := List.filterMap_append

theorem failedIn_append (l : List (Random.Event n)) (e : Random.Event n) :
    failedIn (l ++ [e]) = failedIn l ++ failedIn [e] := List.filterMap_append

theorem RandomInv.nodup {w : Random.Sys n} (h : RandomInv w) : (completedIn w.log).Nodup :=
  List.nodup_iff_count_le_one.mpr fun k => by have := h.once k; omega

theorem count_erase_add {l : List (Fin n)} {k : Fin n} (h : k ∈ l) (a : Fin n) :
    (l.erase k).count a + [k].count a = l.count a := by
  have := (List.perm_cons_erase h).count_eq a
  rw [List.count_cons] at this
  rw [List.count_singleton]
  omega

theorem randomInv_step {w w' : Random.Sys n} {o : Random.Op n} (h : RandomInv w) (hs : w.step o = some w') :
    RandomInv w' := by
  obtain ⟨h1, h2, h3⟩ := h
  cases o with
  | propose =>
    simp only [Random.Sys.step, Option.some.injEq] at hs
    subst hs
    unfold Random.Sys.proposeAction
    split
    · rename_i k q hq
      constructor
      · intro a
        have := h1 a
        simp only [hq, completedIn_append, List.count_append, List.count_cons] at this ⊢
        simp only [completedIn, List.filterMap_cons, List.filterMap_nil, List.count_nil] at this ⊢
        omega
      · simpa [completedIn_append, completedIn] using h2
      · intro a
        have := h3 a
        simp only [completedIn_append, proposedIn_append, failedIn_append, List.count_append] at this ⊢
        simp only [completedIn, proposedIn, failedIn, List.filterMap_cons, List.filterMap_nil, List.count_nil] at this ⊢
        omega
    · split
      · exact ⟨by simpa [completedIn_append, completedIn] using h1, by simpa [completedIn_append, completedIn] using h2,
          by simpa [completedIn_append, proposedIn_append, failedIn_append, completedIn, proposedIn, failedIn] using h3⟩
      · exact ⟨h1, h2, h3⟩
  | accept k =>
    simp only [Random.Sys.step] at hs
    split at hs
    · rename_i hk
      cases hs
      refine ⟨fun a => ?_, by simpa [completedIn_append, completedIn] using h2, fun a => ?_⟩ <;>
        have e := count_erase_add hk a <;> have h1 := h1 a <;> have h3 := h3 a <;>
        simp only [completedIn_append, proposedIn_append, failedIn_append, List.count_append] <;>
        simp only [completedIn, proposedIn, failedIn, List.filterMap_cons, List.filterMap_nil, List.count_nil] at h1 h3 ⊢ <;>
        omega
    · cases hs
  | reject k =>
    simp only [Random.Sys.step] at hs
    split at hs
    · rename_i hk
      cases hs
      refine ⟨fun a => ?_, by simpa [completedIn_append, completedIn] using h2, fun a => ?_⟩ <;>
        have e := count_erase_add hk a <;> have h1 := h1 a <;> have h3 := h3 a <;>
        simp only [completedIn_append, proposedIn_append, failedIn_append, List.count_append] <;>
        simp only [completedIn, proposedIn, failedIn, List.filterMap_cons, List.filterMap_nil, List.count_nil] at h1 h3 ⊢ <;>
        omega
    · cases hs
  | complete k =>
    simp only [Random.Sys.step] at hs
    split at hs
    · rename_i hk
      cases hs
      have hnd : (k :: completedIn w.log).Nodup := List.nodup_iff_count_le_one.mpr fun a => by
        have := h1 a
        have e := count_erase_add hk a
        rw [List.count_cons]
        rw [List.count_singleton] at e
        omega
      have hlen : (k :: completedIn w.log).length ≤ n := by
        have := (List.Nodup.subperm hnd (fun a _ => List.mem_finRange a)).length_le
        simpa using this
      refine ⟨fun a => ?_, ?_, fun a => ?_⟩
      · have e := count_erase_add hk a
        have h1 := h1 a
        simp only [completedIn_append, List.count_append]
        simp only [completedIn, List.filterMap_cons, List.filterMap_nil] at h1 ⊢
        omega
      · simp only [List.length_cons] at hlen
        rw [completedIn_append, List.length_append]
        simp only [completedIn, List.filterMap_cons, List.filterMap_nil, List.length_cons, List.length_nil] at hlen h2 ⊢
        omega
      · have e := count_erase_add hk a
        have h3 := h3 a
        simp only [completedIn_append, proposedIn_append, failedIn_append, List.count_append]
        simp only [completedIn, proposedIn, failedIn, List.filterMap_cons, List.filterMap_nil, List.count_nil] at h3 ⊢
        omega
    · cases hs
  | kill k =>
    simp only [Random.Sys.step] at hs
    split at hs
    · rename_i hk
      cases hs
      refine ⟨fun a => ?_, by simpa [completedIn_append, completedIn] using h2, fun a => ?_⟩ <;>
        have e := count_erase_add hk a <;> have h1 := h1 a <;> have h3 := h3 a <;>
        simp only [completedIn_append, proposedIn_append, failedIn_append, List.count_append] <;>
        simp only [completedIn, proposedIn, failedIn, List.filterMap_cons, List.filterMap_nil, List.count_nil] at h1 h3 ⊢ <;>
        omega
    · cases hs

theorem randomInv {w : Random.Sys n} (h : Random.Reach n w) : RandomInv w := by
  induction h with
  | init =>
    refine ⟨fun k => ?_, by simp [Random.init, completedIn], fun k => by simp [Random.init, completedIn, proposedIn, failedIn]⟩
    have := List.count_eq_one_of_mem (List.nodup_finRange n) (List.mem_finRange k)
    simp [Random.init, completedIn, this]
  | step o _ hs ih => exact randomInv_step ih hs

/-- No evaluation is ever completed twice, so at most `max_evals` are completed; and the strategy says "terminate"
exactly in the states in which each of the `max_evals` drawn points has been completed. -/
theorem C60_terminates_exactly {w : Random.Sys n} (h : Random.Reach n w) :
    (completedIn w.log).Nodup ∧
    (w.proposeAction.1 = .terminate ↔ ∀ k : Fin n, k ∈ completedIn w.log) ∧
    (w.proposeAction.1 = .terminate ↔ (completedIn w.log).length = n) := by
  have hi := randomInv h
  have hnd := hi.nodup
  have hall : (∀ k : Fin n, k ∈ completedIn w.log) ↔ (completedIn w.log).length = n := by
    constructor
    · intro hk
      have hp : (completedIn w.log).Perm (List.finRange n) :=
        (List.perm_ext_iff_of_nodup hnd (List.nodup_finRange n)).mpr fun a => by simp [hk a]
      simpa using hp.length_eq
    · intro hl k
      have hs := List.Nodup.subperm hnd (fun a _ => List.mem_finRange a)
      have := (hs.perm_of_length_le (by simp [hl])).mem_iff (a := k)
      exact this.mpr (List.mem_finRange k)
  have ht : w.proposeAction.1 = .terminate ↔ (completedIn w.log).length = n := by
    unfold Random.Sys.proposeAction
    split
    · rename_i k q hq
      simp only [reduceCtorEq, false_iff]
      intro hl
      have h1 := hi.once k
      have h2 := List.count_pos_iff.mpr (hall.mpr hl k)
      rw [hq, List.count_cons_self] at h1
      omega
    · have := hi.out
      split
      · simp only [true_iff]; omega
      · simp only [reduceCtorEq, false_iff]; omega
  exact ⟨hnd, ht.trans hall.symm, ht⟩

/-- Failed proposals and evaluations are retried: until it is completed, each point is waiting to be proposed, waiting for
an answer or running, and it has been proposed once more than it has failed as soon as it is not waiting to be proposed.
In particular a completed point was proposed exactly once more than it failed. -/
theorem C60_retried {w : Random.Sys n} (h : Random.Reach n w) (k : Fin n) :
    (k ∉ completedIn w.log → k ∈ w.queue ∨ k ∈ w.pending ∨ k ∈ w.running) ∧
    (k ∈ completedIn w.log → (proposedIn w.log).count k = (failedIn w.log).count k + 1) := by
  have hi := randomInv h
  have h1 := hi.once k
  have h2 := hi.prop k
  constructor
  · intro hk
    have h3 := List.count_eq_zero.mpr hk
    by_contra hc
    simp only [not_or] at hc
    have h4 := List.count_eq_zero.mpr hc.1
    have h5 := List.count_eq_zero.mpr hc.2.1
    have h6 := List.count_eq_zero.mpr hc.2.2
    omega
  · intro hk
    have := List.count_pos_iff.mpr hk
    omega

/-- Proposals in all: at the end, one per point and one more per failure. -/
theorem C60_number_of_proposals {w : Random.Sys n} (h : Random.Reach n w) (ht : w.proposeAction.1 = .terminate) (k : Fin n) :
    (proposedIn w.log).count k = (failedIn w.log).count k + 1 :=
  (C60_retried h k).2 (((C60_terminates_exactly h).2.1).mp ht k)

theorem later_reach {w w' : Random.Sys n} (h : Random.Reach n w) (hl : Later w w') : Random.Reach n w' := by
  induction hl with
  | refl => exact h
  | step o _ hs ih => exact .step o ih hs

theorem later_trans {w w' w'' : Random.Sys n} (h : Later w w') (h' : Later w' w'') : Later w w'' := by
  induction h' with
  | refl => exact h
  | step o _ hs ih => exact .step o ih hs

/-- The run is never stuck: as long as the strategy does not say "terminate", some point can be completed. -/
theorem random_progress {w : Random.Sys n} (h : Random.Reach n w) (ht : w.proposeAction.1 ≠ .terminate) :
    ∃ w', Later w w' ∧ (completedIn w'.log).length = (completedIn w.log).length + 1 := by
  have hi := randomInv h
  have hrun : ∀ v : Random.Sys n, ∀ k ∈ v.running, ∃ v', v.step (.complete k) = some v' ∧
      (completedIn v'.log).length = (completedIn v.log).length + 1 := by
    intro v k hk
    refine ⟨_, by simp [Random.Sys.step, hk]; rfl, ?_⟩
    simp [completedIn_append, completedIn]
  have hpend : ∀ v : Random.Sys n, ∀ k ∈ v.pending, ∃ v', Later v v' ∧
      (completedIn v'.log).length = (completedIn v.log).length + 1 := by
    intro v k hk
    have hs : v.step (.accept k) = some { v with pending := v.pending.erase k, running := v.running ++ [k], log := v.log ++ [.accepted k] } := by
      simp [Random.Sys.step, hk]
    obtain ⟨v', h1, h2⟩ := hrun { v with pending := v.pending.erase k, running := v.running ++ [k], log := v.log ++ [.accepted k] } k (by simp)
    exact ⟨v', .step _ (.step _ .refl hs) h1, by simpa [completedIn_append, completedIn] using h2⟩
  by_cases hr : w.running = []
  · by_cases hp : w.pending = []
    · cases hq : w.queue with
      | nil =>
        exfalso
        have hall : ∀ k, k ∈ completedIn w.log := fun k => by
          have := hi.once k
          rw [hr, hp, hq] at this
          simp only [List.count_nil] at this
          exact List.count_pos_iff.mp (by omega)
        exact ht (((C60_terminates_exactly h).2.1).mpr hall)
      | cons k q =>
        have hs : w.step .propose = some { w with queue := q, pending := w.pending ++ [k], log := w.log ++ [.proposed k] } := by
          simp [Random.Sys.step, Random.Sys.proposeAction, hq]
        obtain ⟨v', h1, h2⟩ := hpend _ k (show k ∈ ({ w with queue := q, pending := w.pending ++ [k], log := w.log ++ [.proposed k] } : Random.Sys n).pending by simp)
        exact ⟨v', later_trans (.step _ .refl hs) h1, by simpa [completedIn_append, completedIn] using h2⟩
    · obtain ⟨k, hk⟩ := List.exists_mem_of_ne_nil _ hp
      exact hpend w k hk
  · obtain ⟨k, hk⟩ := List.exists_mem_of_ne_nil _ hr
    obtain ⟨v', h1, h2⟩ := hrun w k hk
    exact ⟨v', .step _ .refl h1, h2⟩

/-- Whatever failed before, the run can still be brought to the end in which all points are completed. -/
theorem C60_can_finish {w : Random.Sys n} (h : Random.Reach n w) :
    ∃ w', Later w w' ∧ w'.proposeAction.1 = .terminate := by
  induction hm : n - (completedIn w.log).length generalizing w with
  | zero =>
    refine ⟨w, .refl, ((C60_terminates_exactly h).2.2).mpr ?_⟩
    have := (randomInv h).out
    omega
  | succ m ih =>
    by_cases ht : w.proposeAction.1 = .terminate
    · exact ⟨w, .refl, ht⟩
    · obtain ⟨v, h1, h2⟩ := random_progress h ht
      obtain ⟨v', h3, h4⟩ := ih (later_reach h h1) (by omega)
      exact ⟨v', later_trans h1 h3, h4⟩

/-- Every drawn point is in the box. -/
theorem C60_box {d : ℕ} {lb ub u : Pt d} (hb : ∀ i, lb i ≤ ub i) (hu : ∀ i, 0 ≤ u i ∧ u i < 1) :
    InBox lb ub (uniform lb ub u) := by
  intro i
  have h1 := sub_nonneg.mpr (hb i)
  have h2 := mul_nonneg h1 (hu i).1
  have h3 := mul_le_of_le_one_right h1 (hu i).2.le
  constructor <;> simp only [uniform] <;> linarith

/-- The points need not be integer-feasible: the strategy ignores the set of integer variables. -/
theorem C60_refuted : ∃ (lb ub u : Pt 1), (∀ i, lb i ≤ ub i) ∧ (∀ i, 0 ≤ u i ∧ u i < 1) ∧
    ¬ IntegerOn [0] (uniform lb ub u) := by
  refine ⟨![0], ![2], ![1 / 4], by simp [Fin.forall_fin_one], by simp [Fin.forall_fin_one]; norm_num, ?_⟩
  intro h
  obtain ⟨z, hz⟩ := h 0 (by simp)
  have e : ((2 * z : ℤ) : ℝ) = ((1 : ℤ) : ℝ) := by
    simp [uniform] at hz
    push_cast
    linarith
  have := Int.cast_injective e
  omega

/-- Two points, the first one fails twice: the history, and the end of the run. -/
example : ∃ w : Random.Sys 2, Random.Reach 2 w ∧ w.proposeAction.1 = .terminate ∧
    proposedIn w.log = [0, 1, 0, 0] ∧ failedIn w.log = [0, 0] ∧ completedIn w.log = [1, 0] := by
  have r : ∀ (l : List (Random.Op 2)) (w w' : Random.Sys 2), Random.Reach 2 w →
      l.foldlM (fun w o => w.step o) w = some w' → Random.Reach 2 w' := by
    intro l
    induction l with
    | nil => intro w w' h e; cases e; exact h
    | cons o l ih =>
      intro w w' h e
      rw [List.foldlM_cons] at e
      cases hs : w.step o with
      | none => rw [hs] at e; cases e
      | some v => rw [hs] at e; exact ih v w' (.step o h hs) e
  refine ⟨_, r [.propose, .propose, .reject 0, .accept 1, .complete 1, .propose, .accept 0, .kill 0, .propose, .accept 0,
    .complete 0] (Random.init 2) _ .init rfl, ?_⟩
  decide

end Verif.Props
