import Verif.Strategy.Ready
import Verif.Props.Strategy
import Verif.Props.Regular

/-! # Property C84: the design is known when the surrogate is first asked -/

set_option linter.unusedSectionVars false

namespace Verif.Props

open Verif.Strategy Verif.Spec

variable {P : Type} [DecidableEq P] {cfg : Config P}

/-- Full statement: whenever adaptive points are generated, every point of the design of the current run (and every extra
point without value) has been evaluated.  False in asynchronous mode (`C84_async_refuted`, the docstring of
`propose_action` warns of it) and after failed evaluations (`C84_failed_refuted`).  Proved: each of these points, and each
point put back in the queue by `resume`, has been evaluated in this run, or is in flight, or was given up (adaptive
proposal rejected in asynchronous mode, adaptive evaluation aborted) or lost in a crash during this run; in synchronous mode
nothing is in flight.  Asynchronous SRBF/DYCORS: until the first change of the radius in this run. -/
theorem C84_history_partial {w : Sys P} (h : Reach cfg w) {l : List (Event P)} {q : List P} {ws : List ℚ}
    (hp : l ++ [.generated q ws] <+: w.st.log) :
    (cfg.asynchronous = false → openPoints l = []) ∧
    (cfg.asynchronous = false ∨ radiusChanged (thisRun l) = false →
      (designs (thisRun l) ++ requeued (thisRun l)).Subperm
        ((currentRun l).map Prod.fst ++ openPoints l ++ droppedBy cfg.asynchronous (thisRun l) ++ crashedBy (thisRun l))) :=
  h.generatedAfter l q ws hp

/-- Synchronous mode, no adaptive evaluation aborted and no crash in this run: the whole design has been evaluated. -/
theorem C84_sync_partial {w : Sys P} (h : Reach cfg w) {l : List (Event P)} {q : List P} {ws : List ℚ}
    (hp : l ++ [.generated q ws] <+: w.st.log) (ha : cfg.asynchronous = false)
    (hd : ∀ x, Event.aborted x .adapt ∉ thisRun l) (hc : ∀ xs, Event.crashed xs ∉ thisRun l) :
    (designs (thisRun l)).Subperm ((currentRun l).map Prod.fst) := by
  obtain ⟨h1, h2⟩ := C84_history_partial h hp
  have h3 := h2 (.inl ha)
  have e1 : droppedBy cfg.asynchronous (thisRun l) = [] := by
    rw [ha]
    refine List.filterMap_eq_nil_iff.2 fun e he => ?_
    cases e with
    | rejected x k => cases k <;> rfl
    | aborted x k => cases k with
      | init => rfl
      | adapt => exact absurd he (hd x)
    | _ => rfl
  have e2 : crashedBy (thisRun l) = [] := by
    refine List.flatMap_eq_nil_iff.2 fun e he => ?_
    cases e with
    | crashed xs => exact absurd he (hc xs)
    | _ => rfl
  rw [h1 ha, e1, e2] at h3
  simp only [List.append_nil] at h3
  exact (List.sublist_append_left _ _).subperm.trans h3

/-- Asynchronous mode, nothing given up or lost in this run, radius unchanged: at most as many design points are missing as
there are evaluations in flight. -/
theorem C84_async_partial {w : Sys P} (h : Reach cfg w) {l : List (Event P)} {q : List P} {ws : List ℚ}
    (hp : l ++ [.generated q ws] <+: w.st.log) (hr : radiusChanged (thisRun l) = false)
    (hd : droppedBy cfg.asynchronous (thisRun l) = []) (hc : crashedBy (thisRun l) = []) :
    (designs (thisRun l)).length ≤ (currentRun l).length + (openPoints l).length := by
  have h3 := ((C84_history_partial h hp).2 (.inr hr)).length_le
  rw [hd, hc] at h3
  simp only [List.append_nil, List.length_append, List.length_map] at h3
  omega

/-- The data of the surrogate when `propose_action` asks it: no budget reached, not converged, queue empty, and in
synchronous mode nothing pending. -/
theorem C84_data_partial {w : Sys P} (h : Reach cfg w) (hq : w.st.batchQueue = [])
    (ha : cfg.asynchronous = false) (hpend : w.st.pendingEvals = 0)
    (hd : droppedBy false (thisRun w.st.log) = []) (hc : crashedBy (thisRun w.st.log) = []) :
    (designs (thisRun w.st.log)).Subperm (w.st.surr.map Prod.fst) := by
  have h1 := h.runLedger.asked hq (.inl ha)
  rw [h.runLedger.idle hpend, ha, hd, hc] at h1
  obtain ⟨cur, e1, _, e3, _⟩ := h.cur.data
  rw [e3, List.map_append, ← e1]
  simp only [List.append_nil] at h1
  exact ((List.sublist_append_left _ _).subperm.trans h1).trans (List.sublist_append_right _ _).subperm

/-! ## The RBF surrogate can be fitted -/

open Verif.Num Verif.Surrogate in
/-- Synchronous mode with an RBF (cubic kernel, linear tail, positive regularization as by default): if nothing was given
up in this run and the design is not contained in a hyperplane, then the surrogate can be fitted whenever the strategy asks
it, whatever the values are. `ops` is any history of the surrogate object that leaves it with the data it was given, and in
which no earlier prediction since the last reset was made with more than `d` points on a hyperplane. -/
theorem C84_rbf_partial {d : ℕ} {cfg : Config (Pt d)} {w : Sys (Pt d)} (h : Reach cfg w) (hq : w.st.batchQueue = [])
    (ha : cfg.asynchronous = false) (hpend : w.st.pendingEvals = 0)
    (hd : droppedBy false (thisRun w.st.log) = []) (hc : crashedBy (thisRun w.st.log) = [])
    (hne : designs (thisRun w.st.log) ≠ []) (hdes : ¬ OnHyperplane (designs (thisRun w.st.log)))
    (lb ub : Pt d) (hb : ∀ i, lb i < ub i) (eta : ℝ) (heta : 0 < eta) (trans : List ℝ → List ℝ)
    (lu : ℕ → Mat → LuOut) (chol : ℕ → Mat → Option Mat) (hlu : LuSpec lu) (hchol : CholSpec chol)
    (ops : List (Surrogate.Op d)) (hops : NoMultiColumn ops)
    (hdata : dataOf d ops = w.st.surr.map fun e => (e.1, ((e.2 : ℚ) : ℝ))) (hff : ¬ FailedOnHyperplane ops) (x : Pt d) :
    (predict ⟨lb, ub, cubicKernel, linearTail d, eta, trans, lu, chol⟩
      (rrun ⟨lb, ub, cubicKernel, linearTail d, eta, trans, lu, chol⟩ ops) x).2 ≠ none := by
  rw [Ne, C77_cubic lb ub hb eta heta.le trans lu chol hlu hchol ops hops x (.inl heta)]
  have hs := (C84_data_partial h hq ha hpend hd hc).subset
  have e : (dataOf d ops).map Prod.fst = w.st.surr.map Prod.fst := by rw [hdata, List.map_map]; rfl
  rintro (h0 | ⟨v, b, hv, hX⟩ | h0)
  · obtain ⟨y, hy⟩ := List.exists_mem_of_ne_nil _ hne
    have := hs hy
    rw [← e, h0] at this
    simp at this
  · exact hdes ⟨v, b, hv, fun y hy => hX y (by rw [e]; exact hs hy)⟩
  · exact hff h0

/-! ## The hypotheses are met -/

/-- Synchronous mode with a failed evaluation of the design that was repeated: `C84_sync_partial` applies. -/
example : ∃ w l q ws, Reach demoSync w ∧ l ++ [.generated q ws] <+: w.st.log ∧ (∀ x, Event.aborted x .adapt ∉ thisRun l) ∧
    (∀ xs, Event.crashed xs ∉ thisRun l) ∧ Event.aborted 1 .init ∈ thisRun l ∧ designs (thisRun l) = [0, 1] := by
  obtain ⟨w, h1, h2⟩ := exists_reach (cfg := demoSync) (orc 0)
    [pr 100, .accept 0, .abort 0, pr 100, .accept 0, .complete 0 4, pr 100, .accept 0, .complete 0 5, pr 100]
    (fun w => decide (w.st.log = [.start [0, 1], .proposed 1 .init, .accepted 1 .init 1, .aborted 1 .init, .proposed 1 .init,
      .accepted 1 .init 2, .completed 1 .init 4 5, .proposed 0 .init, .accepted 0 .init 3, .completed 0 .init 5 8,
      .generated [100, 101] [], .proposed 101 .adapt])) (by decide +kernel)
  simp only [decide_eq_true_eq] at h2
  refine ⟨w, [.start [0, 1], .proposed 1 .init, .accepted 1 .init 1, .aborted 1 .init, .proposed 1 .init,
      .accepted 1 .init 2, .completed 1 .init 4 5, .proposed 0 .init, .accepted 0 .init 3, .completed 0 .init 5 8],
    [100, 101], [], h1, ?_, ?_, ?_, by decide, by decide⟩
  · rw [h2]; decide
  · intro x; simp [thisRun, thisRunStep]
  · intro x; simp [thisRun, thisRunStep]

/-- Asynchronous mode, one of two design points in flight: `C84_async_partial` applies. -/
example : ∃ w l q ws, Reach { demo with extras := [] } w ∧ l ++ [.generated q ws] <+: w.st.log ∧
    radiusChanged (thisRun l) = false ∧ droppedBy true (thisRun l) = [] ∧ crashedBy (thisRun l) = [] ∧
    designs (thisRun l) = [0, 1] ∧ currentRun l = [(1, 4)] ∧ openPoints l = [0] := by
  obtain ⟨w, h1, h2⟩ := exists_reach (cfg := { demo with extras := [] }) (orc 0)
    [pr 100, .accept 0, pr 100, .accept 0, .complete 0 4, pr 100]
    (fun w => decide (w.st.log = [.start [0, 1], .proposed 1 .init, .accepted 1 .init 1, .proposed 0 .init,
      .accepted 0 .init 2, .completed 1 .init 4 2, .generated [100] [], .proposed 100 .adapt])) (by decide +kernel)
  simp only [decide_eq_true_eq] at h2
  refine ⟨w, [.start [0, 1], .proposed 1 .init, .accepted 1 .init 1, .proposed 0 .init, .accepted 0 .init 2,
    .completed 1 .init 4 2], [100], [], h1, ?_, by decide, by decide, by decide, by decide, by decide, by decide⟩
  rw [h2]; decide

/-- A synchronous run on an interval whose design `0`, `1` has been evaluated: `C84_rbf_partial` applies. -/
def cfgR : Config (Num.Pt 1) where
  asynchronous := false
  batchSize := 1
  maxEvals := 10
  useRestarts := true
  numPts := 2
  extras := []
  srbf := none

noncomputable def orcR : Oracle (Num.Pt 1) := ⟨fun i _ => i, fun _ _ => 0, false⟩

open Verif.Num Verif.Surrogate in
example : ∃ w : Sys (Pt 1), Reach cfgR w ∧ w.st.batchQueue = [] ∧ w.st.pendingEvals = 0 ∧
    droppedBy false (thisRun w.st.log) = [] ∧ crashedBy (thisRun w.st.log) = [] ∧
    designs (thisRun w.st.log) = [fun _ => 0, fun _ => 1] ∧ ¬ OnHyperplane (designs (thisRun w.st.log)) ∧
    ∃ ops : List (Surrogate.Op 1), NoMultiColumn ops ∧
      dataOf 1 ops = w.st.surr.map (fun e => (e.1, ((e.2 : ℚ) : ℝ))) ∧ ¬ FailedOnHyperplane ops := by
  obtain ⟨w, h, h1, h2, h3, h4, h5, h6⟩ : ∃ w : Sys (Pt 1), Reach cfgR w ∧ w.st.batchQueue = [] ∧ w.st.pendingEvals = 0 ∧
      droppedBy false (thisRun w.st.log) = [] ∧ crashedBy (thisRun w.st.log) = [] ∧
      designs (thisRun w.st.log) = [fun _ => ((0 : ℕ) : ℝ), fun _ => ((1 : ℕ) : ℝ)] ∧
      w.st.surr = [((fun _ => ((1 : ℕ) : ℝ)), 3), ((fun _ => ((0 : ℕ) : ℝ)), 4)] :=
    ⟨_, (Reach.create orcR).steps
      (ops := [.propose orcR, .accept 0, .complete 0 3, .propose orcR, .accept 0, .complete 0 4]) rfl, rfl, rfl, rfl, rfl, rfl, rfl⟩
  have h5 : designs (thisRun w.st.log) = [fun _ => 0, fun _ => 1] := by rw [h5]; simp
  refine ⟨w, h, h1, h2, h3, h4, h5, ?_, [.add (.vec [1]) (.float 3), .add (.vec [0]) (.float 4)], ?_, ?_, ?_⟩
  · rw [h5]
    rintro ⟨v, b, hv, hX⟩
    have a0 := hX (fun _ => 0) (by simp)
    have a1 := hX (fun _ => 1) (by simp)
    simp at a0 a1
    apply hv
    funext j
    rw [Subsingleton.elim j 0, a1, ← a0]; rfl
  · intro xx fx hm
    simp only [List.mem_cons, Surrogate.Op.add.injEq, List.not_mem_nil, or_false] at hm
    rcases hm with ⟨_, rfl⟩ | ⟨_, rfl⟩ <;> trivial
  · rw [h6]
    simp [dataOf, Props.accepted, pointsOf, valuesOf]
  · rintro ⟨o₁, x, o₂, hh, _⟩
    have : Surrogate.Op.predict x ∈ o₁ ++ .predict x :: o₂ := by simp
    rw [← hh] at this
    simp at this

/-! ## Where the full statement fails -/

/-- Asynchronous mode with three workers and a design of two points: the surrogate is asked before it has any data. -/
theorem C84_async_refuted : ∃ w l q ws, Reach { demo with extras := [] } w ∧ l ++ [.generated q ws] <+: w.st.log ∧
    designs (thisRun l) = [0, 1] ∧ currentRun l = [] ∧ w.st.surr = [] := by
  obtain ⟨w, h1, h2⟩ := exists_reach (cfg := { demo with extras := [] }) (orc 0)
    [pr 100, .accept 0, pr 100, .accept 0, pr 100]
    (fun w => decide (w.st.log = [.start [0, 1], .proposed 1 .init, .accepted 1 .init 1, .proposed 0 .init,
      .accepted 0 .init 2, .generated [100] [], .proposed 100 .adapt]) && decide (w.st.surr = [])) (by decide +kernel)
  simp only [Bool.and_eq_true, decide_eq_true_eq] at h2
  refine ⟨w, [.start [0, 1], .proposed 1 .init, .accepted 1 .init 1, .proposed 0 .init, .accepted 0 .init 2], [100], [], h1,
    ?_, by decide, by decide, h2.2⟩
  rw [h2.1]; decide

/-- Synchronous mode: the design point 1 fails, is proposed again as an adaptive point, fails again and is dropped; the
surrogate is asked without it. -/
theorem C84_failed_refuted : ∃ w l q ws, Reach demoSync w ∧ l ++ [.generated q ws] <+: w.st.log ∧
    designs (thisRun l) = [0, 1] ∧ currentRun l = [(0, 5)] ∧ w.st.surr = [(0, 5)] := by
  obtain ⟨w, h1, h2⟩ := exists_reach (cfg := demoSync) (orc 0)
    [pr 100, .accept 0, pr 100, .accept 0, pr 100, .abort 0, pr 100, .accept 0, .abort 1, .complete 0 5, pr 100]
    (fun w => decide (w.st.log = [.start [0, 1], .proposed 1 .init, .accepted 1 .init 1, .proposed 0 .init,
      .accepted 0 .init 2, .aborted 1 .init, .proposed 1 .adapt, .accepted 1 .adapt 3, .aborted 1 .adapt,
      .completed 0 .init 5 4, .generated [100, 101] [], .proposed 101 .adapt]) && decide (w.st.surr = [(0, 5)]))
    (by decide +kernel)
  simp only [Bool.and_eq_true, decide_eq_true_eq] at h2
  refine ⟨w, [.start [0, 1], .proposed 1 .init, .accepted 1 .init 1, .proposed 0 .init,
      .accepted 0 .init 2, .aborted 1 .init, .proposed 1 .adapt, .accepted 1 .adapt 3, .aborted 1 .adapt,
      .completed 0 .init 5 4], [100, 101], [], h1,
    ?_, by decide, by decide, h2.2⟩
  rw [h2.1]; decide

end Verif.Props
