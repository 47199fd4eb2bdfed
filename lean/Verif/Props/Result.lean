import Verif.Checkpoint.Result
import Verif.Props.Checkpoint

/-! # Property C103: the result of a run is the best evaluation -/

namespace Verif.Props

open Verif.Strategy Verif.Spec Verif.Checkpoint

variable {P : Type} [DecidableEq P] {cfg : Config P} {first : Bool} {reg : List (P × Val)}

/-- `r` is a best one of the evaluations `l`: it is one of them and none has a smaller value; there is no result only if
there is no evaluation. -/
def IsBest (r : Option (P × Val)) (l : List (P × Val)) : Prop :=
  (r = none ↔ l = []) ∧ ∀ p, r = some p → p ∈ l ∧ ∀ q ∈ l, p.2 ≤ q.2

theorem isBest_argmin {l m : List (P × Val)} (h : ∀ p, p ∈ l ↔ p ∈ m) : IsBest (l.argmin Prod.snd) m := by
  refine ⟨?_, ?_⟩
  · rw [List.argmin_eq_none, List.eq_nil_iff_forall_not_mem, List.eq_nil_iff_forall_not_mem]
    exact forall_congr' fun p => not_congr (h p)
  · intro p hp
    exact ⟨(h p).1 (List.argmin_mem hp), fun q hq => List.le_of_mem_argmin ((h q).2 hq) hp⟩

/-- The event with which the strategy ends the run. -/
theorem end_of_run (h : RReach first cfg reg R) {w : Sys P} (hp : R.W.proc = some w) {o : Oracle P} {s : State P}
    (ht : w.st.proposeAction cfg o = some (.terminate, s)) :
    ∃ R', R.step first cfg reg (.ev (.propose o)) = some R' ∧ R'.W.proc = none ∧
      R'.result = bestPoint R.fevals := by
  obtain ⟨W', d, h1, h2, _⟩ := C19_final h.base hp ht
  refine ⟨⟨W', _, _, _⟩, by simp only [RWorld.step, h1]; rfl, h2, ?_⟩
  simp [resultStep, hp, terminates, ht]

/-- A run that was never resumed returns a best one of all evaluations completed and of all points that the user has
registered with their values, whatever was killed, rejected or restarted on the way. -/
theorem C103_uninterrupted (h : RReach first cfg reg R) (hn : R.W.resumes = 0) {w : Sys P} (hp : R.W.proc = some w)
    {o : Oracle P} {s : State P} (ht : w.st.proposeAction cfg o = some (.terminate, s)) :
    ∃ R', R.step first cfg reg (.ev (.propose o)) = some R' ∧ R'.W.proc = none ∧ IsBest R'.result (reg ++ R.ever) := by
  obtain ⟨R', h1, h2, h3⟩ := end_of_run h hp ht
  refine ⟨R', h1, h2, ?_⟩
  have hrun := h.base.inv.running w hp
  rw [hn, Nat.zero_mul, Nat.add_zero] at hrun
  have he : completions w.st.log = R.ever :=
    (h.sub.proc w hp).eq_of_length_le (by rw [h.sub.tot]; exact hrun)
  rw [h3, ← he]
  refine isBest_argmin fun p => ?_
  rw [(h.inv.agree w hp).done p]
  simp [hn, or_comm]

/-- Full statement: whatever crashed and was resumed, the result is a best one of all evaluations completed in all
processes and of all points registered with their values.  False in two ways (`C103_known_refuted`, `C103_lost_refuted`).
Proved: after a resume, the result is a best one of the evaluations in the history of the strategy, which are evaluations
that were completed, at most one per resume missing (none, if the strategy handles a completion before the checkpoint is
written). -/
theorem C103_resumed_partial (h : RReach first cfg reg R) (hn : R.W.resumes ≠ 0) {w : Sys P} (hp : R.W.proc = some w)
    {o : Oracle P} {s : State P} (ht : w.st.proposeAction cfg o = some (.terminate, s)) :
    ∃ R', R.step first cfg reg (.ev (.propose o)) = some R' ∧ R'.W.proc = none ∧
      IsBest R'.result (completions w.st.log) ∧ List.Sublist (completions w.st.log) R.ever ∧
      R.ever.length ≤ (completions w.st.log).length + (if first then R.W.resumes else 0) := by
  obtain ⟨R', h1, h2, h3⟩ := end_of_run h hp ht
  refine ⟨R', h1, h2, ?_, h.sub.proc w hp, ?_⟩
  · rw [h3]
    refine isBest_argmin fun p => ?_
    rw [(h.inv.agree w hp).done p]
    simp [hn]
  · have hrun := h.base.inv.running w hp
    rw [h.sub.tot]
    cases first <;> simpa [lossBound] using hrun

/-- Two design points, one extra point with the known value -10, budget 3. -/
def resCfg : Config Nat where
  asynchronous := true
  batchSize := 1
  maxEvals := 3
  useRestarts := true
  numPts := 2
  extras := [(10, some (-10))]
  srbf := none

/-- Evaluates one more point (the adaptive point `n`, if the design has been evaluated). -/
def evalOne (n : Nat) (v : Val) : List (WOp Nat) := [.ev (pr n), .ev (.accept 0), .ev (.complete 0 v)]

theorem exists_rreach {cfg' : Config Nat} {reg' : List (Nat × Val)} (ops : List (WOp Nat)) (q : RWorld Nat → Bool)
    (h : (RWorld.empty.steps first cfg' reg' ops).any q = true) : ∃ R, RReach first cfg' reg' R ∧ q R = true := by
  cases hR : RWorld.empty.steps first cfg' reg' ops with
  | none => rw [hR] at h; simp at h
  | some R => rw [hR] at h; exact ⟨R, RReach.init.steps ops hR, by simpa using h⟩

/-- The hypotheses of `C103_uninterrupted`: a run, evaluations 1, 0 and 100, just before the proposal to terminate. -/
example : ∃ R, RReach true resCfg [(10, -10)] R ∧ (decide (R.W.resumes = 0) &&
    decide (R.ever = [(1, 3), (0, 4), (100, 5)]) && R.W.proc.any fun w => decide
      ((w.st.proposeAction resCfg (orc 0)).map Prod.fst = some .terminate)) = true :=
  exists_rreach ([.run (orc 0)] ++ evalOne 0 3 ++ evalOne 0 4 ++ evalOne 100 5) _ (by decide +kernel)

/-- Without a crash the known point is returned. -/
example : ∃ R, RReach true resCfg [(10, -10)] R ∧ (decide (R.result = some (10, -10)) &&
    decide (R.ever = [(1, 3), (0, 4), (100, 5)])) = true :=
  exists_rreach ([.run (orc 0)] ++ evalOne 0 3 ++ evalOne 0 4 ++ evalOne 100 5 ++ [.ev (pr 100)]) _ (by decide +kernel)

/-- The hypotheses of `C103_resumed_partial`: the evaluation of 100 was lost in a crash. -/
example : ∃ R, RReach true resCfg [] R ∧ (decide (R.W.resumes = 1) &&
    decide (R.ever = [(1, 3), (0, 4), (100, 2), (101, 5)]) && R.W.proc.any fun w => decide
      ((w.st.proposeAction resCfg (orc 0)).map Prod.fst = some .terminate)) = true :=
  exists_rreach ([.run (orc 0)] ++ evalOne 0 3 ++ evalOne 0 4 ++ evalOne 100 2 ++ [.crash, .resume] ++ evalOne 101 5) _
    (by decide +kernel)

/-- The known values are lost: registered as in examples/example_extra_vals.py, the extra point with value -10 is the
result of a run, but not of a run that was interrupted and resumed (`resume` replaces the records of the controller by
those of the strategy). -/
theorem C103_known_refuted : ∃ R, RReach true resCfg [(10, -10)] R ∧ (decide (R.W.resumes = 1) &&
    decide (R.W.proc.isNone) && decide (R.ever = [(1, 3), (1, 3), (0, 4), (100, 5)]) &&
    decide (R.result = some (1, 3))) = true :=
  exists_rreach ([.run (orc 0)] ++ evalOne 0 3 ++ [.crash, .resume] ++ evalOne 0 3 ++ evalOne 0 4 ++ evalOne 100 5 ++
    [.ev (pr 100)]) _ (by decide +kernel)

/-- The best evaluation is lost: the process dies after the value 2 has been returned and the checkpoint was written; the
resumed run chooses another point and ends with the result 3. -/
theorem C103_lost_refuted : ∃ R, RReach true resCfg [] R ∧ (decide (R.ever = [(1, 3), (0, 4), (100, 2), (101, 5)]) &&
    decide (R.W.proc.isNone) && decide (R.result = some (1, 3))) = true :=
  exists_rreach ([.run (orc 0)] ++ evalOne 0 3 ++ evalOne 0 4 ++ evalOne 100 2 ++ [.crash, .resume] ++ evalOne 101 5 ++
    [.ev (pr 100)]) _ (by decide +kernel)

end Verif.Props
