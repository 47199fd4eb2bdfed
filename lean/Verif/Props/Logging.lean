import Verif.Strategy.Logging
import Verif.Props.Strategy

/-! # Property C131: the log tells the story -/

set_option linter.unusedSectionVars false

namespace Verif.Props

open Verif.Strategy Verif.Spec

variable {P : Type} [DecidableEq P] {cfg : Config P}

/-- The log lists every completed evaluation once, in order of completion, numbered from 1, with its value and its point: for any
schedule, over any number of crashes that are resumed.  The lists of points and values kept by the strategy can be read off it. -/
theorem C131_evaluations_partial {w : Sys P} {l : List (Line P)} (h : LogReach cfg w l) :
    evalLines l = (completions w.st.log).zipIdx.map (fun p => (((p.2 + 1 : Nat) : Int), p.1.2, p.1.1)) ∧
    w.st.X = (known cfg.extras).map Prod.fst ++ (evalLines l).map (fun e => e.2.2) ∧
    w.st.fX = (known cfg.extras).map Prod.snd ++ (evalLines l).map (fun e => e.2.1) ∧
    w.st.numEvals = (evalLines l).length := by
  have h1 := h.inv.evals
  have hb := h.reach.book
  have z1 : ∀ (c : List (P × Val)) (k : Nat), (c.zipIdx k).map (fun p => p.1.1) = c.map Prod.fst := by
    intro c
    induction c with
    | nil => intro k; rfl
    | cons a c ih => intro k; simp [List.zipIdx_cons, ih]
  have z2 : ∀ (c : List (P × Val)) (k : Nat), (c.zipIdx k).map (fun p => p.1.2) = c.map Prod.snd := by
    intro c
    induction c with
    | nil => intro k; rfl
    | cons a c ih => intro k; simp [List.zipIdx_cons, ih]
  refine ⟨h1, ?_, ?_, ?_⟩
  · rw [hb.X, known_eq, h1, List.map_map]
    exact congrArg _ (z1 _ 0).symm
  · rw [hb.fX, known_eq, h1, List.map_map]
    exact congrArg _ (z2 _ 0).symm
  · rw [hb.num, h1]; simp

/-- SRBF and DYCORS: the sampling radius is the one computed from the log, and there is one header for each initial design. -/
theorem C131_radius {w : Sys P} {l : List (Line P)} (h : LogReach cfg w l) :
    (∀ z, w.st.srbf = some z → z.radius = radiusOf l) ∧ headers l = designCount w.st.log :=
  ⟨h.inv.radius, h.inv.headers⟩

/-- Synchronous mode: the evaluations below the last header are exactly the points and values of the current run. -/
theorem C131_header_partial (ha : cfg.asynchronous = false) {w : Sys P} {l : List (Line P)} (h : LogReach cfg w l) :
    w.st.curX = (evalLines (sinceHeader l)).map (fun e => e.2.2) ∧ w.st.curFX = (evalLines (sinceHeader l)).map (fun e => e.2.1) :=
  h.inv.since ha

/-- Several events with the lines they write. -/
def logRun (cfg : Config P) : Sys P → List (Line P) → List (Op P) → Option (Sys P × List (Line P))
  | w, l, [] => some (w, l)
  | w, l, op :: ops => match w.step cfg op with
    | none => none
    | some w' => logRun cfg w' (l ++ w.lines cfg op) ops

theorem logRun_reach {ops : List (Op P)} : ∀ {w w' : Sys P} {l l' : List (Line P)}, LogReach cfg w l →
    logRun cfg w l ops = some (w', l') → LogReach cfg w' l' := by
  induction ops with
  | nil =>
    intro w w' l l' h hr
    simp only [logRun, Option.some.injEq, Prod.mk.injEq] at hr
    obtain ⟨rfl, rfl⟩ := hr
    exact h
  | cons op ops ih =>
    intro w w' l l' h hr
    unfold logRun at hr
    split at hr
    · simp at hr
    · rename_i w1 hw1
      exact ih (.step op h hw1) hr

theorem exists_log (o : Oracle P) (ops : List (Op P)) (p : Sys P → List (Line P) → Bool)
    (h : (logRun cfg (Sys.create cfg o) [.start] ops).any (fun r => p r.1 r.2) = true) :
    ∃ w l, LogReach cfg w l ∧ p w l = true := by
  cases hw : logRun cfg (Sys.create cfg o) [.start] ops with
  | none => rw [hw] at h; simp at h
  | some r => rw [hw] at h; exact ⟨r.1, r.2, logRun_reach (.create o) hw, by simpa using h⟩

/-- A log of SRBF with a reduction of the sampling radius. -/
example : ∃ w l, LogReach demoSrbf w l ∧ decide (l = [.start, .completed 1 5 1, .completed 2 6 0, .completed 3 9 100, .completed 4 9 101,
    .completed 5 9 102, .completed 6 9 103, .completed 7 9 104, .reducing] ∧ radiusOf l = 1 / 10) = true :=
  exists_log (orc 0) [pr 100, .accept 0, .complete 0 5, pr 100, .accept 0, .complete 0 6, pr 100, .accept 0, .complete 0 9,
    pr 101, .accept 0, .complete 0 9, pr 102, .accept 0, .complete 0 9, pr 103, .accept 0, .complete 0 9, pr 104, .accept 0, .complete 0 9]
    _ (by decide +kernel)

/-- (1) Asynchronous mode: an evaluation of the previous run that finishes late is listed below the header of the new run, although it
does not belong to it.  (2) Failed evaluations are not logged: a run with a crashed evaluation has the log of the run that has just
started (the documentation promises a warning, docs/logging.rst). -/
theorem C131_refuted :
    (∃ (cfg : Config Nat) (w : Sys Nat) (l : List (Line Nat)), LogReach cfg w l ∧
      (evalLines (sinceHeader l)).map (fun e => e.2.2) = [0, 1] ∧ w.st.curX = [1]) ∧
    (∃ (cfg : Config Nat) (o : Oracle Nat) (w : Sys Nat) (x : Nat) (k : Kind), LogReach cfg (Sys.create cfg o) [.start] ∧
      LogReach cfg w [.start] ∧ Event.aborted x k ∈ w.st.log) := by
  constructor
  · obtain ⟨w, l, h1, h2⟩ := exists_log (cfg := demo) (orc 0) [pr 100, .accept 0, pr 100, .accept 0, .complete 0 3, .complete 0 7,
      pr 100, .accept 0, .propose (orc 0 true), .accept 0, .complete 0 4, .complete 0 2]
      (fun w l => decide ((evalLines (sinceHeader l)).map (fun e => e.2.2) = [0, 1] ∧ w.st.curX = [1])) (by decide +kernel)
    simp only [decide_eq_true_eq] at h2
    exact ⟨demo, w, l, h1, h2⟩
  · obtain ⟨w, l, h1, h2⟩ := exists_log (cfg := demo) (orc 0) [pr 100, .accept 0, .abort 0]
      (fun w l => decide (l = [.start] ∧ Event.aborted 11 .init ∈ w.st.log)) (by decide +kernel)
    simp only [decide_eq_true_eq] at h2
    refine ⟨demo, orc 0, w, 11, .init, .create _, h2.1 ▸ h1, h2.2⟩

end Verif.Props
