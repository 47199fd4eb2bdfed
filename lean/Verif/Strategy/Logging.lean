import Verif.Strategy.Inv8

/-!
# What the strategies write to the log

The calls of `logger.info` (ss.py:220, 224, srbf_strategy.py:209, 214).  These are all calls of the logger in the package: nothing is
logged on another level.  The formatting of numbers and points (`{:.3e}`, `np.array_str` with 5 digits) is not modelled: a line holds
the number, the value and the point themselves.
-/

set_option linter.unusedSectionVars false
set_option linter.unusedSimpArgs false

namespace Verif.Strategy

open Verif.Spec

/-- A line of the log. (ss.py:220, 224, srbf_strategy.py:209, 214.) -/
inductive Line (P : Type) where
  /-- `=== Start ===` -/
  | start
  /-- `{num_evals} {value} @ {x}` -/
  | completed (n : Int) (v : Val) (x : P)
  /-- `Reducing sampling radius` -/
  | reducing
  /-- `Increasing sampling radius` -/
  | increasing
  deriving DecidableEq, Repr

variable {P : Type}

/-- `sample_restart` calls `sample_initial`, which writes the header (ss.py:211, 224). -/
def restartLines : List (Line P) := [.start]

/-- Lines written by the last part of `propose_action` (ss.py:289-299). -/
def afterLines (cfg : Config P) (s : State P) : List (Line P) :=
  if s.converged && cfg.useRestarts then
    if cfg.asynchronous || s.pendingEvals == 0 then restartLines else []
  else []

/-- Lines written by `propose_action` (ss.py:249-299). -/
def proposeLines (cfg : Config P) (o : Oracle P) (s : State P) : List (Line P) :=
  let s := s.checkTermination cfg
  if s.terminate then []
  else if s.converged then
    if cfg.useRestarts then
      if cfg.asynchronous || s.pendingEvals == 0 then restartLines else []
    else []
  else if s.batchQueue.isEmpty then
    let s := { s with phase := .adaptive }
    if cfg.asynchronous then
      match s.generateEvals cfg o 1 with
      | none => []
      | some s => afterLines cfg s
    else if s.pendingEvals == 0 then
      match s.generateEvals cfg o cfg.batchSize with
      | none => []
      | some s => afterLines cfg s
    else afterLines cfg s
  else []

/-- Lines written by `adjust_step` (srbf_strategy.py:205-214). -/
def adjustLines (ftol : Int) (z : Srbf) (fNew : Val) : List (Line P) :=
  let status := if z.isImprovement fNew then max 1 (z.status + 1) else min (-1) (z.status - 1)
  let r : Int × List (Line P) := if status ≤ -ftol then (0, [.reducing]) else (status, [])
  if succtol ≤ r.1 then r.2 ++ [.increasing] else r.2

variable [DecidableEq P]

/-- Lines written by `on_initial_completed` (ss.py:350-367) resp. `on_adapt_completed` (ss.py:415-432, srbf_strategy.py:150-160):
`log_completion` (ss.py:213-220) after the record is stored, then `adjust_step`. -/
def completeLines (cfg : Config P) (s : State P) (x : P) (k : Kind) (v : Val) (evId : Nat) : List (Line P) :=
  let s := s.recordCompleted x v evId
  .completed s.numEvals v x :: match k with
    | .init => []
    | .adapt => match cfg.srbf, s.srbf with
      | some sc, some z =>
        if evId > s.evLast then
          if cfg.asynchronous || (s.batchQueue.isEmpty && s.pendingEvals == 0) then
            adjustLines (failtol cfg sc) z (minValue z.recordQueue v)
          else []
        else []
      | _, _ => []

/-- Lines written during one event (ss.py:249-439: acceptance, rejection and failure write nothing). -/
def Sys.lines (cfg : Config P) (w : Sys P) : Op P → List (Line P)
  | .propose o => proposeLines cfg o w.st
  | .complete i v =>
    match w.recs[i]? with
    | none => []
    | some r => completeLines cfg w.st r.x r.kind v r.evId
  | _ => []

/-- A run together with its log; the constructor writes the first header (ss.py:140, 224), `resume` (ss.py:182-191) writes nothing. -/
inductive LogReach (cfg : Config P) : Sys P → List (Line P) → Prop
  | create (o : Oracle P) : LogReach cfg (Sys.create cfg o) [.start]
  | step {w w' : Sys P} {l : List (Line P)} (op : Op P) : LogReach cfg w l → w.step cfg op = some w' →
      LogReach cfg w' (l ++ w.lines cfg op)
  | resume {w : Sys P} {l : List (Line P)} : LogReach cfg w l → LogReach cfg w.resumed l

theorem LogReach.reach {cfg : Config P} {w : Sys P} {l : List (Line P)} (h : LogReach cfg w l) : Reach cfg w := by
  induction h with
  | create o => exact .create o
  | step op _ hs ih => exact .step op ih hs
  | resume _ ih => exact .resume ih

/-- Every run has a log. -/
theorem Reach.logged {cfg : Config P} {w : Sys P} (h : Reach cfg w) : ∃ l, LogReach cfg w l := by
  induction h with
  | create o => exact ⟨_, .create o⟩
  | step op _ hs ih => obtain ⟨l, hl⟩ := ih; exact ⟨_, .step op hl hs⟩
  | resume _ ih => obtain ⟨l, hl⟩ := ih; exact ⟨_, .resume hl⟩

end Verif.Strategy

/-! ## Reading a log -/

namespace Verif.Spec

open Verif.Strategy

variable {P : Type}

/-- The evaluations listed in a log: number, value and point. -/
def evalLines (l : List (Line P)) : List (Int × Val × P) :=
  l.filterMap fun e => match e with
    | .completed n v x => some (n, v, x)
    | _ => none

/-- The lines below the last header. -/
def sinceHeader (l : List (Line P)) : List (Line P) :=
  l.foldl (fun acc e => match e with
    | .start => []
    | e => acc ++ [e]) []

/-- The number of headers. -/
def headers (l : List (Line P)) : Nat :=
  l.countP fun e => match e with
    | .start => true
    | _ => false

/-- The sampling radius somebody reading the log computes: 0.2 at each header, halved and doubled (at most 0.2) as the lines say. -/
def radiusOf (l : List (Line P)) : ℚ :=
  l.foldl (fun r e => match e with
    | .start => 2 / 10
    | .reducing => r / 2
    | .increasing => min (2 * r) (2 / 10)
    | .completed _ _ _ => r) (2 / 10)

/-- The number of initial designs generated in a history. -/
def designCount (log : List (Event P)) : Nat :=
  log.countP fun e => match e with
    | .start _ => true
    | .restart _ => true
    | _ => false

end Verif.Spec

namespace Verif.Strategy

open Verif.Spec

variable {P : Type} [DecidableEq P] {cfg : Config P}

/-- Nothing that concerns the log has changed. -/
structure Same (s s' : State P) : Prop where
  comps : completions s'.log = completions s.log
  curX : s'.curX = s.curX
  curFX : s'.curFX = s.curFX
  radius : s'.srbf.map Srbf.radius = s.srbf.map Srbf.radius
  designs : designCount s'.log = designCount s.log

theorem Same.refl (s : State P) : Same s s := ⟨rfl, rfl, rfl, rfl, rfl⟩

theorem Same.trans {s t u : State P} (h : Same s t) (k : Same t u) : Same s u :=
  ⟨k.comps.trans h.comps, k.curX.trans h.curX, k.curFX.trans h.curFX, k.radius.trans h.radius, k.designs.trans h.designs⟩

/-- A restart. -/
structure Restarted (cfg : Config P) (s s' : State P) : Prop where
  comps : completions s'.log = completions s.log
  curX : s'.curX = []
  curFX : s'.curFX = []
  radius : ∀ z, s'.srbf = some z → z.radius = 2 / 10
  designs : designCount s'.log = designCount s.log + 1
  idle : cfg.asynchronous = true ∨ s.pendingEvals = 0

theorem initProposal_same {s s' : State P} {a : Action P} (h : s.initProposal = some (a, s')) : Same s s' := by
  unfold State.initProposal at h
  split at h
  · simp at h
  · simp only [Option.some.injEq, Prod.mk.injEq] at h
    rw [← h.2]; exact ⟨rfl, rfl, rfl, rfl, rfl⟩

theorem adaptProposal_same {s s' : State P} {a : Action P} (h : s.adaptProposal = (a, s')) : Same s s' := by
  unfold State.adaptProposal at h
  split at h
  · simp only [Prod.mk.injEq] at h
    rw [← h.2]; exact ⟨rfl, rfl, rfl, rfl, rfl⟩
  · simp only [Prod.mk.injEq] at h
    rw [← h.2]; exact ⟨rfl, rfl, rfl, rfl, rfl⟩

theorem generateEvals_same {o : Oracle P} {n : Nat} {s s' : State P} (h : State.generateEvals cfg o n s = some s') : Same s s' := by
  unfold State.generateEvals at h
  split at h
  · rename_i sc z hsc hz
    split at h
    · simp at h
    · simp only [Option.some.injEq] at h
      rw [← h]
      exact ⟨by simp [completions_append, completions], rfl, rfl, by simp [hz], by simp [designCount]⟩
  · split at h
    · simp only [Option.some.injEq] at h
      rw [← h]; exact ⟨rfl, rfl, rfl, rfl, rfl⟩
    · simp only [Option.some.injEq] at h
      rw [← h]
      exact ⟨by simp [completions_append, completions], rfl, rfl, rfl, by simp [designCount]⟩

theorem sampleRestart_restarted {o : Oracle P} {s s' : State P} {a : Action P} (hi : cfg.asynchronous = true ∨ s.pendingEvals = 0)
    (h : (s.sampleRestart cfg o).initProposal = some (a, s')) : Restarted cfg s s' := by
  have h1 := initProposal_same h
  rw [sampleRestart_eq] at h1
  refine ⟨h1.comps.trans ?_, h1.curX.trans rfl, h1.curFX.trans rfl, fun z hz => ?_, h1.designs.trans ?_, hi⟩
  · simp [completions_append, completions]
  · have h2 := h1.radius
    rw [hz] at h2
    simp only [Option.map_some] at h2
    cases hs : s.srbf with
    | none => rw [hs] at h2; simp at h2
    | some z0 => rw [hs] at h2; simpa [Srbf.sampleInitial] using h2
  · simp [designCount]

theorem afterGenerate_lines {o : Oracle P} {s s' : State P} {a : Action P} (h : s.afterGenerate cfg o = some (a, s')) :
    (afterLines cfg s = ([] : List (Line P)) ∧ Same s s') ∨ (afterLines cfg s = ([.start] : List (Line P)) ∧ Restarted cfg s s') := by
  unfold State.afterGenerate at h
  unfold afterLines restartLines
  split at h
  · rename_i hc
    rw [if_pos hc]
    split at h
    · rename_i hp
      rw [if_pos hp]
      exact .inr ⟨rfl, sampleRestart_restarted (by simpa using hp) h⟩
    · rename_i hp
      rw [if_neg hp]
      simp only [Option.some.injEq, Prod.mk.injEq] at h
      rw [← h.2]; exact .inl ⟨rfl, .refl _⟩
  · rename_i hc
    rw [if_neg hc]
    exact .inl ⟨rfl, adaptProposal_same (by simpa using h)⟩

theorem generateEvals_pending_eq {o : Oracle P} {n : Nat} {s s' : State P} (h : State.generateEvals cfg o n s = some s') :
    s'.pendingEvals = s.pendingEvals := by
  rcases generateEvals_cases h with ⟨ws, z, rfl, _⟩ | ⟨_, rfl, _⟩ <;> rfl

/-- `propose_action` writes a header exactly when it restarts. -/
theorem proposeAction_lines {o : Oracle P} {s s' : State P} {a : Action P} (h : s.proposeAction cfg o = some (a, s')) :
    (proposeLines cfg o s = [] ∧ Same s s') ∨ (proposeLines cfg o s = [.start] ∧ Restarted cfg s s') := by
  by_cases ht : s.terminate = true ∨ cfg.maxEvals ≤ s.numEvals + s.pendingEvals
  · left
    have h1 : (s.checkTermination cfg).terminate = true := by rw [checkTermination_eq]; simpa using ht
    refine ⟨by simp only [proposeLines, h1, if_true], ?_⟩
    rw [proposeAction_terminate ht] at h
    simp only [Option.some.injEq, Prod.mk.injEq] at h
    rw [← h.2]; exact ⟨rfl, rfl, rfl, rfl, rfl⟩
  · simp only [not_or, not_le] at ht
    have hc : s.checkTermination cfg = s := by unfold State.checkTermination; rw [if_neg (by omega)]
    rw [proposeAction_going (by simpa using ht.1) ht.2] at h
    simp only [proposeLines, hc]
    rw [if_neg ht.1]
    split at h
    · rename_i hcv
      rw [if_pos hcv]
      split at h
      · rename_i hu
        rw [if_pos hu]
        split at h
        · rename_i hp
          rw [if_pos hp]
          exact .inr ⟨rfl, sampleRestart_restarted (by simpa using hp) h⟩
        · rename_i hp
          rw [if_neg hp]
          simp only [Option.some.injEq, Prod.mk.injEq] at h
          rw [← h.2]; exact .inl ⟨rfl, .refl _⟩
      · rename_i hu
        rw [if_neg hu]
        simp only [Option.some.injEq, Prod.mk.injEq] at h
        rw [← h.2]; exact .inl ⟨rfl, .refl _⟩
    · rename_i hcv
      rw [if_neg hcv]
      split at h
      · rename_i hq
        rw [if_pos hq]
        have hph : Same s { s with phase := .adaptive } := ⟨rfl, rfl, rfl, rfl, rfl⟩
        have fin : ∀ s1, Same s s1 → s1.pendingEvals = s.pendingEvals → s1.afterGenerate cfg o = some (a, s') →
            (afterLines cfg s1 = ([] : List (Line P)) ∧ Same s s') ∨
              (afterLines cfg s1 = ([.start] : List (Line P)) ∧ Restarted cfg s s') := by
          intro s1 h1 h2 h3
          rcases afterGenerate_lines h3 with ⟨h4, h5⟩ | ⟨h4, h5⟩
          · exact .inl ⟨h4, h1.trans h5⟩
          · exact .inr ⟨h4, h5.comps.trans h1.comps, h5.curX, h5.curFX, h5.radius, by rw [h5.designs, h1.designs], by
              rw [← h2]; exact h5.idle⟩
        unfold State.adaptBranch at h
        simp only at h
        split at h
        · rename_i has
          rw [if_pos has]
          split at h
          · simp at h
          · rename_i s1 hg
            simp only [hg]
            exact fin s1 (hph.trans (generateEvals_same hg)) ((generateEvals_pending_eq hg).trans rfl) h
        · rename_i has
          rw [if_neg has]
          split at h
          · rename_i hp
            rw [if_pos hp]
            split at h
            · simp at h
            · rename_i s1 hg
              simp only [hg]
              exact fin s1 (hph.trans (generateEvals_same hg)) ((generateEvals_pending_eq hg).trans rfl) h
          · rename_i hp
            rw [if_neg hp]
            exact fin _ hph rfl h
      · rename_i hq
        rw [if_neg hq]
        left
        refine ⟨rfl, ?_⟩
        split at h
        · exact initProposal_same h
        · exact adaptProposal_same (by simpa using h)

theorem evalLines_append (l m : List (Line P)) : evalLines (l ++ m) = evalLines l ++ evalLines m := by
  simp [evalLines]

/-- Lines about the sampling radius. -/
def Steps (m : List (Line P)) : Prop := ∀ e ∈ m, e = .reducing ∨ e = .increasing

theorem Steps.evals {m : List (Line P)} (h : Steps m) : evalLines m = [] := by
  unfold evalLines
  rw [List.filterMap_eq_nil_iff]
  intro e he
  rcases h e he with rfl | rfl <;> rfl

theorem Steps.headers {m : List (Line P)} (h : Steps m) : headers m = 0 := by
  unfold Spec.headers
  rw [List.countP_eq_zero]
  intro e he
  rcases h e he with rfl | rfl <;> simp

theorem sinceHeader_concat (l : List (Line P)) (e : Line P) (he : e ≠ .start) : sinceHeader (l ++ [e]) = sinceHeader l ++ [e] := by
  unfold sinceHeader
  rw [List.foldl_append]
  cases e with
  | start => exact absurd rfl he
  | _ => rfl

theorem Steps.since {l m : List (Line P)} (h : Steps m) : evalLines (sinceHeader (l ++ m)) = evalLines (sinceHeader l) := by
  induction m using List.reverseRecOn with
  | nil => simp
  | append_singleton m e ih =>
    have he := h e (by simp)
    rw [← List.append_assoc, sinceHeader_concat _ _ (by rcases he with rfl | rfl <;> simp), evalLines_append,
      ih fun e he => h e (by simp [he])]
    rcases he with rfl | rfl <;> simp [evalLines]

theorem adjustLines_steps (ftol : Int) (z : Srbf) (f : Val) : Steps (adjustLines ftol z f : List (Line P)) := by
  intro e he
  unfold adjustLines at he
  simp only at he
  split_ifs at he <;> simp at he <;> simp [he]

theorem radiusOf_append (l m : List (Line P)) : radiusOf (l ++ m) = m.foldl (fun r e => match e with
    | .start => 2 / 10
    | .reducing => r / 2
    | .increasing => min (2 * r) (2 / 10)
    | .completed _ _ _ => r) (radiusOf l) := by
  simp only [radiusOf, List.foldl_append]

/-- The lines of `adjust_step` say what happens to the radius. -/
theorem adjustLines_radius (ftol mftol : Int) (z : Srbf) (f : Val) (l : List (Line P)) (h : z.radius = radiusOf l) :
    (z.adjust ftol mftol f).1.radius = radiusOf (l ++ adjustLines ftol z f) := by
  rw [radiusOf_append, ← h]
  unfold Srbf.adjust adjustLines radiusMax
  simp only
  by_cases hi : z.isImprovement f = true
  · simp only [hi, if_true]
    split_ifs <;> simp_all
  · simp only [hi, if_false, Bool.false_eq_true]
    split_ifs <;> simp_all

structure LogInv (cfg : Config P) (w : Sys P) (l : List (Line P)) : Prop where
  evals : evalLines l = (completions w.st.log).zipIdx.map fun p => (((p.2 + 1 : Nat) : Int), p.1.2, p.1.1)
  radius : ∀ z, w.st.srbf = some z → z.radius = radiusOf l
  headers : headers l = designCount w.st.log
  since : cfg.asynchronous = false → w.st.curX = (evalLines (sinceHeader l)).map (fun e => e.2.2) ∧
    w.st.curFX = (evalLines (sinceHeader l)).map (fun e => e.2.1)

theorem LogInv.same {w w' : Sys P} {l : List (Line P)} (h : LogInv cfg w l) (hs : Same w.st w'.st) : LogInv cfg w' l := by
  refine ⟨by rw [hs.comps]; exact h.evals, fun z hz => ?_, by rw [hs.designs]; exact h.headers, fun ha => ?_⟩
  · have h1 := hs.radius
    rw [hz] at h1
    cases hw : w.st.srbf with
    | none => rw [hw] at h1; simp at h1
    | some z0 =>
      rw [hw] at h1
      simp only [Option.map_some, Option.some.injEq] at h1
      rw [h1]; exact h.radius z0 hw
  · rw [hs.curX, hs.curFX]; exact h.since ha

theorem LogInv.restarted {w w' : Sys P} {l : List (Line P)} (h : LogInv cfg w l) (hs : Restarted cfg w.st w'.st) :
    LogInv cfg w' (l ++ [.start]) := by
  refine ⟨?_, fun z hz => ?_, ?_, fun _ => ?_⟩
  · rw [hs.comps, ← h.evals, evalLines_append]; simp [evalLines]
  · rw [hs.radius z hz, radiusOf_append]; simp
  · rw [hs.designs, ← h.headers]; simp [Spec.headers]
  · rw [hs.curX, hs.curFX]; simp [sinceHeader, evalLines]

theorem note_same (s : State P) (e : Event P) (h1 : completions [e] = []) (h2 : designCount [e] = 0) : Same s (s.note e) :=
  ⟨by simp [State.note, completions_append, h1], rfl, rfl, rfl, by
    have : designCount (s.log ++ [e]) = designCount s.log + designCount [e] := by simp [designCount]
    simp only [State.note, this, h2, Nat.add_zero]⟩

theorem LogReach.inv {w : Sys P} {l : List (Line P)} (h : LogReach cfg w l) : LogInv cfg w l := by
  induction h with
  | create o =>
    refine ⟨?_, fun z hz => ?_, ?_, fun _ => ?_⟩
    · simp [Sys.create, create_eq, completions, evalLines]
    · have hz : (Sys.create cfg o).st.srbf = some z := hz
      simp only [Sys.create, create_eq, State.blank] at hz
      cases hs : cfg.srbf with
      | none => rw [hs] at hz; simp at hz
      | some sc =>
        rw [hs] at hz
        simp only [Option.map_some, Option.some.injEq] at hz
        rw [← hz]; simp [radiusOf, Srbf.sampleInitial]
    · simp [Sys.create, create_eq, designCount, Spec.headers]
    · simp [Sys.create, create_eq, State.blank, sinceHeader, evalLines]
  | @step w w' l op hw hs ih =>
    cases op with
    | propose o =>
      simp only [Sys.step] at hs
      split at hs
      · simp at hs
      all_goals
        rename_i s' hp
        simp only [Option.some.injEq] at hs
        subst hs
        rcases proposeAction_lines hp with ⟨h1, h2⟩ | ⟨h1, h2⟩
      · rw [show w.lines cfg (.propose o) = proposeLines cfg o w.st from rfl, h1, List.append_nil]
        exact ih.same (h2.trans (note_same _ _ rfl rfl))
      · rw [show w.lines cfg (.propose o) = proposeLines cfg o w.st from rfl, h1]
        exact LogInv.same (w := { w with st := s' }) (ih.restarted h2) (note_same _ _ rfl rfl)
      · rw [show w.lines cfg (.propose o) = proposeLines cfg o w.st from rfl, h1, List.append_nil]
        exact ih.same (h2.trans (note_same _ _ rfl rfl))
      · rw [show w.lines cfg (.propose o) = proposeLines cfg o w.st from rfl, h1]
        exact LogInv.same (w := { w with st := s' }) (ih.restarted h2) (note_same _ _ rfl rfl)
      · rw [show w.lines cfg (.propose o) = proposeLines cfg o w.st from rfl, h1, List.append_nil]
        exact ih.same h2
      · rw [show w.lines cfg (.propose o) = proposeLines cfg o w.st from rfl, h1]
        exact ih.restarted h2
    | accept i =>
      simp only [Sys.step] at hs
      split at hs
      · simp at hs
      · simp only [Option.some.injEq] at hs; subst hs
        rw [show w.lines cfg (.accept i) = [] from rfl, List.append_nil]
        exact ih.same ((note_same _ _ rfl rfl).trans ⟨rfl, rfl, rfl, rfl, rfl⟩)
    | reject i =>
      simp only [Sys.step] at hs
      split at hs
      · simp at hs
      · simp only [Option.some.injEq] at hs; subst hs
        rw [show w.lines cfg (.reject i) = [] from rfl, List.append_nil]
        refine ih.same ?_
        dsimp only
        split
        · exact (note_same _ (.rejected _ _) rfl rfl).trans (by rw [onInitialRejected_eq]; exact ⟨rfl, rfl, rfl, rfl, rfl⟩)
        · exact (note_same _ (.rejected _ _) rfl rfl).trans (by rw [onAdaptReject_eq]; exact ⟨rfl, rfl, rfl, rfl, rfl⟩)
    | update i =>
      simp only [Sys.step] at hs
      split at hs
      · simp at hs
      · simp only [Option.some.injEq] at hs; subst hs
        rw [show w.lines cfg (.update i) = [] from rfl, List.append_nil]
        exact ih
    | abort i =>
      simp only [Sys.step] at hs
      split at hs
      · simp at hs
      · rename_i r hr
        simp only [Option.some.injEq] at hs; subst hs
        rw [show w.lines cfg (.abort i) = [] from rfl, List.append_nil]
        refine ih.same ((note_same _ (.aborted r.x r.kind) rfl rfl).trans ?_)
        rw [onAborted_eq]; exact ⟨rfl, rfl, rfl, rfl, rfl⟩
    | complete i v =>
      have hnew : cfg.asynchronous = false → ∀ r ∈ w.recs, w.st.evLast < r.evId := fun ha =>
        ((allNew_preserved cfg ha).reach hw.reach).new
      have hnum := hw.reach.book.num
      simp only [Sys.step] at hs
      split at hs
      · simp at hs
      · rename_i r hr
        simp only [Option.some.injEq] at hs; subst hs
        have hl : w.lines cfg (.complete i v) = completeLines cfg w.st r.x r.kind v r.evId := by
          simp only [Sys.lines, hr]
        rw [hl]
        -- after `record_completed` and the numbered line
        have base : ∀ recs, LogInv cfg { w with st := (w.st.note (.completed r.x r.kind v r.accAt)).recordCompleted r.x v r.evId
                                                recs := recs } (l ++ [.completed (w.st.numEvals + 1) v r.x]) := by
          intro recs
          have hc : completions (w.st.log ++ [.completed r.x r.kind v r.accAt]) = completions w.st.log ++ [(r.x, v)] := by
            simp [completions_append, completions]
          simp only [recordCompleted_eq, State.note]
          refine ⟨?_, fun z hz => ?_, ?_, fun ha => ?_⟩
          · dsimp only
            rw [evalLines_append, ih.evals, hc, hnum, List.zipIdx_append, List.map_append]
            simp [evalLines]
          · rw [radiusOf_append]; exact ih.radius z hz
          · have h1 : headers (l ++ [.completed (w.st.numEvals + 1) v r.x]) = headers l := by simp [Spec.headers]
            rw [h1, ih.headers]; simp [designCount]
          · have h1 := hnew ha r (List.mem_of_getElem? hr)
            obtain ⟨h2, h3⟩ := ih.since ha
            rw [sinceHeader_concat _ _ (by simp), evalLines_append]
            simp [h1, h2, h3, evalLines]
        have hn : (w.st.recordCompleted r.x v r.evId).numEvals = w.st.numEvals + 1 := by rw [recordCompleted_eq]
        have e1 : (w.st.recordCompleted r.x v r.evId).srbf = w.st.srbf := by rw [recordCompleted_eq]
        have e2 : (w.st.recordCompleted r.x v r.evId).evLast = w.st.evLast := by rw [recordCompleted_eq]
        have e3 : (w.st.recordCompleted r.x v r.evId).batchQueue = w.st.batchQueue := by rw [recordCompleted_eq]
        have e4 : (w.st.recordCompleted r.x v r.evId).pendingEvals = w.st.pendingEvals - 1 := by rw [recordCompleted_eq]
        unfold State.onCompleted completeLines
        simp only [hn, e1, e2, e3, e4]
        have hz : ((w.st.note (.completed r.x r.kind v r.accAt)).recordCompleted r.x v r.evId).srbf = w.st.srbf := by
          rw [recordCompleted_eq]; rfl
        have f2 : ((w.st.note (.completed r.x r.kind v r.accAt)).recordCompleted r.x v r.evId).evLast = w.st.evLast := by
          rw [recordCompleted_eq]; rfl
        have f3 : ((w.st.note (.completed r.x r.kind v r.accAt)).recordCompleted r.x v r.evId).batchQueue = w.st.batchQueue := by
          rw [recordCompleted_eq]; rfl
        have f4 : ((w.st.note (.completed r.x r.kind v r.accAt)).recordCompleted r.x v r.evId).pendingEvals = w.st.pendingEvals - 1 := by
          rw [recordCompleted_eq]; rfl
        generalize (w.st.note (.completed r.x r.kind v r.accAt)).recordCompleted r.x v r.evId = s1 at base hz f2 f3 f4 ⊢
        simp only [hz]
        rcases (by cases r.kind <;> simp : r.kind = .init ∨ r.kind = .adapt) with hk | hk
        · simp only [hk]; exact base _
        · simp only [hk]
          rcases hsc : cfg.srbf with _ | sc
          · exact base _
          rcases hzz : w.st.srbf with _ | z
          · exact base _
          simp only
          unfold State.srbfCompleted
          simp only [f2, f3, f4]
          split
          · split
            · have hb := base (w.recs.eraseIdx i)
              rw [List.append_cons]
              have hst := adjustLines_steps (P := P) (failtol cfg sc) z (minValue z.recordQueue v)
              have hd : ∀ b : Bool, Same s1 { s1 with log := s1.log ++ ([Event.adjusted (minValue z.recordQueue v)] ++
                  (if b then [.stepChange] else [])) } := fun b => ⟨by cases b <;> simp [completions_append, completions], rfl, rfl, rfl, by
                    cases b <;> simp [designCount]⟩
              rw [adjustStep_eq]
              refine ⟨?_, fun z' hz' => ?_, ?_, fun ha => ?_⟩
              · rw [evalLines_append, hst.evals, List.append_nil, hb.evals]
                exact congrArg (fun c : List (P × Val) => c.zipIdx.map fun p => (((p.2 + 1 : Nat) : Int), p.1.2, p.1.1))
                  (hd _).comps.symm
              · have hz' : some (z.adjust (failtol cfg sc) (maxfailtol cfg sc) (minValue z.recordQueue v)).1 = some z' := hz'
                simp only [Option.some.injEq] at hz'
                rw [← hz']
                exact adjustLines_radius _ _ _ _ _ (hb.radius z (hz.trans hzz))
              · have : headers ((l ++ [.completed (w.st.numEvals + 1) v r.x]) ++ adjustLines (failtol cfg sc) z (minValue z.recordQueue v)) =
                    headers (l ++ [.completed (w.st.numEvals + 1) v r.x]) := by
                  have h0 := hst.headers
                  unfold Spec.headers at h0 ⊢
                  rw [List.countP_append, h0, Nat.add_zero]
                rw [this, hb.headers]
                exact (hd _).designs.symm
              · rw [hst.since]
                exact hb.since ha
            · exact (base (w.recs.eraseIdx i)).same ⟨rfl, rfl, rfl, by
                rw [show s1.srbf = some z from hz.trans hzz]; rfl, rfl⟩
          · exact base _
  | @resume w l hw ih =>
    refine ih.same ?_
    simp only [Sys.resumed, resume_eq, State.note]
    exact ⟨by simp [completions_append, completions], rfl, rfl, rfl, by simp [designCount]⟩

end Verif.Strategy
