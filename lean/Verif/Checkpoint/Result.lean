import Verif.Checkpoint.Endings
import Mathlib.Data.List.MinMax
import Mathlib.Data.List.Nodup

/-!
# The result of a run

The record returned by `CheckpointController.run` and `resume` (/repo/pySOT/controller/controller.py:65-78,121-131, cited
`ctl.py`) is the return value of POAP's `Controller.run`: the completed record with the smallest value in the controller's
list of records `controller.fevals` (POAP contract: Python's `min` over the completed records, so the first minimal one).
-/

set_option linter.unusedSectionVars false

namespace Verif.Checkpoint

open Verif.Strategy Verif.Spec

variable {P : Type} [DecidableEq P]

/-- Status of an evaluation record. (POAP `EvalRecord`; read in controller.py:86-91.) -/
inductive Status
  | running
  | completed (v : Val)
  | dead
  deriving DecidableEq, Repr

/-- An entry of `controller.fevals`: point, `ev_id` (set by the strategy, ss.py:208-211), status. -/
structure CRec (P : Type) where
  x : P
  ev : Nat
  status : Status
  deriving DecidableEq, Repr

/-- Point and value of a completed record. (POAP `EvalRecord`; read in controller.py:86.) -/
def CRec.done (c : CRec P) : Option (P × Val) :=
  match c.status with
  | .completed v => some (c.x, v)
  | _ => none

/-- POAP's `best_point`: the first completed record with the smallest value. (the return value of controller.py:78, 131.) -/
def bestPoint (fevals : List (CRec P)) : Option (P × Val) := (fevals.filterMap CRec.done).argmin Prod.snd

/-- An entry of the list `fevals` of the strategy as a record (ss.py:367,375,432,439 append the record itself). -/
def CRec.ofFinished (f : Finished P) : CRec P :=
  ⟨f.x, f.evId, match f.value with | some v => .completed v | none => .dead⟩

/-- World, list of records of the controller, result of the last run that ended, and (ghost) all evaluations that were
ever completed, in any process. -/
structure RWorld (P : Type) where
  W : World P
  fevals : List (CRec P)
  result : Option (P × Val)
  ever : List (P × Val)

/-- A running record with this identifier gets the status. (POAP contract; callbacks controller.py:80-91.) -/
def finish (e : Nat) (s : Status) (c : CRec P) : CRec P :=
  if c.status = .running ∧ c.ev = e then { c with status := s } else c

/-- The records of the controller after an event.  `run`: the user has put the points `reg` with known values in the
list (examples/example_extra_vals.py:65-70).  `resume`: ctl.py:75-76. -/
def fevalsStep (reg : List (P × Val)) (R : RWorld P) : WOp P → List (CRec P)
  | .run _ => reg.map fun p => ⟨p.1, 0, .completed p.2⟩
  | .resume => match R.W.disk with
    | none => R.fevals
    | some d => d.st.fevals.map CRec.ofFinished
  | .crash => R.fevals
  | .ev op => match R.W.proc with
    | none => R.fevals
    | some w => match op with
      | .accept i => match w.props[i]? with
        | none => R.fevals
        | some p => R.fevals ++ [⟨p.x, w.st.evNext, .running⟩]
      | .complete i v => match w.recs[i]? with
        | none => R.fevals
        | some r => R.fevals.map (finish r.evId (.completed v))
      | .abort i => match w.recs[i]? with
        | none => R.fevals
        | some r => R.fevals.map (finish r.evId .dead)
      | _ => R.fevals

/-- The result after an event: set when the strategy proposes to terminate (POAP contract: `Controller.run` ends with
`return self.best_point()`). (controller.py:78, 131.) -/
def resultStep (cfg : Config P) (R : RWorld P) : WOp P → Option (P × Val)
  | .ev op => match R.W.proc with
    | none => R.result
    | some w => if terminates cfg w op then bestPoint R.fevals else R.result
  | _ => R.result

/-- The evaluations ever completed, after an event. (Ghost; completions seen at controller.py:86.) -/
def everStep (R : RWorld P) : WOp P → List (P × Val)
  | .ev (.complete i v) => match R.W.proc with
    | none => R.ever
    | some w => match w.recs[i]? with
      | none => R.ever
      | some r => R.ever ++ [(r.x, v)]
  | _ => R.ever

/-- One event; `none` if it is not possible or refused with `IOError`. (controller.py:65-131.) -/
def RWorld.step (first : Bool) (cfg : Config P) (reg : List (P × Val)) (R : RWorld P) (op : WOp P) :
    Option (RWorld P) :=
  match R.W.step first cfg op with
  | some (.ok W') => some ⟨W', fevalsStep reg R op, resultStep cfg R op, everStep R op⟩
  | _ => none

/-- Several events. (controller.py:65-131.) -/
def RWorld.steps (first : Bool) (cfg : Config P) (reg : List (P × Val)) (R : RWorld P) : List (WOp P) → Option (RWorld P)
  | [] => some R
  | op :: ops => match R.step first cfg reg op with
    | none => none
    | some R' => R'.steps first cfg reg ops

/-- The empty directory. (controller.py:129.) -/
def RWorld.empty : RWorld P := ⟨⟨none, none, 0, 0⟩, [], none, []⟩

/-- All worlds that can arise from an empty directory. -/
inductive RReach (first : Bool) (cfg : Config P) (reg : List (P × Val)) : RWorld P → Prop
  | init : RReach first cfg reg RWorld.empty
  | step {R R' : RWorld P} (op : WOp P) : RReach first cfg reg R → R.step first cfg reg op = some R' →
    RReach first cfg reg R'

variable {cfg : Config P} {first : Bool} {reg : List (P × Val)}

theorem RReach.steps {R R' : RWorld P} (ops : List (WOp P)) (h : RReach first cfg reg R)
    (hs : R.steps first cfg reg ops = some R') : RReach first cfg reg R' := by
  induction ops generalizing R with
  | nil => simp only [RWorld.steps, Option.some.injEq] at hs; exact hs ▸ h
  | cons op ops ih =>
    simp only [RWorld.steps] at hs
    split at hs
    · cases hs
    · rename_i R1 h1
      exact ih (h.step op h1) hs

theorem RReach.base {R : RWorld P} (h : RReach first cfg reg R) : WReach first cfg R.W := by
  induction h with
  | init => exact .init
  | @step R R' op _ hs ih =>
    simp only [RWorld.step] at hs
    split at hs
    · rename_i W' hW
      simp only [Option.some.injEq] at hs
      subst hs
      exact .step op ih hW
    · cases hs

/-- Without checkpoint file nothing was ever resumed. -/
theorem WReach.no_resume {W : World P} (h : WReach first cfg W) : W.disk = none → W.resumes = 0 := by
  induction h with
  | init => exact fun _ => rfl
  | @step W W' op _ hs ih =>
    intro hd
    cases op with
    | run o =>
      simp only [World.step] at hs
      split at hs
      · cases hs
      · split at hs
        · cases hs
        · simp only [Option.some.injEq, Res.ok.injEq] at hs; subst hs; exact ih hd
    | resume =>
      simp only [World.step] at hs
      split at hs
      · cases hs
      · split at hs
        · cases hs
        · rename_i hd'
          simp only [Option.some.injEq, Res.ok.injEq] at hs; subst hs
          simp only at hd; rw [hd] at hd'; cases hd'
    | crash =>
      simp only [World.step] at hs
      split at hs
      · cases hs
      · simp only [Option.some.injEq, Res.ok.injEq] at hs; subst hs; exact ih hd
    | ev op =>
      simp only [World.step] at hs
      split at hs
      · cases hs
      · split at hs
        · cases hs
        · split at hs
          · simp only [Option.some.injEq, Res.ok.injEq] at hs; subst hs; cases hd
          · split at hs
            · simp only [Option.some.injEq, Res.ok.injEq] at hs; subst hs; cases hd
            · simp only [Option.some.injEq, Res.ok.injEq] at hs; subst hs; exact ih hd

/-- The records of the controller, the running records and the history of the process agree. -/
structure Agree (fevals : List (CRec P)) (w : Sys P) (extra : P × Val → Prop) : Prop where
  run : ∀ e x, (∃ c ∈ fevals, c.status = .running ∧ c.ev = e ∧ c.x = x) ↔ ∃ r ∈ w.recs, r.evId = e ∧ r.x = x
  done : ∀ p, p ∈ fevals.filterMap CRec.done ↔ p ∈ completions w.st.log ∨ extra p

theorem done_eq_some {c : CRec P} {p : P × Val} : c.done = some p ↔ c.x = p.1 ∧ c.status = .completed p.2 := by
  unfold CRec.done
  obtain ⟨a, b⟩ := p
  split
  · rename_i v h
    simp [h]
  · rename_i h
    simp only [reduceCtorEq, false_iff]
    rintro ⟨_, h2⟩
    exact h _ h2

theorem mem_done {l : List (CRec P)} {p : P × Val} :
    p ∈ l.filterMap CRec.done ↔ ∃ c ∈ l, c.x = p.1 ∧ c.status = .completed p.2 := by
  simp only [List.mem_filterMap, done_eq_some]

/-- Records with the same identifier are the same. -/
theorem rec_unique {w : Sys P} (h : Uniq w) {r r' : Rec P} (hr : r ∈ w.recs) (hr' : r' ∈ w.recs)
    (he : r.evId = r'.evId) : r = r' := by
  have := (List.nodup_append.1 h.nodup).2.1
  exact List.inj_on_of_nodup_map this hr hr' he

/-- The records that are left when the `i`-th has ended. -/
theorem rec_erase {w : Sys P} (h : Uniq w) {i : Nat} {r : Rec P} (hi : w.recs[i]? = some r) (r' : Rec P) :
    r' ∈ w.recs.eraseIdx i ↔ r' ∈ w.recs ∧ r'.evId ≠ r.evId := by
  have hp : List.Perm w.recs (r :: w.recs.eraseIdx i) := perm_eraseIdx hi
  have hm : r' ∈ w.recs ↔ r' = r ∨ r' ∈ w.recs.eraseIdx i := by rw [hp.mem_iff]; simp
  have hn : ((r :: w.recs.eraseIdx i).map Rec.evId).Nodup :=
    ((hp.map Rec.evId).nodup_iff).1 (List.nodup_append.1 h.nodup).2.1
  rw [hm]
  constructor
  · intro hr'
    refine ⟨.inr hr', fun e => ?_⟩
    rw [List.map_cons, List.nodup_cons] at hn
    exact hn.1 (e ▸ List.mem_map_of_mem hr')
  · rintro ⟨rfl | h1, h2⟩
    · exact absurd rfl h2
    · exact h1

/-- Ending a record, with or without value. -/
theorem Agree.finish {fevals : List (CRec P)} {w w' : Sys P} {extra : P × Val → Prop} (h : Agree fevals w extra)
    (hu : Uniq w) {i : Nat} {r : Rec P} (hi : w.recs[i]? = some r) (hrs : w'.recs = w.recs.eraseIdx i)
    (s : Status) (hs : s ≠ .running)
    (hc : ∀ p, p ∈ completions w'.st.log ↔ p ∈ completions w.st.log ∨ (p.1 = r.x ∧ s = .completed p.2)) :
    Agree (fevals.map (finish r.evId s)) w' extra := by
  have hr : r ∈ w.recs := List.mem_of_getElem? hi
  have hfx : ∀ c : CRec P, (Checkpoint.finish r.evId s c).x = c.x := by
    intro c; unfold Checkpoint.finish; split <;> rfl
  have hfe : ∀ c : CRec P, (Checkpoint.finish r.evId s c).ev = c.ev := by
    intro c; unfold Checkpoint.finish; split <;> rfl
  have hfs : ∀ c : CRec P, (Checkpoint.finish r.evId s c).status =
      if c.status = .running ∧ c.ev = r.evId then s else c.status := by
    intro c; unfold Checkpoint.finish; split <;> rfl
  constructor
  · intro e x
    rw [hrs]
    constructor
    · rintro ⟨c', hc', h1, h2, h3⟩
      obtain ⟨c, hc, rfl⟩ := List.mem_map.1 hc'
      rw [hfs] at h1
      rw [hfe] at h2
      rw [hfx] at h3
      split at h1
      · exact absurd h1 hs
      · rename_i hne
        obtain ⟨r', hr', h4, h5⟩ := (h.run e x).1 ⟨c, hc, h1, h2, h3⟩
        refine ⟨r', (rec_erase hu hi r').2 ⟨hr', fun he => hne ⟨h1, ?_⟩⟩, h4, h5⟩
        rw [h2, ← h4, he]
    · rintro ⟨r', hr', h4, h5⟩
      obtain ⟨h6, h7⟩ := (rec_erase hu hi r').1 hr'
      obtain ⟨c, hc, h1, h2, h3⟩ := (h.run e x).2 ⟨r', h6, h4, h5⟩
      refine ⟨_, List.mem_map_of_mem hc, ?_, by rw [hfe]; exact h2, by rw [hfx]; exact h3⟩
      rw [hfs, if_neg]
      · exact h1
      · rintro ⟨_, h8⟩
        exact h7 (by rw [h4, ← h2, h8])
  · intro p
    rw [hc p, or_right_comm, ← h.done p, mem_done, mem_done]
    constructor
    · rintro ⟨c', hc', h1, h2⟩
      obtain ⟨c, hc, rfl⟩ := List.mem_map.1 hc'
      rw [hfx] at h1
      rw [hfs] at h2
      split at h2
      · rename_i hq
        obtain ⟨r', hr', h4, h5⟩ := (h.run r.evId c.x).1 ⟨c, hc, hq.1, hq.2, rfl⟩
        have := rec_unique hu hr' hr h4
        subst this
        exact .inr ⟨by rw [← h1, h5], h2⟩
      · exact .inl ⟨c, hc, h1, h2⟩
    · rintro (⟨c, hc, h1, h2⟩ | ⟨h1, h2⟩)
      · refine ⟨_, List.mem_map_of_mem hc, by rw [hfx]; exact h1, ?_⟩
        rw [hfs, if_neg]
        · exact h2
        · rw [h2]; simp
      · obtain ⟨c, hc, h3, h4, h5⟩ := (h.run r.evId r.x).2 ⟨r, hr, rfl, rfl⟩
        refine ⟨_, List.mem_map_of_mem hc, by rw [hfx, h5, h1], ?_⟩
        rw [hfs, if_pos ⟨h3, h4⟩, h2]

/-- An event that neither creates nor ends a record. -/
theorem Agree.of_same {fevals : List (CRec P)} {w w' : Sys P} {extra : P × Val → Prop} (h : Agree fevals w extra)
    (hr : w'.recs = w.recs) (hc : completions w'.st.log = completions w.st.log) : Agree fevals w' extra :=
  ⟨by rw [hr]; exact h.run, by rw [hc]; exact h.done⟩

/-- The invariant: see `Agree`; and every evaluation ever completed is known to the process, if the strategy handles a
completion before the checkpoint is written. -/
structure RInv (first : Bool) (cfg : Config P) (reg : List (P × Val)) (R : RWorld P) : Prop where
  agree : ∀ w, R.W.proc = some w → Agree R.fevals w fun p => p ∈ reg ∧ R.W.resumes = 0
  ever : first = false → (∀ w, R.W.proc = some w → R.ever = completions w.st.log) ∧
    (∀ d, R.W.disk = some d → R.ever = completions d.st.log) ∧ (R.W.disk = none → R.ever = [])

theorem step_done {w w' : Sys P} {i : Nat} {v : Val} {r : Rec P} (hr : w.recs[i]? = some r)
    (h : w.step cfg (.complete i v) = some w') :
    completions w'.st.log = completions w.st.log ++ [(r.x, v)] ∧ w'.recs = w.recs.eraseIdx i := by
  simp only [Sys.step, hr, Option.some.injEq] at h
  subst h
  refine ⟨?_, rfl⟩
  simp only
  rw [(onCompleted_ext _ _ _ _ _).completions]
  simp [State.note, completions]

theorem completions_nil {w w' : Sys P} {op : Op P} (h : w.step cfg op = some w') (hw : Reach cfg w)
    (h0 : Op.completes op = 0) : completions w'.st.log = completions w.st.log := by
  obtain ⟨c, h1, h2⟩ := step_completions h hw
  rw [h0] at h2
  rw [h1, List.eq_nil_of_length_eq_zero h2, List.append_nil]

/-- What an event of the process does to the records of the controller. -/
theorem Agree.ev {R : RWorld P} {w w' : Sys P} {op : Op P} {extra : P × Val → Prop} (hp : R.W.proc = some w)
    (hw : Reach cfg w) (h : Agree R.fevals w extra) (hs : w.step cfg op = some w') :
    Agree (fevalsStep reg R (.ev op)) w' extra := by
  cases op with
  | propose o =>
    have hc := completions_nil hs hw rfl
    simp only [fevalsStep, hp]
    refine h.of_same ?_ hc
    simp only [Sys.step] at hs
    split at hs
    · cases hs
    all_goals simp only [Option.some.injEq] at hs; subst hs; rfl
  | accept i =>
    have hc := completions_nil hs hw rfl
    simp only [Sys.step] at hs
    split at hs
    · cases hs
    · rename_i p hpi
      simp only [Option.some.injEq] at hs
      subst hs
      simp only [fevalsStep, hp, hpi]
      constructor
      · intro e x
        simp only [List.mem_append, List.mem_singleton]
        constructor
        · rintro ⟨c, hc' | rfl, h1, h2, h3⟩
          · obtain ⟨r, hr, h4⟩ := (h.run e x).1 ⟨c, hc', h1, h2, h3⟩
            exact ⟨r, .inl hr, h4⟩
          · exact ⟨_, .inr rfl, h2, h3⟩
        · rintro ⟨r, hr | rfl, h1, h2⟩
          · obtain ⟨c, hc', h3⟩ := (h.run e x).2 ⟨r, hr, h1, h2⟩
            exact ⟨c, .inl hc', h3⟩
          · exact ⟨_, .inr rfl, rfl, h1, h2⟩
      · intro p'
        rw [hc, ← h.done p', List.filterMap_append]
        simp [CRec.done]
  | reject i =>
    have hc := completions_nil hs hw rfl
    simp only [fevalsStep, hp]
    refine h.of_same ?_ hc
    simp only [Sys.step] at hs
    split at hs
    · cases hs
    · simp only [Option.some.injEq] at hs; subst hs; rfl
  | complete i v =>
    cases hr : w.recs[i]? with
    | none => simp [Sys.step, hr] at hs
    | some r =>
      obtain ⟨h1, h2⟩ := step_done hr hs
      simp only [fevalsStep, hp, hr]
      refine h.finish hw.uniq hr h2 _ (by simp) ?_
      intro p
      obtain ⟨a, b⟩ := p
      rw [h1]
      simp only [List.mem_append, List.mem_singleton, Prod.mk.injEq, Status.completed.injEq]
      constructor
      · rintro (h | ⟨rfl, rfl⟩)
        · exact .inl h
        · exact .inr ⟨rfl, rfl⟩
      · rintro (h | ⟨rfl, rfl⟩)
        · exact .inl h
        · exact .inr ⟨rfl, rfl⟩
  | abort i =>
    have hc := completions_nil hs hw rfl
    cases hr : w.recs[i]? with
    | none => simp [Sys.step, hr] at hs
    | some r =>
      simp only [fevalsStep, hp, hr]
      refine h.finish hw.uniq hr ?_ _ (by simp) ?_
      · simp only [Sys.step, hr, Option.some.injEq] at hs; subst hs; rfl
      · intro p; rw [hc]; simp
  | update i =>
    have hc := completions_nil hs hw rfl
    simp only [fevalsStep, hp]
    refine h.of_same ?_ hc
    simp only [Sys.step] at hs
    split at hs
    · cases hs
    · simp only [Option.some.injEq] at hs; subst hs; rfl

theorem everStep_ev {R : RWorld P} {w w' : Sys P} {op : Op P} (hp : R.W.proc = some w) (hw : Reach cfg w)
    (he : R.ever = completions w.st.log) (hs : w.step cfg op = some w') :
    everStep R (.ev op) = completions w'.st.log := by
  cases op with
  | complete i v =>
    cases hr : w.recs[i]? with
    | none => simp [Sys.step, hr] at hs
    | some r =>
      rw [(step_done hr hs).1]
      simp only [everStep, hp, hr, he]
  | _ => rw [completions_nil hs hw rfl]; simpa [everStep] using he

theorem RReach.inv {R : RWorld P} (h : RReach first cfg reg R) : RInv first cfg reg R := by
  induction h with
  | init => exact ⟨fun _ hw => (nomatch hw), fun _ => ⟨fun _ hw => (nomatch hw), fun _ hd => (nomatch hd), fun _ => rfl⟩⟩
  | @step R R' op hR hs ih =>
    have hbase := hR.base
    simp only [RWorld.step] at hs
    split at hs
    on_goal 2 => cases hs
    rename_i W' hW
    simp only [Option.some.injEq] at hs
    subst hs
    cases op with
    | run o =>
      simp only [World.step] at hW
      split at hW
      · cases hW
      · split at hW
        · cases hW
        · rename_i hp hd
          simp only [Option.some.injEq, Res.ok.injEq] at hW; subst hW
          have h0 : R.W.resumes = 0 := hbase.no_resume hd
          constructor
          · intro w hw
            simp only [Option.some.injEq] at hw; subst hw
            constructor
            · intro e x
              simp [fevalsStep, Sys.create]
            · intro p
              obtain ⟨a, b⟩ := p
              simp [fevalsStep, done_eq_some, Sys.create, create_eq, completions, h0]
          · intro hf
            obtain ⟨h1, h2, h3⟩ := ih.ever hf
            refine ⟨?_, h2, h3⟩
            intro w hw
            simp only [Option.some.injEq] at hw; subst hw
            simp [everStep, h3 hd, Sys.create, create_eq, completions]
    | resume =>
      simp only [World.step] at hW
      split at hW
      · cases hW
      · split at hW
        · cases hW
        · rename_i hp d hd
          simp only [Option.some.injEq, Res.ok.injEq] at hW; subst hW
          constructor
          · intro w hw
            simp only [Option.some.injEq] at hw; subst hw
            have hr := hbase.inv.disk d hd
            constructor
            · intro e x
              simp only [fevalsStep, hd, List.mem_map]
              constructor
              · rintro ⟨c, ⟨f, _, rfl⟩, h1, _⟩
                unfold CRec.ofFinished at h1
                simp only at h1
                split at h1 <;> cases h1
              · rintro ⟨r, hr, _⟩
                simp [Sys.resumed] at hr
            · intro p
              obtain ⟨a, b⟩ := p
              have hfin : (a, b) ∈ completions d.st.log ↔ (a, some b) ∈ finished d.st.log := by
                simp only [completions, finished, List.mem_filterMap]
                constructor
                · rintro ⟨e, he, h⟩
                  refine ⟨e, he, ?_⟩
                  cases e <;> simp_all
                · rintro ⟨e, he, h⟩
                  refine ⟨e, he, ?_⟩
                  cases e <;> simp_all
              rw [resumed_completions, hfin, ← hr.book.fevals, mem_done]
              simp only [fevalsStep, hd, List.mem_map, Prod.mk.injEq, Nat.add_eq_zero_iff, one_ne_zero, and_false, or_false]
              constructor
              · rintro ⟨c, ⟨f, hf, rfl⟩, h1, h2⟩
                refine ⟨f, hf, h1, ?_⟩
                unfold CRec.ofFinished at h2
                simp only at h2
                split at h2
                · rename_i v hv
                  rw [hv]; simpa using h2
                · cases h2
              · rintro ⟨f, hf, h1, h2⟩
                refine ⟨_, ⟨f, hf, rfl⟩, h1, ?_⟩
                unfold CRec.ofFinished
                simp only [h2]
          · intro hf
            obtain ⟨h1, h2, h3⟩ := ih.ever hf
            refine ⟨?_, h2, h3⟩
            intro w hw
            simp only [Option.some.injEq] at hw; subst hw
            rw [resumed_completions]
            exact h2 d hd
    | crash =>
      simp only [World.step] at hW
      split at hW
      · cases hW
      · simp only [Option.some.injEq, Res.ok.injEq] at hW; subst hW
        exact ⟨fun _ hw => (nomatch hw), fun hf => ⟨fun _ hw => (nomatch hw), (ih.ever hf).2⟩⟩
    | ev op =>
      simp only [World.step] at hW
      split at hW
      · cases hW
      · rename_i w hp
        split at hW
        · cases hW
        · rename_i w' hst
          have hr := hbase.inv.proc w hp
          have hag := Agree.ev (reg := reg) hp hr (ih.agree w hp) hst
          split at hW
          · rename_i hfin
            simp only [Option.some.injEq, Res.ok.injEq] at hW; subst hW
            constructor
            · intro v hv
              simp only [Option.some.injEq] at hv; subst hv
              exact hag
            · intro hf
              have he := everStep_ev hp hr ((ih.ever hf).1 w hp) hst
              refine ⟨?_, ?_, by intro h; cases h⟩
              · intro v hv
                simp only [Option.some.injEq] at hv; subst hv
                exact he
              · intro v hv
                rw [hf] at hv
                simp only [Bool.false_eq_true, if_false, Option.some.injEq] at hv; subst hv
                exact he
          · rename_i hfin
            have hc0 : Op.completes op = 0 := by
              cases op <;> simp [Op.finishes, Op.completes] at hfin ⊢
            have hc := completions_nil hst hr hc0
            split at hW
            · simp only [Option.some.injEq, Res.ok.injEq] at hW; subst hW
              constructor
              · intro v hv; cases hv
              · intro hf
                have he := everStep_ev hp hr ((ih.ever hf).1 w hp) hst
                refine ⟨fun _ hv => (nomatch hv), ?_, fun h => (nomatch h)⟩
                intro v hv
                simp only [Option.some.injEq] at hv; subst hv
                exact he
            · simp only [Option.some.injEq, Res.ok.injEq] at hW; subst hW
              constructor
              · intro v hv
                simp only [Option.some.injEq] at hv; subst hv
                exact hag
              · intro hf
                have he := everStep_ev hp hr ((ih.ever hf).1 w hp) hst
                have hsame : everStep R (.ev op) = R.ever := by rw [he, hc, (ih.ever hf).1 w hp]
                refine ⟨?_, ?_, ?_⟩
                · intro v hv
                  simp only [Option.some.injEq] at hv; subst hv
                  exact he
                · intro d hd; simp only at hd ⊢; rw [hsame]; exact (ih.ever hf).2.1 d hd
                · intro hn; simp only at hn ⊢; rw [hsame]; exact (ih.ever hf).2.2 hn

theorem everStep_add {R : RWorld P} {w w' : Sys P} {op : Op P} (hp : R.W.proc = some w) (hw : Reach cfg w)
    (hs : w.step cfg op = some w') : ∃ c, everStep R (.ev op) = R.ever ++ c ∧
      completions w'.st.log = completions w.st.log ++ c ∧ c.length = Op.completes op := by
  cases op with
  | complete i v =>
    cases hr : w.recs[i]? with
    | none => simp [Sys.step, hr] at hs
    | some r => exact ⟨[(r.x, v)], by simp only [everStep, hp, hr], (step_done hr hs).1, rfl⟩
  | _ => exact ⟨[], by simp [everStep], by rw [completions_nil hs hw rfl, List.append_nil], rfl⟩

/-- What a process and the checkpoint know has been evaluated, in this order; `total` counts the evaluations. -/
structure Sub (R : RWorld P) : Prop where
  proc : ∀ w, R.W.proc = some w → List.Sublist (completions w.st.log) R.ever
  disk : ∀ d, R.W.disk = some d → List.Sublist (completions d.st.log) R.ever
  tot : R.ever.length = R.W.total

theorem RReach.sub {R : RWorld P} (h : RReach first cfg reg R) : Sub R := by
  induction h with
  | init => exact ⟨fun _ hw => (nomatch hw), fun _ hd => (nomatch hd), rfl⟩
  | @step R R' op hR hs ih =>
    have hbase := hR.base
    simp only [RWorld.step] at hs
    split at hs
    on_goal 2 => cases hs
    rename_i W' hW
    simp only [Option.some.injEq] at hs
    subst hs
    cases op with
    | run o =>
      simp only [World.step] at hW
      split at hW
      · cases hW
      · split at hW
        · cases hW
        · simp only [Option.some.injEq, Res.ok.injEq] at hW; subst hW
          refine ⟨?_, ih.disk, ih.tot⟩
          intro w hw
          simp only [Option.some.injEq] at hw; subst hw
          simp [Sys.create, create_eq, completions]
    | resume =>
      simp only [World.step] at hW
      split at hW
      · cases hW
      · split at hW
        · cases hW
        · rename_i hp d hd
          simp only [Option.some.injEq, Res.ok.injEq] at hW; subst hW
          refine ⟨?_, ih.disk, ih.tot⟩
          intro w hw
          simp only [Option.some.injEq] at hw; subst hw
          rw [resumed_completions]
          exact ih.disk d hd
    | crash =>
      simp only [World.step] at hW
      split at hW
      · cases hW
      · simp only [Option.some.injEq, Res.ok.injEq] at hW; subst hW
        exact ⟨fun _ hw => (nomatch hw), ih.disk, ih.tot⟩
    | ev op =>
      simp only [World.step] at hW
      split at hW
      · cases hW
      · rename_i w hp
        split at hW
        · cases hW
        · rename_i w' hst
          have hr := hbase.inv.proc w hp
          obtain ⟨c, he, hc, hl⟩ := everStep_add hp hr hst
          have h1 : List.Sublist (completions w'.st.log) (everStep R (.ev op)) := by
            rw [he, hc]; exact (ih.proc w hp).append_right c
          have h2 : List.Sublist (completions w.st.log) (everStep R (.ev op)) := by
            rw [he]; exact (ih.proc w hp).trans (List.sublist_append_left _ _)
          have h3 : (everStep R (.ev op)).length = R.W.total + Op.completes op := by
            rw [he, List.length_append, ih.tot, hl]
          split at hW
          · simp only [Option.some.injEq, Res.ok.injEq] at hW; subst hW
            refine ⟨?_, ?_, h3⟩
            · intro v hv
              simp only [Option.some.injEq] at hv; subst hv; exact h1
            · intro v hv
              simp only [Option.some.injEq] at hv; subst hv
              cases first
              · exact h1
              · exact h2
          · rename_i hfin
            have hc0 : Op.completes op = 0 := by
              cases op <;> simp [Op.finishes, Op.completes] at hfin ⊢
            rw [hc0, Nat.add_zero] at h3
            split at hW
            · simp only [Option.some.injEq, Res.ok.injEq] at hW; subst hW
              refine ⟨fun _ hv => (nomatch hv), ?_, h3⟩
              intro v hv
              simp only [Option.some.injEq] at hv; subst hv; exact h1
            · simp only [Option.some.injEq, Res.ok.injEq] at hW; subst hW
              refine ⟨?_, ?_, h3⟩
              · intro v hv
                simp only [Option.some.injEq] at hv; subst hv; exact h1
              · intro d hd
                rw [he]
                exact (ih.disk d hd).trans (List.sublist_append_left _ _)

end Verif.Checkpoint
