import Verif.Strategy.Inv

/-! # Objective functions that modify their argument

`make_proposal` (ss.py:301-306) hands out the very array popped from the queue (a copy goes to `Xpend`), POAP passes it to the
objective function as `record.params[0]`, and the callbacks read it again on completion (ss.py:355, 420).  An objective
function that works in place on its argument therefore changes what the strategy records. -/

set_option linter.unusedSectionVars false
set_option linter.unusedSimpArgs false

namespace Verif.Strategy

open Verif.Spec

variable {P : Type} [DecidableEq P] {cfg : Config P}

/-- The objective function overwrites the argument of the `i`-th running evaluation with `y`
(`record.params[0][:] = y`; the array belongs to this record only: rows of a design or copies, ss.py:236,
srbf_strategy.py:184.  Rows of `extra_points` are views of the user's array, which changes as well; not modelled). -/
def Sys.overwrite (w : Sys P) (i : Nat) (y : P) : Sys P :=
  { w with recs := w.recs.modify i fun r => { r with x := y } }

/-- Reachable when the objective function may overwrite its argument while it is running.
(ss.py:301-311: `record.params[0]` is the array that the strategy keeps.) -/
inductive MReach (cfg : Config P) : Sys P → Prop
  | create (o : Oracle P) : MReach cfg (Sys.create cfg o)
  | step {w w' : Sys P} (op : Op P) : MReach cfg w → w.step cfg op = some w' → MReach cfg w'
  | overwrite {w : Sys P} (i : Nat) (y : P) : MReach cfg w → MReach cfg (w.overwrite i y)
  | resume {w : Sys P} : MReach cfg w → MReach cfg w.resumed

/-- What holds of the bookkeeping whatever happens to the arguments. -/
structure Counts (cfg : Config P) (w : Sys P) : Prop where
  pending : w.st.pendingEvals = w.props.length + w.recs.length
  num : w.st.numEvals = (completions w.st.log).length
  X : w.st.X = (knownExtras cfg).map Prod.fst ++ (completions w.st.log).map Prod.fst
  fX : w.st.fX = (knownExtras cfg).map Prod.snd ++ (completions w.st.log).map Prod.snd
  fevals : w.st.fevals.map (fun f => (f.x, f.value)) = finished w.st.log
  acc : w.st.acceptedCount = (acceptedIds w.st.log).length
  rej : w.st.rejectedCount = (rejections w.st.log).length
  budget : w.st.numEvals + w.st.pendingEvals ≤ max cfg.maxEvals 0
  srbf : w.st.srbf.isSome = cfg.srbf.isSome

theorem Counts.extras_nil {w : Sys P} (h : Counts cfg w) (hX : w.st.X = []) :
    knownExtras cfg = [] := by
  have := h.X
  rw [hX] at this
  simpa using (List.append_eq_nil_iff.1 this.symm).1

theorem Counts.adj {w : Sys P} (h : Counts cfg w) (z : Srbf) (f : Val) (hs : w.st.srbf.isSome) :
    Counts cfg { w with st := { w.st with srbf := some z, log := w.st.log ++ [.adjusted f] } } := by
  constructor <;> simp [completions_append, finished_append, acceptedIds_append,
    rejections_append, openPoints_concat, openStep, completions, finished, acceptedIds, rejections,
    Sys.inflight]
  · exact h.pending
  · exact h.num
  · exact h.X
  · exact h.fX
  · exact h.fevals
  · exact h.acc
  · exact h.rej
  · have := h.budget; omega
  · have := h.srbf; simp_all

theorem Counts.stepChange {w : Sys P} (h : Counts cfg w) :
    Counts cfg { w with st := { w.st.moveEvLast with log := w.st.log ++ [.stepChange] } } := by
  constructor <;> simp [State.moveEvLast, completions_append, finished_append, acceptedIds_append,
    rejections_append, openPoints_concat, openStep, completions, finished, acceptedIds, rejections,
    Sys.inflight]
  · exact h.pending
  · exact h.num
  · exact h.X
  · exact h.fX
  · exact h.fevals
  · exact h.acc
  · exact h.rej
  · have := h.budget; omega
  · exact h.srbf

theorem counts_preserved (cfg : Config P) : Preserved cfg (Counts cfg) where
  create o := by
    constructor <;>
      simp [Sys.create, create_eq, State.blank, completions, finished, acceptedIds, rejections, openPoints,
        openStep, Sys.inflight]
  setTerm w h _ := ⟨h.pending, h.num, h.X, h.fX, h.fevals, h.acc, h.rej, h.budget, h.srbf⟩
  setPhase w h _ _ _ := ⟨h.pending, h.num, h.X, h.fX, h.fevals, h.acc, h.rej, h.budget, h.srbf⟩
  gen w o n s' h _ _ _ _ _ hg := by
    rcases generateEvals_cases hg with ⟨ws, z, rfl, hz⟩ | ⟨_, rfl, _⟩
    · constructor <;> simp [completions_append, finished_append, acceptedIds_append, rejections_append,
        openPoints_concat, openStep, completions, finished, acceptedIds, rejections, Sys.inflight]
      · exact h.pending
      · exact h.num
      · exact h.X
      · exact h.fX
      · exact h.fevals
      · exact h.acc
      · exact h.rej
      · have := h.budget; omega
      · have := h.srbf
        rcases hz with ⟨sc, z0, _, h1, h2, _, rfl⟩ | ⟨rfl, _⟩
        · simp [h1]
        · exact this
    · exact ⟨h.pending, h.num, h.X, h.fX, h.fevals, h.acc, h.rej, h.budget, h.srbf⟩
  restart w o h _ _ _ _ := by
    have hX : (if w.st.X = [] then (knownExtras cfg).map Prod.fst else []) = [] := by
      split
      · rename_i hh; simp [Counts.extras_nil h hh]
      · rfl
    have hfX : (if w.st.X = [] then (knownExtras cfg).map Prod.snd else []) = [] := by
      split
      · rename_i hh; simp [Counts.extras_nil h hh]
      · rfl
    constructor <;> simp only [sampleRestart_eq, hX, hfX, completions_append, finished_append,
      acceptedIds_append, rejections_append, openPoints_concat, openStep]
    · exact h.pending
    · simpa [completions] using h.num
    · simpa [completions] using h.X
    · simpa [completions] using h.fX
    · simpa [finished] using h.fevals
    · simpa [acceptedIds] using h.acc
    · simpa [rejections] using h.rej
    · exact h.budget
    · simpa using h.srbf
  term w h _ _ := by
    constructor <;> simp [State.note, completions_append, finished_append, acceptedIds_append,
        rejections_append, openPoints_concat, openStep, completions, finished, acceptedIds, rejections,
        Sys.inflight]
    · exact h.pending
    · exact h.num
    · exact h.X
    · exact h.fX
    · exact h.fevals
    · exact h.acc
    · exact h.rej
    · have := h.budget; omega
    · exact h.srbf
  pop w x q k h hg hcv hq hk := by
    have hb := hg.budget
    constructor <;> simp [State.makeProposal, State.note, completions_append, finished_append,
      acceptedIds_append, rejections_append, openPoints_concat, openStep, completions, finished, acceptedIds,
      rejections, Sys.inflight]
    · have := h.pending; omega
    · exact h.num
    · exact h.X
    · exact h.fX
    · exact h.fevals
    · exact h.acc
    · exact h.rej
    · omega
    · exact h.srbf
  accept w i p h hp := by
    have hl := length_eraseIdx' hp
    constructor <;> simp [State.onAccept, State.note, completions_append, finished_append,
      acceptedIds_append, rejections_append, openPoints_concat, openStep, completions, finished, acceptedIds,
      rejections]
    · have := h.pending; omega
    · exact h.num
    · exact h.X
    · exact h.fX
    · exact h.fevals
    · exact h.acc
    · exact h.rej
    · have := h.budget; omega
    · exact h.srbf
  rejectInit w i p h hp hk := by
    have hl := length_eraseIdx' hp
    constructor <;> simp [onInitialRejected_eq, State.note, completions_append, finished_append,
      acceptedIds_append, rejections_append, openPoints_concat, openStep, completions, finished, acceptedIds,
      rejections]
    · have := h.pending; omega
    · exact h.num
    · exact h.X
    · exact h.fX
    · exact h.fevals
    · exact h.acc
    · exact h.rej
    · have := h.budget; omega
    · exact h.srbf
  rejectAdapt w i p h hp hk := by
    have hl := length_eraseIdx' hp
    constructor <;> simp [onAdaptReject_eq, State.note, completions_append, finished_append,
      acceptedIds_append, rejections_append, openPoints_concat, openStep, completions, finished, acceptedIds,
      rejections]
    · have := h.pending; omega
    · exact h.num
    · exact h.X
    · exact h.fX
    · exact h.fevals
    · exact h.acc
    · exact h.rej
    · have := h.budget; omega
    · exact h.srbf
  completed w i r v h hr := by
    have hl := length_eraseIdx' hr
    constructor <;> simp [recordCompleted_eq, State.note, completions_append, finished_append,
      acceptedIds_append, rejections_append, openPoints_concat, openStep, completions, finished, acceptedIds,
      rejections]
    · have := h.pending; omega
    · exact h.num
    · have := h.X; simp [completions] at this; rw [this]; simp
    · have := h.fX; simp [completions] at this; rw [this]; simp
    · exact h.fevals
    · exact h.acc
    · exact h.rej
    · have := h.budget; omega
    · exact h.srbf
  adjusted w sc z v h hsc hz hc _ := by
    refine adjusted_of (I := Counts cfg) ?_ ?_ ?_ w sc z _ h hz hc
    · intro w z f h hs; exact h.adj z f hs
    · intro w h hs _; exact h.stepChange
    · intro w h _
      exact ⟨h.pending, h.num, h.X, h.fX, h.fevals, h.acc, h.rej, h.budget, h.srbf⟩
  queued w z v h hz _ _ := by
    refine ⟨h.pending, h.num, h.X, h.fX, h.fevals, h.acc, h.rej, h.budget, ?_⟩
    have := h.srbf
    simp_all
  aborted w i r h hr := by
    have hl := length_eraseIdx' hr
    constructor <;> simp [onAborted_eq, State.note, completions_append, finished_append,
      acceptedIds_append, rejections_append, openPoints_concat, openStep, completions, finished, acceptedIds,
      rejections]
    · have := h.pending; omega
    · exact h.num
    · exact h.X
    · exact h.fX
    · exact h.fevals
    · exact h.acc
    · exact h.rej
    · have := h.budget; omega
    · exact h.srbf
  resume w h := by
    have hp := h.pending
    constructor <;> simp only [Sys.resumed, resume_eq, State.note, completions_append, finished_append,
      acceptedIds_append, rejections_append, openPoints_concat, openStep, Sys.inflight]
    · simp
    · simpa [completions] using h.num
    · simpa [completions] using h.X
    · simpa [completions] using h.fX
    · simpa [finished] using h.fevals
    · simpa [acceptedIds] using h.acc
    · simpa [rejections] using h.rej
    · have := h.budget; omega
    · exact h.srbf

theorem Counts.overwrite {w : Sys P} (h : Counts cfg w) (i : Nat) (y : P) : Counts cfg (w.overwrite i y) :=
  ⟨by have := h.pending; simpa [Sys.overwrite] using this, h.num, h.X, h.fX, h.fevals, h.acc, h.rej, h.budget, h.srbf⟩

theorem MReach.counts {w : Sys P} (h : MReach cfg w) : Counts cfg w := by
  induction h with
  | create o => exact (counts_preserved cfg).create o
  | step op _ hs ih => exact (counts_preserved cfg).step ih hs
  | overwrite i y _ ih => exact ih.overwrite i y
  | resume _ ih => exact (counts_preserved cfg).resume _ ih

theorem Reach.mreach {w : Sys P} (h : Reach cfg w) : MReach cfg w := by
  induction h with
  | create o => exact .create o
  | step op _ hs ih => exact ih.step op hs
  | resume _ ih => exact ih.resume

end Verif.Strategy
