import Verif.Strategy.Fields

/-! # Invariants of the strategy: bookkeeping -/

set_option linter.unusedSectionVars false
set_option linter.unusedSimpArgs false

namespace Verif.Strategy

open Verif.Spec

variable {P : Type} [DecidableEq P] {cfg : Config P}

/-! ### Histories: one event appended -/

section spec
variable (l : List (Event P)) (e : Event P)

theorem completions_append (l m : List (Event P)) :
    completions (l ++ m) = completions l ++ completions m := by simp [completions]
theorem finished_append (l m : List (Event P)) :
    finished (l ++ m) = finished l ++ finished m := by simp [finished]
theorem acceptedIds_append (l m : List (Event P)) :
    acceptedIds (l ++ m) = acceptedIds l ++ acceptedIds m := by simp [acceptedIds]
theorem rejections_append (l m : List (Event P)) :
    rejections (l ++ m) = rejections l ++ rejections m := by simp [rejections]
theorem queuedBy_append (l m : List (Event P)) :
    queuedBy (l ++ m) = queuedBy l ++ queuedBy m := by simp [queuedBy]
theorem droppedBy_append (b : Bool) (l m : List (Event P)) :
    droppedBy b (l ++ m) = droppedBy b l ++ droppedBy b m := by simp [droppedBy]
theorem crashedBy_append (l m : List (Event P)) :
    crashedBy (l ++ m) = crashedBy l ++ crashedBy m := by simp [crashedBy]
theorem openPoints_concat : openPoints (l ++ [e]) = openStep (openPoints l) e := by
  simp [openPoints, List.foldl_append]
end spec

/-- Bookkeeping invariant. -/
structure Book (cfg : Config P) (w : Sys P) : Prop where
  pending : w.st.pendingEvals = w.props.length + w.recs.length
  num : w.st.numEvals = (completions w.st.log).length
  X : w.st.X = (knownExtras cfg).map Prod.fst ++ (completions w.st.log).map Prod.fst
  fX : w.st.fX = (knownExtras cfg).map Prod.snd ++ (completions w.st.log).map Prod.snd
  fevals : w.st.fevals.map (fun f => (f.x, f.value)) = finished w.st.log
  acc : w.st.acceptedCount = (acceptedIds w.st.log).length
  rej : w.st.rejectedCount = (rejections w.st.log).length
  budget : w.st.numEvals + w.st.pendingEvals ≤ max cfg.maxEvals 0
  srbf : w.st.srbf.isSome = cfg.srbf.isSome
  opn : (openPoints w.st.log).Perm w.inflight

theorem knownExtras_nil_of {w : Sys P} (h : Book cfg w) (hX : w.st.X = []) :
    knownExtras cfg = [] := by
  have := h.X
  rw [hX] at this
  simpa using (List.append_eq_nil_iff.1 this.symm).1

theorem perm_erase_of {α : Type} [DecidableEq α] {l m : List α} {x : α}
    (h : l.Perm (x :: m)) : (l.erase x).Perm m := by
  have := h.erase x
  simpa using this

theorem inflight_props {w : Sys P} {i : Nat} {p : Proposal P} (h : w.props[i]? = some p) :
    w.inflight.Perm (p.x :: ((w.props.eraseIdx i).map Proposal.x ++ w.recs.map Rec.x)) := by
  have := ((perm_eraseIdx h).map Proposal.x)
  simpa [Sys.inflight] using this.append_right (w.recs.map Rec.x)

theorem inflight_recs {w : Sys P} {i : Nat} {r : Rec P} (h : w.recs[i]? = some r) :
    w.inflight.Perm (r.x :: (w.props.map Proposal.x ++ (w.recs.eraseIdx i).map Rec.x)) := by
  have := ((perm_eraseIdx h).map Rec.x)
  have h2 := this.append_left (w.props.map Proposal.x)
  simp only [Sys.inflight]
  refine h2.trans ?_
  simp only [List.map_cons]
  exact List.perm_middle

theorem Book.adj {w : Sys P} (h : Book cfg w) (z : Srbf) (f : Val) (hs : w.st.srbf.isSome) :
    Book cfg { w with st := { w.st with srbf := some z, log := w.st.log ++ [.adjusted f] } } := by
  constructor <;> simp [completions_append, finished_append, acceptedIds_append,
    rejections_append, openPoints_concat, openStep, completions, finished, acceptedIds, rejections,
    Sys.inflight]
  · exact h.pending
  · exact h.num
  · exact h.X
  · exact h.fX
  · exact h.fevals
  · exact h.acc
  · exact h.rej
  · have := h.budget; omega
  · have := h.srbf; simp_all
  · exact h.opn

theorem Book.stepChange {w : Sys P} (h : Book cfg w) :
    Book cfg { w with st := { w.st.moveEvLast with log := w.st.log ++ [.stepChange] } } := by
  constructor <;> simp [State.moveEvLast, completions_append, finished_append, acceptedIds_append,
    rejections_append, openPoints_concat, openStep, completions, finished, acceptedIds, rejections,
    Sys.inflight]
  · exact h.pending
  · exact h.num
  · exact h.X
  · exact h.fX
  · exact h.fevals
  · exact h.acc
  · exact h.rej
  · have := h.budget; omega
  · exact h.srbf
  · exact h.opn

theorem book_preserved (cfg : Config P) : Preserved cfg (Book cfg) where
  create o := by
    constructor <;>
      simp [Sys.create, create_eq, State.blank, completions, finished, acceptedIds, rejections, openPoints,
        openStep, Sys.inflight]
  setTerm w h _ := ⟨h.pending, h.num, h.X, h.fX, h.fevals, h.acc, h.rej, h.budget, h.srbf, h.opn⟩
  setPhase w h _ _ _ := ⟨h.pending, h.num, h.X, h.fX, h.fevals, h.acc, h.rej, h.budget, h.srbf, h.opn⟩
  gen w o n s' h _ _ _ _ _ hg := by
    rcases generateEvals_cases hg with ⟨ws, z, rfl, hz⟩ | ⟨_, rfl, _⟩
    · constructor <;> simp [completions_append, finished_append, acceptedIds_append, rejections_append,
        openPoints_concat, openStep, completions, finished, acceptedIds, rejections, Sys.inflight]
      · exact h.pending
      · exact h.num
      · exact h.X
      · exact h.fX
      · exact h.fevals
      · exact h.acc
      · exact h.rej
      · have := h.budget; omega
      · have := h.srbf
        rcases hz with ⟨sc, z0, _, h1, h2, _, rfl⟩ | ⟨rfl, _⟩
        · simp [h1]
        · exact this
      · exact h.opn
    · exact ⟨h.pending, h.num, h.X, h.fX, h.fevals, h.acc, h.rej, h.budget, h.srbf, h.opn⟩
  restart w o h _ _ _ _ := by
    have hX : (if w.st.X = [] then (knownExtras cfg).map Prod.fst else []) = [] := by
      split
      · rename_i hh; simp [knownExtras_nil_of h hh]
      · rfl
    have hfX : (if w.st.X = [] then (knownExtras cfg).map Prod.snd else []) = [] := by
      split
      · rename_i hh; simp [knownExtras_nil_of h hh]
      · rfl
    constructor <;> simp only [sampleRestart_eq, hX, hfX, completions_append, finished_append,
      acceptedIds_append, rejections_append, openPoints_concat, openStep]
    · exact h.pending
    · simpa [completions] using h.num
    · simpa [completions] using h.X
    · simpa [completions] using h.fX
    · simpa [finished] using h.fevals
    · simpa [acceptedIds] using h.acc
    · simpa [rejections] using h.rej
    · exact h.budget
    · simpa using h.srbf
    · exact h.opn
  term w h _ _ := by
    constructor <;> simp [State.note, completions_append, finished_append, acceptedIds_append,
        rejections_append, openPoints_concat, openStep, completions, finished, acceptedIds, rejections,
        Sys.inflight]
    · exact h.pending
    · exact h.num
    · exact h.X
    · exact h.fX
    · exact h.fevals
    · exact h.acc
    · exact h.rej
    · have := h.budget; omega
    · exact h.srbf
    · exact h.opn
  pop w x q k h hg hcv hq hk := by
    have hb := hg.budget
    constructor <;> simp [State.makeProposal, State.note, completions_append, finished_append,
      acceptedIds_append, rejections_append, openPoints_concat, openStep, completions, finished, acceptedIds,
      rejections, Sys.inflight]
    · have := h.pending; omega
    · exact h.num
    · exact h.X
    · exact h.fX
    · exact h.fevals
    · exact h.acc
    · exact h.rej
    · omega
    · exact h.srbf
    · have := h.opn
      simp only [Sys.inflight] at this
      have h2 := this.append_right [x]
      refine h2.trans ?_
      simp only [List.append_assoc]
      exact List.Perm.append_left _ (List.perm_append_comm)
  accept w i p h hp := by
    have hl := length_eraseIdx' hp
    constructor <;> simp [State.onAccept, State.note, completions_append, finished_append,
      acceptedIds_append, rejections_append, openPoints_concat, openStep, completions, finished, acceptedIds,
      rejections]
    · have := h.pending; omega
    · exact h.num
    · exact h.X
    · exact h.fX
    · exact h.fevals
    · exact h.acc
    · exact h.rej
    · have := h.budget; omega
    · exact h.srbf
    · refine h.opn.trans ((inflight_props hp).trans ?_)
      simp only [Sys.inflight, List.map_append, List.map_cons, List.map_nil]
      rw [← List.append_assoc]
      exact (List.perm_append_singleton _ _).symm
  rejectInit w i p h hp hk := by
    have hl := length_eraseIdx' hp
    constructor <;> simp [onInitialRejected_eq, State.note, completions_append, finished_append,
      acceptedIds_append, rejections_append, openPoints_concat, openStep, completions, finished, acceptedIds,
      rejections]
    · have := h.pending; omega
    · exact h.num
    · exact h.X
    · exact h.fX
    · exact h.fevals
    · exact h.acc
    · exact h.rej
    · have := h.budget; omega
    · exact h.srbf
    · exact perm_erase_of (h.opn.trans (inflight_props hp))
  rejectAdapt w i p h hp hk := by
    have hl := length_eraseIdx' hp
    constructor <;> simp [onAdaptReject_eq, State.note, completions_append, finished_append,
      acceptedIds_append, rejections_append, openPoints_concat, openStep, completions, finished, acceptedIds,
      rejections]
    · have := h.pending; omega
    · exact h.num
    · exact h.X
    · exact h.fX
    · exact h.fevals
    · exact h.acc
    · exact h.rej
    · have := h.budget; omega
    · exact h.srbf
    · exact perm_erase_of (h.opn.trans (inflight_props hp))
  completed w i r v h hr := by
    have hl := length_eraseIdx' hr
    constructor <;> simp [recordCompleted_eq, State.note, completions_append, finished_append,
      acceptedIds_append, rejections_append, openPoints_concat, openStep, completions, finished, acceptedIds,
      rejections]
    · have := h.pending; omega
    · exact h.num
    · have := h.X; simp [completions] at this; rw [this]; simp
    · have := h.fX; simp [completions] at this; rw [this]; simp
    · exact h.fevals
    · exact h.acc
    · exact h.rej
    · have := h.budget; omega
    · exact h.srbf
    · exact perm_erase_of (h.opn.trans (inflight_recs hr))
  adjusted w sc z v h hsc hz hc _ := by
    refine adjusted_of (I := Book cfg) ?_ ?_ ?_ w sc z _ h hz hc
    · intro w z f h hs; exact h.adj z f hs
    · intro w h hs _; exact h.stepChange
    · intro w h _
      exact ⟨h.pending, h.num, h.X, h.fX, h.fevals, h.acc, h.rej, h.budget, h.srbf, h.opn⟩
  queued w z v h hz _ _ := by
    refine ⟨h.pending, h.num, h.X, h.fX, h.fevals, h.acc, h.rej, h.budget, ?_, h.opn⟩
    have := h.srbf
    simp_all
  aborted w i r h hr := by
    have hl := length_eraseIdx' hr
    constructor <;> simp [onAborted_eq, State.note, completions_append, finished_append,
      acceptedIds_append, rejections_append, openPoints_concat, openStep, completions, finished, acceptedIds,
      rejections]
    · have := h.pending; omega
    · exact h.num
    · exact h.X
    · exact h.fX
    · exact h.fevals
    · exact h.acc
    · exact h.rej
    · have := h.budget; omega
    · exact h.srbf
    · exact perm_erase_of (h.opn.trans (inflight_recs hr))
  resume w h := by
    have hp := h.pending
    constructor <;> simp only [Sys.resumed, resume_eq, State.note, completions_append, finished_append,
      acceptedIds_append, rejections_append, openPoints_concat, openStep, Sys.inflight]
    · simp
    · simpa [completions] using h.num
    · simpa [completions] using h.X
    · simpa [completions] using h.fX
    · simpa [finished] using h.fevals
    · simpa [acceptedIds] using h.acc
    · simpa [rejections] using h.rej
    · have := h.budget; omega
    · exact h.srbf
    · simp

theorem Reach.book {w : Sys P} (h : Reach cfg w) : Book cfg w := (book_preserved cfg).reach h

end Verif.Strategy
