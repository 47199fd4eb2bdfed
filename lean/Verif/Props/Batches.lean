import Verif.Props.Strategy
import Verif.Loop.Sync

/-! # Property C139: in synchronous mode every batch is one step of the step control -/

namespace Verif.Props

open Verif.Strategy Verif.Loop Verif.Spec

variable {P : Type} [DecidableEq P] {cfg : Config P}

/-! ## Specification -/

/-- Events that queue the points of a new batch: an initial design or a call of `generate_evals`. -/
def opensBatch : Event P → Bool
  | .start _ => true
  | .restart _ => true
  | .generated _ _ => true
  | _ => false

/-- How an evaluation ends: `some true` if it is an adaptive evaluation that gives a value, `some false` if it fails, is lost in
a crash or belongs to the initial design; `none` for events that end no evaluation. -/
def endOf : Event P → Option Bool
  | .completed _ .adapt _ _ => some true
  | .completed _ .init _ _ => some false
  | .aborted _ _ => some false
  | .crashed lost => if lost.isEmpty then none else some false
  | _ => none

/-- The evaluation that ends last in `m` is an adaptive one and gives a value. -/
def endsWell (m : List (Event P)) : Bool := (m.filterMap endOf).getLast?.getD false

/-- Some adaptive evaluation in `m` gives a value. -/
def hasResult (m : List (Event P)) : Bool := m.any fun e => endOf e == some true

/-- The number of steps of the step control. -/
def controlSteps (m : List (Event P)) : ℕ := m.countP fun e => match e with
  | .adjusted _ => true
  | _ => false

/-- One event, for `wellEnded`. -/
def tallyStep (t : ℕ × Bool) (e : Event P) : ℕ × Bool :=
  if opensBatch e then (t.1 + t.2.toNat, false) else (t.1, (endOf e).getD t.2)

/-- The number of batches that are over and ended well, and whether the current one ended well so far. -/
def tally (m : List (Event P)) : ℕ × Bool := m.foldl tallyStep (0, false)

/-- The number of batches that ended well. -/
def wellEnded (m : List (Event P)) : ℕ := (tally m).1 + (tally m).2.toNat

/-- The radius, the counters and the reference value of the step control. -/
def controlState (s : State P) : Option (ℚ × Int × Int × Option Val) := s.srbf.map fun z => (z.radius, z.status, z.failcount, z.fbest)

/-! ## Proofs -/

omit [DecidableEq P] in
theorem tally_concat (l : List (Event P)) (e : Event P) : tally (l ++ [e]) = tallyStep (tally l) e := by
  simp [tally, List.foldl_append]

omit [DecidableEq P] in
theorem controlSteps_append (l m : List (Event P)) : controlSteps (l ++ m) = controlSteps l + controlSteps m := by
  simp [controlSteps, List.countP_append]

omit [DecidableEq P] in
theorem tally_closed (m : List (Event P)) (hm : ∀ e ∈ m, opensBatch e = false) : ∀ t : ℕ × Bool,
    m.foldl tallyStep t = (t.1, (m.filterMap endOf).getLast?.getD t.2) := by
  induction m using List.reverseRecOn with
  | nil => intro t; rfl
  | append_singleton m e ih =>
    intro t
    rw [List.foldl_append, ih (fun e he => hm e (by simp [he])), List.foldl_cons, List.foldl_nil, tallyStep,
      if_neg (by simp [hm e (by simp)]), List.filterMap_append]
    cases h : endOf e with
    | none => simp [h]
    | some b => simp [h]

/-- No point is queued or running. -/
def idleNow (w : Sys P) : Prop := w.st.batchQueue = [] ∧ w.inflight = []

/-- The steps of the control are the batches that ended well. -/
structure BatchInv (w : Sys P) : Prop where
  idle : idleNow w → controlSteps w.st.log = wellEnded w.st.log
  busy : ¬ idleNow w → controlSteps w.st.log = (tally w.st.log).1
  old : ∀ (l : List (Event P)) (e : Event P) (m : List (Event P)), w.st.log = l ++ e :: m → opensBatch e = true →
    controlSteps l = wellEnded l
  conv : w.st.converged = true → idleNow w

omit [DecidableEq P] in
theorem old_concat {log : List (Event P)} {e' : Event P}
    (h : ∀ (l : List (Event P)) (e : Event P) (m : List (Event P)), log = l ++ e :: m → opensBatch e = true → controlSteps l = wellEnded l)
    (he : opensBatch e' = true → controlSteps log = wellEnded log) :
    ∀ (l : List (Event P)) (e : Event P) (m : List (Event P)), log ++ [e'] = l ++ e :: m → opensBatch e = true →
      controlSteps l = wellEnded l := by
  intro l e m hl ho
  rcases List.eq_nil_or_concat m with rfl | ⟨m', b, rfl⟩
  · have := List.append_inj' hl rfl
    obtain ⟨rfl, h2⟩ := this
    simp only [List.cons.injEq, and_true] at h2
    subst h2
    exact he ho
  · rw [List.concat_eq_append, ← List.cons_append, ← List.append_assoc] at hl
    have := (List.append_inj' hl rfl).1
    exact h l e m' this ho

omit [DecidableEq P] in
theorem controlSteps_concat (l : List (Event P)) (e : Event P) (he : ∀ f, e ≠ .adjusted f) : controlSteps (l ++ [e]) = controlSteps l := by
  rw [controlSteps_append]
  cases e <;> simp [controlSteps] at he ⊢

omit [DecidableEq P] in
/-- An event that neither opens a batch nor is a step. -/
theorem BatchInv.note {w w' : Sys P} (h : BatchInv w) (e : Event P) (hl : w'.st.log = w.st.log ++ [e]) (ho : opensBatch e = false)
    (ha : ∀ f, e ≠ .adjusted f)
    (hi : (endOf e = none ∧ (idleNow w' ↔ idleNow w)) ∨ (¬ idleNow w ∧ (¬ idleNow w' ∨ endOf e = some false)))
    (hc : w'.st.converged = true → idleNow w') : BatchInv w' := by
  have hst : controlSteps w'.st.log = controlSteps w.st.log := by rw [hl, controlSteps_concat _ _ ha]
  have ht : tally w'.st.log = ((tally w.st.log).1, (endOf e).getD (tally w.st.log).2) := by
    rw [hl, tally_concat, tallyStep, if_neg (by simp [ho])]
  refine ⟨fun hi' => ?_, fun hi' => ?_, ?_, hc⟩
  · rw [hst, wellEnded, ht]
    rcases hi with ⟨h1, h2⟩ | ⟨h1, h2 | h2⟩
    · rw [h.idle (h2.1 hi'), h1]; rfl
    · exact absurd hi' h2
    · rw [h.busy h1, h2]; rfl
  · rw [hst, ht]
    rcases hi with ⟨h1, h2⟩ | ⟨h1, -⟩
    · exact h.busy fun a => hi' (h2.2 a)
    · exact h.busy h1
  · rw [hl]
    exact old_concat h.old (fun hh => by rw [ho] at hh; cases hh)

theorem not_idle_recs {w : Sys P} {i : ℕ} {r : Rec P} (h : w.recs[i]? = some r) : ¬ idleNow w := by
  rintro ⟨_, hi⟩
  have := List.mem_of_getElem? h
  simp only [Sys.inflight, List.append_eq_nil_iff, List.map_eq_nil_iff] at hi
  rw [hi.2] at this; cases this

theorem not_idle_props {w : Sys P} {i : ℕ} {r : Proposal P} (h : w.props[i]? = some r) : ¬ idleNow w := by
  rintro ⟨_, hi⟩
  have := List.mem_of_getElem? h
  simp only [Sys.inflight, List.append_eq_nil_iff, List.map_eq_nil_iff] at hi
  rw [hi.1] at this; cases this

theorem onCompleted_batchQueue (s : State P) (x : P) (k : Kind) (v : Val) (e : Nat) :
    (State.onCompleted cfg s x k v e).batchQueue = s.batchQueue := by
  unfold State.onCompleted
  split
  · rw [recordCompleted_eq]
  · dsimp only
    split
    · unfold State.srbfCompleted
      split
      · split
        · rw [adjustStep_eq, recordCompleted_eq]
        · rw [recordCompleted_eq]
      · rw [recordCompleted_eq]
    · rw [recordCompleted_eq]

/-- A completed evaluation that is not the last of its batch. -/
theorem onCompleted_quiet {sc : SrbfCfg} (hsc : cfg.srbf = some sc) {w : Sys P} {r : Rec P} {v : Val} (hs : cfg.asynchronous = false)
    (hc : w.st.converged = false) (h : ¬ (r.kind = .adapt ∧ w.st.batchQueue = [] ∧ w.st.pendingEvals = 1)) :
    (State.onCompleted cfg (w.st.note (.completed r.x r.kind v r.accAt)) r.x r.kind v r.evId).log =
        w.st.log ++ [.completed r.x r.kind v r.accAt] ∧
      (State.onCompleted cfg (w.st.note (.completed r.x r.kind v r.accAt)) r.x r.kind v r.evId).converged = false ∧
      (State.onCompleted cfg (w.st.note (.completed r.x r.kind v r.accAt)) r.x r.kind v r.evId).terminate = w.st.terminate ∧
      (State.onCompleted cfg (w.st.note (.completed r.x r.kind v r.accAt)) r.x r.kind v r.evId).numEvals = w.st.numEvals + 1 ∧
      controlState (State.onCompleted cfg (w.st.note (.completed r.x r.kind v r.accAt)) r.x r.kind v r.evId) = controlState w.st := by
  unfold State.onCompleted
  split
  · rw [recordCompleted_eq]; exact ⟨rfl, hc, rfl, rfl, rfl⟩
  · rename_i hk
    dsimp only
    split
    · unfold State.srbfCompleted
      split
      · split
        · rename_i hcond
          exfalso
          rw [recordCompleted_eq] at hcond
          simp only [hs, Bool.false_or, State.note, Bool.and_eq_true, List.isEmpty_iff, beq_iff_eq] at hcond
          exact h ⟨hk, hcond.1, by have := hcond.2; omega⟩
        · rename_i z1 _ hz1 _ _
          rw [recordCompleted_eq] at hz1 ⊢
          exact ⟨rfl, hc, rfl, rfl, by simp only [controlState]; rw [show w.st.srbf = some z1 from hz1]; rfl⟩
      · rw [recordCompleted_eq]; exact ⟨rfl, hc, rfl, rfl, rfl⟩
    · rw [recordCompleted_eq]; exact ⟨rfl, hc, rfl, rfl, rfl⟩

theorem Reach.batches {sc : SrbfCfg} (hsc : cfg.srbf = some sc) (hs : cfg.asynchronous = false) (hb : 0 < cfg.batchSize) {w : Sys P}
    (h : Reach cfg w) : BatchInv w := by
  induction h with
  | create o =>
    refine ⟨?_, ?_, ?_, ?_⟩
    · intro _; simp [Sys.create, create_eq, State.blank, controlSteps, tally, tallyStep, opensBatch, wellEnded]
    · intro _; simp [Sys.create, create_eq, State.blank, controlSteps, tally, tallyStep, opensBatch]
    · intro l e m hl ho
      simp only [Sys.create, create_eq, State.blank, List.nil_append] at hl
      rcases l with _ | ⟨a, l⟩
      · rfl
      · simp at hl
    · intro hc
      simp [Sys.create, create_eq, State.blank] at hc
  | @resume w hw ih =>
    have hx := (C05_xpend_partial hw).1
    by_cases hi : w.inflight = []
    · have hX : w.st.Xpend = [] := by
        rw [hi] at hx
        refine List.eq_nil_iff_forall_not_mem.2 fun x hm => ?_
        have := List.count_pos_iff.2 hm
        have := hx x
        simp only [List.count_nil] at this
        omega
      have h1 : BatchInv ({ w with st := w.st.note (.crashed w.inflight) } : Sys P) :=
        ih.note (.crashed w.inflight) rfl rfl (by simp) (.inl ⟨by simp [endOf, hi], Iff.rfl⟩) ih.conv
      refine h1.note (.resumed []) ?_ rfl (by simp) (.inl ⟨rfl, ?_⟩) ?_
      · simp [Sys.resumed, resume_eq, State.note, hX]
      · simp [idleNow, Sys.resumed, resume_eq, State.note, hX, Sys.inflight] at hi ⊢
        simp [hi]
      · intro hc
        have := ih.conv (by simpa [Sys.resumed, resume_eq, State.note] using hc)
        simp [idleNow, Sys.resumed, resume_eq, State.note, hX, Sys.inflight, this.1]
    · have hni : ¬ idleNow w := fun a => hi a.2
      have hnc : w.st.converged = false := by
        by_contra hc
        exact hni (ih.conv (by simpa using hc))
      have h1 : BatchInv ({ w with st := w.st.note (.crashed w.inflight) } : Sys P) :=
        ih.note (.crashed w.inflight) rfl rfl (by simp) (.inr ⟨hni, .inr (by simp [endOf, hi])⟩) ih.conv
      have ht : (tally (w.st.note (.crashed w.inflight)).log).2 = false := by
        simp only [State.note]
        rw [tally_concat, tallyStep, if_neg (by simp [opensBatch])]
        simp [endOf, hi]
      have hn : controlSteps w.resumed.st.log = (tally w.resumed.st.log).1 ∧ (tally w.resumed.st.log).2 = false := by
        have hn := h1.busy hni
        simp only [Sys.resumed, resume_eq] at hn ⊢
        rw [controlSteps_concat _ _ (by simp), tally_concat, tallyStep, if_neg (by simp [opensBatch]), hn]
        exact ⟨rfl, by simpa [endOf] using ht⟩
      refine ⟨fun _ => ?_, fun _ => hn.1, ?_, ?_⟩
      · rw [wellEnded, hn.2, hn.1]; rfl
      · simp only [Sys.resumed, resume_eq]
        exact old_concat h1.old (by simp [opensBatch])
      · intro hc
        rw [show w.resumed.st.converged = w.st.converged by simp [Sys.resumed, resume_eq, State.note], hnc] at hc
        cases hc
  | @step w w' op hw hst ih =>
    obtain ⟨z, hz, hq⟩ := hw.batchQueue hsc hs hb
    have hp := C02_pending_exact hw
    have hnc : ¬ idleNow w → w.st.converged = false := fun hni => by
      by_contra hc
      exact hni (ih.conv (by simpa using hc))
    cases op with
    | propose o =>
      have fin : ∀ (e : Event P) (s1 : State P) (x : P) (k : Kind) (q : List P), w.st.pendingEvals = 0 →
          (w.st.converged = true ∨ w.st.batchQueue = []) → s1.log = w.st.log ++ [e] → opensBatch e = true → (∀ f, e ≠ .adjusted f) →
          s1.converged = false →
          BatchInv ({ w with st := (State.makeProposal { s1 with batchQueue := q } x).note (.proposed x k), props := w.props ++ [⟨x, k⟩] } : Sys P) := by
        intro e s1 x k q h1 h2 h3 h4 h5 h6
        have hid : idleNow w := by
          rcases h2 with h2 | h2
          · exact ih.conv h2
          · refine ⟨h2, List.eq_nil_of_length_eq_zero ?_⟩
            rw [h1] at hp; exact_mod_cast hp.symm
        have hni : ¬ idleNow ({ w with st := (State.makeProposal { s1 with batchQueue := q } x).note (.proposed x k), props := w.props ++ [⟨x, k⟩] } : Sys P) := by
          rintro ⟨_, hi⟩
          simp [Sys.inflight] at hi
        have hlog : ({ w with st := (State.makeProposal { s1 with batchQueue := q } x).note (.proposed x k), props := w.props ++ [⟨x, k⟩] } : Sys P).st.log =
            w.st.log ++ [e] ++ [.proposed x k] := by
          simp only [State.note, State.makeProposal, h3]
        refine ⟨fun a => absurd a hni, fun _ => ?_, ?_, ?_⟩
        · rw [hlog, controlSteps_concat _ _ (by simp), controlSteps_concat _ _ h5, tally_concat, tally_concat, ih.idle hid, tallyStep,
            if_neg (by simp [opensBatch]), tallyStep, if_pos h4]
          rfl
        · rw [hlog]
          exact old_concat (old_concat ih.old fun _ => ih.idle hid) (by simp [opensBatch])
        · intro hc
          have : s1.converged = true := hc
          rw [h6] at this; cases this
      simp only [Sys.step] at hst
      cases hpr : w.st.proposeAction cfg o with
      | none => rw [hpr] at hst; cases hst
      | some as =>
        obtain ⟨a, s'⟩ := as
        rw [hpr] at hst
        rcases propose_sync hs hb hpr with ⟨hne, t, p, c, rfl, -, hc⟩ | ⟨hcf, x, q, rfl, hqx, rfl⟩ | ⟨hp0, -, -, hcq, b, x, q, hbase, rfl, hbq, rfl⟩
        · have hc : c = w.st.converged := by
            rcases hc with hc | ⟨_, hc, _⟩
            · exact hc
            · rcases hc with hc | hc
              · rw [hsc] at hc; cases hc
              · rw [hz] at hc; cases hc
          subst hc
          have h1 : BatchInv ({ w with st := { w.st with terminate := t, phase := p, converged := w.st.converged } } : Sys P) :=
            ⟨ih.idle, ih.busy, ih.old, ih.conv⟩
          cases a with
          | eval x k => exact absurd rfl (hne x k)
          | terminate =>
            simp only [Option.some.injEq] at hst; subst hst
            exact h1.note .terminated rfl rfl (by simp) (.inl ⟨rfl, Iff.rfl⟩) ih.conv
          | nothing =>
            simp only [Option.some.injEq] at hst; subst hst
            exact h1
        · simp only [Option.some.injEq] at hst; subst hst
          have hni : ¬ idleNow w := by
            rintro ⟨h1, _⟩
            rw [hqx] at h1; simp at h1
          refine ih.note (.proposed x (kindOf w.st.phase)) rfl rfl (by simp) (.inr ⟨hni, .inl ?_⟩) ?_
          · rintro ⟨_, hi⟩
            simp [Sys.inflight] at hi
          · intro hc
            have : w.st.converged = true := hc
            rw [hnc hni] at this; cases this
        · simp only [Option.some.injEq] at hst; subst hst
          unfold nextBase at hbase
          by_cases hcv : w.st.converged = true
          · rw [if_pos hcv] at hbase
            split at hbase
            · simp only [Option.some.injEq] at hbase; subst hbase
              refine fin _ _ x _ q hp0 hcq (by rw [sampleRestart_eq]) rfl (by simp) (by rw [sampleRestart_eq])
            · cases hbase
          · rw [if_neg hcv] at hbase
            split at hbase
            · cases hbase
            · rename_i s1 hg
              rcases generateEvals_cases hg with ⟨ws, z', rfl, hz'⟩ | ⟨_, _, hno⟩
              · simp only at hbase
                rw [if_neg hcv] at hbase
                simp only [Option.some.injEq] at hbase; subst hbase
                exact fin _ _ x _ q hp0 hcq rfl rfl (by simp) (by simpa using hcv)
              · rcases hno with hno | hno
                · rw [hsc] at hno; cases hno
                · simp only at hno; rw [hz] at hno; cases hno
    | accept i =>
      simp only [Sys.step] at hst
      split at hst
      · simp at hst
      · rename_i p hpi
        simp only [Option.some.injEq] at hst; subst hst
        have hni := not_idle_props hpi
        refine ih.note (.accepted p.x p.kind w.st.evNext) rfl rfl (by simp) (.inr ⟨hni, .inl ?_⟩) ?_
        · rintro ⟨_, hi⟩
          simp [Sys.inflight] at hi
        · intro hc
          have : w.st.converged = true := hc
          rw [hnc hni] at this; cases this
    | reject i =>
      simp only [Sys.step] at hst
      split at hst
      · simp at hst
      · rename_i p hpi
        simp only [Option.some.injEq] at hst; subst hst
        have hni := not_idle_props hpi
        refine ih.note (.rejected p.x p.kind) ?_ rfl (by simp) (.inr ⟨hni, .inl ?_⟩) ?_
        · split <;> simp [onInitialRejected_eq, onAdaptReject_eq, State.note]
        · rintro ⟨hi, _⟩
          revert hi
          split <;> simp [onInitialRejected_eq, onAdaptReject_eq, State.note, hs]
        · intro hc
          have : w.st.converged = true := by
            revert hc
            split <;> simp [onInitialRejected_eq, onAdaptReject_eq, State.note]
          rw [hnc hni] at this; cases this
    | complete i v =>
      have hst0 := hst
      simp only [Sys.step] at hst
      cases hri : w.recs[i]? with
      | none => rw [hri] at hst; cases hst
      | some r =>
        rw [hri] at hst
        have hni := not_idle_recs hri
        have hcf := hnc hni
        have hlen : w.inflight.length = ({ w with recs := w.recs.eraseIdx i } : Sys P).inflight.length + 1 := by
          have := List.length_eraseIdx_add_one (List.getElem?_eq_some_iff.1 hri).1
          simp only [Sys.inflight, List.length_append, List.length_map]
          omega
        by_cases hlast : r.kind = .adapt ∧ w.st.batchQueue = [] ∧ w.st.pendingEvals = 1
        · obtain ⟨m, hl, hm⟩ := complete_adjusted hsc hz hri hlast.1 ((hw.allNew hs).new r (List.mem_of_getElem? hri)) (.inr hlast.2) hst0
          simp only [Option.some.injEq] at hst; subst hst
          have hid : idleNow ({ w with
              st := State.onCompleted cfg (w.st.note (.completed r.x r.kind v r.accAt)) r.x r.kind v r.evId
              recs := w.recs.eraseIdx i } : Sys P) := by
            refine ⟨by rw [onCompleted_batchQueue]; exact hlast.2.1, List.eq_nil_of_length_eq_zero ?_⟩
            have h1 := hlast.2.2
            rw [hp] at h1
            have h2 : w.inflight.length = 1 := by exact_mod_cast h1
            change ({ w with recs := w.recs.eraseIdx i } : Sys P).inflight.length = 0
            omega
          have hl' : (State.onCompleted cfg (w.st.note (.completed r.x r.kind v r.accAt)) r.x r.kind v r.evId).log =
              w.st.log ++ [Event.completed r.x Kind.adapt v r.accAt] ++ [Event.adjusted (minValue z.recordQueue v)] ++ m := by
            refine hl.trans ?_
            simp
          have ht : tally (w.st.log ++ [Event.completed r.x Kind.adapt v r.accAt] ++ [Event.adjusted (minValue z.recordQueue v)]) =
              ((tally w.st.log).1, true) := by
            rw [tally_concat, tally_concat]
            simp [tallyStep, opensBatch, endOf]
          have hc : controlSteps (w.st.log ++ [Event.completed r.x Kind.adapt v r.accAt] ++ [Event.adjusted (minValue z.recordQueue v)]) =
              controlSteps w.st.log + 1 := by
            rw [controlSteps_append, controlSteps_concat _ _ (by simp)]
            rfl
          refine ⟨fun _ => ?_, fun a => absurd hid a, ?_, fun _ => hid⟩
          · show controlSteps (State.onCompleted cfg _ r.x r.kind v r.evId).log = wellEnded (State.onCompleted cfg _ r.x r.kind v r.evId).log
            rw [hl', wellEnded]
            rcases hm with rfl | rfl
            · rw [List.append_nil, ht, hc, ih.busy hni]; rfl
            · rw [controlSteps_concat _ _ (by simp), tally_concat, ht, hc, ih.busy hni]; rfl
          · show ∀ (l : List (Event P)) (e : Event P) (m : List (Event P)), (State.onCompleted cfg _ r.x r.kind v r.evId).log = l ++ e :: m → _
            rw [hl']
            have h2 := old_concat (old_concat ih.old (e' := Event.completed r.x Kind.adapt v r.accAt) (by simp [opensBatch]))
              (e' := Event.adjusted (minValue z.recordQueue v)) (by simp [opensBatch])
            rcases hm with rfl | rfl
            · rw [List.append_nil]; exact h2
            · exact old_concat h2 (by simp [opensBatch])
        · simp only [Option.some.injEq] at hst; subst hst
          obtain ⟨h1, h2, -⟩ := onCompleted_quiet hsc (r := r) (v := v) (w := w) hs (by rw [hcf]) hlast
          refine ih.note (.completed r.x r.kind v r.accAt) h1 rfl (by simp) (.inr ⟨hni, ?_⟩) (fun hc => ?_)
          · cases hk : r.kind with
            | init => exact .inr rfl
            | adapt =>
              left
              rintro ⟨ha, hb'⟩
              refine hlast ⟨hk, by rw [onCompleted_batchQueue] at ha; exact ha, ?_⟩
              change ({ w with recs := w.recs.eraseIdx i } : Sys P).inflight = [] at hb'
              rw [hb'] at hlen
              rw [hp, hlen]; rfl
          · have : (State.onCompleted cfg (w.st.note (.completed r.x r.kind v r.accAt)) r.x r.kind v r.evId).converged = true := hc
            rw [h2] at this; cases this
    | abort i =>
      simp only [Sys.step] at hst
      split at hst
      · simp at hst
      · rename_i r hri
        simp only [Option.some.injEq] at hst; subst hst
        have hni := not_idle_recs hri
        refine ih.note (.aborted r.x r.kind) (by simp [onAborted_eq, State.note]) rfl (by simp) (.inr ⟨hni, .inr rfl⟩) ?_
        intro hc
        have : w.st.converged = true := by simpa [onAborted_eq, State.note] using hc
        rw [hnc hni] at this; cases this
    | update i =>
      simp only [Sys.step] at hst
      split at hst
      · simp at hst
      · simp only [Option.some.injEq] at hst; subst hst; exact ih

/-! ## Theorems -/

/-- Synchronous SRBF and DYCORS, every history: whenever nothing is queued or running, the number of steps of the step control
is the number of batches that ended well. -/
theorem C139_total {sc : SrbfCfg} (hsc : cfg.srbf = some sc) (hs : cfg.asynchronous = false) (hb : 0 < cfg.batchSize) {w : Sys P}
    (h : Reach cfg w) (hq : w.st.batchQueue = []) (hi : w.inflight = []) : controlSteps w.st.log = wellEnded w.st.log :=
  (Reach.batches hsc hs hb h).idle ⟨hq, hi⟩

/-- The last batch (the events `m` after points were queued for the last time), when it is over: one step if it ended well, no
step otherwise. -/
theorem C139_batch {sc : SrbfCfg} (hsc : cfg.srbf = some sc) (hs : cfg.asynchronous = false) (hb : 0 < cfg.batchSize) {w : Sys P}
    (h : Reach cfg w) (hq : w.st.batchQueue = []) (hi : w.inflight = []) {l m : List (Event P)} {e : Event P}
    (hl : w.st.log = l ++ e :: m) (he : opensBatch e = true) (hm : ∀ e ∈ m, opensBatch e = false) :
    controlSteps m = if endsWell m then 1 else 0 := by
  have hB := Reach.batches hsc hs hb h
  have h1 := hB.idle ⟨hq, hi⟩
  have h2 := hB.old l e m hl he
  have h3 : controlSteps [e] = 0 := by cases e <;> simp_all [opensBatch, controlSteps]
  have h4 : tally w.st.log = (wellEnded l, endsWell m) := by
    rw [hl, show l ++ e :: m = l ++ [e] ++ m by simp]
    unfold tally
    rw [List.foldl_append, tally_closed m hm, ← tally, tally_concat, tallyStep, if_pos he]
    rfl
  have h5 : controlSteps w.st.log = controlSteps l + controlSteps m := by
    rw [hl, show l ++ e :: m = l ++ ([e] ++ m) by simp, controlSteps_append, controlSteps_append, h3, Nat.zero_add]
  rw [wellEnded, h4, h5, h2] at h1
  cases hw : endsWell m <;> simp [hw] at h1 ⊢ <;> omega

omit [DecidableEq P] in
theorem endsWell_of (m : List (Event P)) (hok : ∀ e ∈ m, endOf e ≠ some false) (hr : hasResult m = true) : endsWell m = true := by
  have hne : m.filterMap endOf ≠ [] := by
    obtain ⟨e, he, h1⟩ := List.any_eq_true.1 hr
    exact List.ne_nil_of_mem (List.mem_filterMap.2 ⟨e, he, by simpa using h1⟩)
  unfold endsWell
  rw [List.getLast?_eq_some_getLast hne, Option.getD_some]
  obtain ⟨e, he, h1⟩ := List.mem_filterMap.1 (List.getLast_mem hne)
  have h2 := hok e he
  rw [h1] at h2
  revert h2
  generalize (m.filterMap endOf).getLast hne = b
  cases b <;> simp

/-- A batch in which no evaluation fails is one step. -/
theorem C139_one_partial {sc : SrbfCfg} (hsc : cfg.srbf = some sc) (hs : cfg.asynchronous = false) (hb : 0 < cfg.batchSize) {w : Sys P}
    (h : Reach cfg w) (hq : w.st.batchQueue = []) (hi : w.inflight = []) {l m : List (Event P)} {e : Event P}
    (hl : w.st.log = l ++ e :: m) (he : opensBatch e = true) (hm : ∀ e ∈ m, opensBatch e = false)
    (hok : ∀ e ∈ m, endOf e ≠ some false) (hr : hasResult m = true) : controlSteps m = 1 := by
  rw [C139_batch hsc hs hb h hq hi hl he hm, if_pos (endsWell_of m hok hr)]

/-- Events of one batch of two evaluations: the first gives the value `v`, the second fails. -/
def failedLast (x y : P) (v : Val) (ws : List ℚ) (t e : ℕ) : List (Event P) :=
  [.generated [y, x] ws, .proposed x .adapt, .accepted x .adapt e, .proposed y .adapt, .accepted y .adapt (e + 1),
    .completed x .adapt v t, .aborted y .adapt]

/-- Ready for a new batch. -/
structure BatchReady (cfg : Config P) (w : Sys P) : Prop where
  reach : Reach cfg w
  term : w.st.terminate = false
  conv : w.st.converged = false
  queue : w.st.batchQueue = []
  props : w.props = []
  recs : w.recs = []

theorem failed_round {sc : SrbfCfg} (hsc : cfg.srbf = some sc) (hs : cfg.asynchronous = false) (hb : cfg.batchSize = 2)
    (hw : sc.weights ≠ []) (x y : P) (v : Val) {w : Sys P} (h : BatchReady cfg w) (hn : w.st.numEvals + 1 < cfg.maxEvals) :
    ∃ w' ws t e, BatchReady cfg w' ∧ w'.st.numEvals = w.st.numEvals + 1 ∧ controlState w'.st = controlState w.st ∧
      w'.st.log = w.st.log ++ failedLast x y v ws t e := by
  obtain ⟨⟨z, hz, hnw⟩, -, -⟩ := h.reach.weights hsc
  have hpos : 0 < sc.weights.length := List.length_pos_iff.2 hw
  obtain ⟨ws, nx, hws⟩ := getWeights_some (ws := sc.weights) (next := z.nextWeight) 2 (by rw [hnw]; exact Nat.mod_lt _ hpos)
  have hp : w.st.pendingEvals = 0 := by rw [C02_pending_exact h.reach]; simp [Sys.inflight, h.props, h.recs]
  obtain ⟨st, props, recs⟩ := w
  obtain ⟨hreach, ht, hc, hq, hpr, hre⟩ := h
  simp only at ht hc hq hpr hre hz hp hn
  subst hpr hre
  let o : Oracle P := { design := fun _ => x, pts := fun i => if i = 0 then y else x, giveUp := false }
  -- the two points are generated and the first is proposed
  obtain ⟨s1, h1, e1⟩ : ∃ s1, st.proposeAction cfg o = some (.eval x .adapt, s1) ∧
      (s1.terminate = false ∧ s1.converged = false ∧ s1.batchQueue = [y] ∧ s1.pendingEvals = 1 ∧ s1.numEvals = st.numEvals ∧
        s1.phase = .adaptive ∧ controlState s1 = controlState st ∧ s1.log = st.log ++ [.generated [y, x] ws]) := by
    rw [proposeAction_going ht (by rw [hp]; omega)]
    simp only [hc, Bool.false_eq_true, if_false, hq, List.isEmpty_nil, if_true, State.adaptBranch, hs, hb, State.generateEvals, hsc, hz,
      hws, State.afterGenerate, Bool.false_and, State.adaptProposal, popLast, hp]
    refine ⟨_, by rfl, ?_⟩
    simp [State.makeProposal, ht, hc, hp, controlState, hz, o, List.range_succ]
  obtain ⟨t1, c1, q1, p1, n1, ph1, cs1, l1⟩ := e1
  have r1 : Reach cfg ⟨s1.note (.proposed x .adapt), [⟨x, .adapt⟩], []⟩ := hreach.step (.propose o) (by simp only [Sys.step, h1]; rfl)
  obtain ⟨s2, hs2⟩ : ∃ s2, s2 = ((s1.note (.proposed x .adapt)).note (.accepted x .adapt s1.evNext)).onAccept := ⟨_, rfl⟩
  have r2 : Reach cfg ⟨s2, [], [⟨x, .adapt, s1.evNext, (s1.note (.proposed x .adapt)).log.length⟩]⟩ :=
    r1.step (.accept 0) (by rw [hs2]; rfl)
  -- the second point
  obtain ⟨s3, h3, e3⟩ : ∃ s3, s2.proposeAction cfg o = some (.eval y .adapt, s3) ∧
      (s3.terminate = false ∧ s3.converged = false ∧ s3.batchQueue = [] ∧ s3.pendingEvals = 2 ∧ s3.numEvals = st.numEvals ∧
        controlState s3 = controlState st ∧ s3.evNext = s1.evNext + 1 ∧
        s3.log = st.log ++ [.generated [y, x] ws, .proposed x .adapt, .accepted x .adapt s1.evNext]) := by
    have hp2 : s2.phase = .adaptive := by rw [hs2]; exact ph1
    have hq2 : s2.batchQueue = [] ++ [y] := by rw [hs2]; exact q1
    have ht2 : s2.terminate = false := by rw [hs2]; exact t1
    have hc2 : s2.converged = false := by rw [hs2]; exact c1
    have hb2 : s2.numEvals + s2.pendingEvals < cfg.maxEvals := by
      rw [show s2.numEvals = st.numEvals by rw [hs2]; exact n1, show s2.pendingEvals = 1 by rw [hs2]; exact p1]; omega
    rw [proposeAction_going ht2 hb2]
    have hne : s2.batchQueue.isEmpty = false := by rw [hq2]; rfl
    have had : s2.adaptProposal = (.eval y .adapt, State.makeProposal { s2 with batchQueue := [] } y) := by
      simp only [State.adaptProposal, hq2, popLast_append]
    refine ⟨State.makeProposal { s2 with batchQueue := [] } y, ?_, ?_⟩
    · rw [if_neg (by simp [hc2]), if_neg (by simp [hne])]
      have : ∀ s' : State P, s'.phase = .adaptive → (match s'.phase with
          | .initial => s'.initProposal
          | .adaptive => some s'.adaptProposal) = some s'.adaptProposal := by
        intro s' h; rw [h]
      exact (this s2 hp2).trans (by rw [had])
    · rw [hs2]
      simp only [State.makeProposal, State.onAccept, State.note, controlState] at *
      simp [t1, c1, p1, n1, l1, cs1]
  obtain ⟨t3, c3, q3, p3, n3, cs3, ev3, l3⟩ := e3
  have r3 : Reach cfg ⟨s3.note (.proposed y .adapt), [⟨y, .adapt⟩], [⟨x, .adapt, s1.evNext, (s1.note (.proposed x .adapt)).log.length⟩]⟩ :=
    r2.step (.propose o) (by simp only [Sys.step, h3]; rfl)
  obtain ⟨s4, hs4⟩ : ∃ s4, s4 = ((s3.note (.proposed y .adapt)).note (.accepted y .adapt s3.evNext)).onAccept := ⟨_, rfl⟩
  have r4 : Reach cfg ⟨s4, [], [⟨x, .adapt, s1.evNext, (s1.note (.proposed x .adapt)).log.length⟩,
      ⟨y, .adapt, s3.evNext, (s3.note (.proposed y .adapt)).log.length⟩]⟩ := r3.step (.accept 0) (by rw [hs4]; rfl)
  -- the first evaluation gives a value
  obtain ⟨t, ht'⟩ : ∃ t, t = (s1.note (.proposed x .adapt)).log.length := ⟨_, rfl⟩
  rw [← ht'] at r4
  obtain ⟨s5, hs5⟩ : ∃ s5, s5 = State.onCompleted cfg (s4.note (.completed x .adapt v t)) x .adapt v s1.evNext := ⟨_, rfl⟩
  have r5 : Reach cfg ⟨s5, [], [⟨y, .adapt, s3.evNext, (s3.note (.proposed y .adapt)).log.length⟩]⟩ :=
    r4.step (.complete 0 v) (by rw [hs5]; rfl)
  have hq4 : s4.batchQueue = [] := by rw [hs4]; exact q3
  have quiet := onCompleted_quiet hsc (w := ⟨s4, [], []⟩) (r := ⟨x, .adapt, s1.evNext, t⟩) (v := v) hs (by rw [hs4]; exact c3)
    (by rintro ⟨_, _, h6⟩; rw [hs4] at h6; simp only [State.onAccept, State.note, p3] at h6; omega)
  simp only at quiet
  rw [← hs5] at quiet
  obtain ⟨l5, c5, t5, n5, cs5⟩ := quiet
  have q5 : s5.batchQueue = [] := by rw [hs5, onCompleted_batchQueue]; exact hq4
  -- the second fails
  refine ⟨⟨(s5.note (.aborted y .adapt)).onAborted y .adapt s3.evNext, [], []⟩, ws, t, s1.evNext,
    ⟨r5.step (.abort 0) rfl, ?_, ?_, ?_, rfl, rfl⟩, ?_, ?_, ?_⟩
  · rw [onAborted_eq]; show s5.terminate = false; rw [t5, hs4]; exact t3
  · rw [onAborted_eq]; exact c5
  · rw [onAborted_eq]; simp [State.note, q5]
  · rw [onAborted_eq]; show s5.numEvals = _; rw [n5, hs4]; simp only [State.onAccept, State.note, n3]
  · rw [onAborted_eq]; show controlState s5 = _; rw [cs5, hs4]; exact cs3
  · rw [onAborted_eq]
    show s5.log ++ [.aborted y .adapt] = _
    rw [l5, hs4]
    simp only [State.onAccept, State.note, l3, ev3, failedLast, List.append_assoc, List.cons_append, List.nil_append]

/-- The statement is false if evaluations fail: batches of two evaluations, of which the first gives a value and the second
fails.  After any number `n` of them, from any state in which nothing is queued or running and the budget is large enough, the step control has not run
once: the sampling radius has not changed and the run has not converged, whatever the values are. -/
theorem C139_refuted {sc : SrbfCfg} (hsc : cfg.srbf = some sc) (hs : cfg.asynchronous = false) (hb : cfg.batchSize = 2)
    (hw : sc.weights ≠ []) {w : Sys P} (h : BatchReady cfg w) (xs : List (P × P × Val)) (hn : w.st.numEvals + xs.length < cfg.maxEvals) :
    ∃ w' ms, Reach cfg w' ∧ w'.st.log = w.st.log ++ List.flatten ms ∧ ms.length = xs.length ∧
      (∀ m ∈ ms, ∃ e ms', m = e :: ms' ∧ opensBatch e = true ∧ (∀ e ∈ ms', opensBatch e = false) ∧ hasResult ms' = true) ∧
      completions w'.st.log = completions w.st.log ++ xs.map (fun t => (t.1, t.2.2)) ∧
      controlSteps w'.st.log = controlSteps w.st.log ∧ controlState w'.st = controlState w.st ∧ w'.st.converged = false := by
  suffices H : ∀ (xs : List (P × P × Val)) (w : Sys P), BatchReady cfg w → w.st.numEvals + xs.length < cfg.maxEvals →
      ∃ w' ms, BatchReady cfg w' ∧ w'.st.log = w.st.log ++ List.flatten ms ∧ ms.length = xs.length ∧
        (∀ m ∈ ms, ∃ e ms', m = e :: ms' ∧ opensBatch e = true ∧ (∀ e ∈ ms', opensBatch e = false) ∧ hasResult ms' = true) ∧
        completions w'.st.log = completions w.st.log ++ xs.map (fun t => (t.1, t.2.2)) ∧
        controlSteps w'.st.log = controlSteps w.st.log ∧ controlState w'.st = controlState w.st by
    obtain ⟨w', ms, h1, h2, h3, h4, h5, h6, h7⟩ := H xs w h hn
    exact ⟨w', ms, h1.reach, h2, h3, h4, h5, h6, h7, h1.conv⟩
  intro xs
  induction xs with
  | nil => intro w h _; exact ⟨w, [], h, by simp, rfl, by simp, by simp, rfl, rfl⟩
  | cons t xs ih =>
    intro w h hn
    obtain ⟨x, y, v⟩ := t
    simp only [List.length_cons] at hn
    push_cast at hn
    obtain ⟨w1, ws, tt, e, r1, n1, c1, l1⟩ := failed_round hsc hs hb hw x y v h (by omega)
    obtain ⟨w2, ms, h1, h2, h3, h4, h5, h6, h7⟩ := ih w1 r1 (by rw [n1]; omega)
    refine ⟨w2, failedLast x y v ws tt e :: ms, h1, by rw [h2, l1]; simp, by simp [h3], ?_, ?_, ?_, by rw [h7, c1]⟩
    · intro m hm
      rcases List.mem_cons.1 hm with rfl | hm
      · exact ⟨_, _, rfl, rfl, by simp [opensBatch], rfl⟩
      · exact h4 m hm
    · rw [h5, l1, completions_append]
      simp [failedLast, completions]
    · rw [h6, l1, controlSteps_append]
      rfl

/-- There are such states: the initial design has been evaluated. -/
theorem batch_ready_demo : ∃ w : Sys Nat, BatchReady demoSyncSrbf w ∧ w.st.numEvals = 2 ∧ controlSteps w.st.log = 0 := by
  obtain ⟨w, h1, h2⟩ := exists_reach (cfg := demoSyncSrbf) (orc 0) [pr 100, .accept 0, .complete 0 0, pr 100, .accept 0, .complete 0 0]
    (fun w => decide (w.st.terminate = false) && decide (w.st.converged = false) && decide (w.st.batchQueue = []) &&
      w.props.isEmpty && w.recs.isEmpty && decide (w.st.numEvals = 2) && decide (controlSteps w.st.log = 0)) (by decide +kernel)
  simp only [Bool.and_eq_true, decide_eq_true_eq, List.isEmpty_iff] at h2
  obtain ⟨⟨⟨⟨⟨⟨a, b⟩, c⟩, d⟩, e⟩, f⟩, g⟩ := h2
  exact ⟨w, ⟨h1, a, b, c, d, e⟩, f, g⟩

/-- 57 batches of a run with a budget of 60 evaluations, 57 values of which none is an improvement: no step, although two steps
without improvement should halve the radius. -/
example : ∃ w : Sys Nat, Reach demoSyncSrbf w ∧ controlSteps w.st.log = 0 ∧ (completions w.st.log).length ≥ 57 ∧ w.st.converged = false := by
  obtain ⟨w, h1, h2, h3⟩ := batch_ready_demo
  obtain ⟨w', ms, r, -, -, -, c, s, -, cv⟩ := C139_refuted (cfg := demoSyncSrbf) rfl rfl rfl (by simp) h1
    (List.replicate 57 (7, 8, 0)) (by rw [h2]; simp [demoSyncSrbf, demoSrbf])
  exact ⟨w', r, by rw [s, h3], by rw [c]; simp, cv⟩

/-- A batch of which both evaluations give a value: one step. -/
example : ∃ (w : Sys Nat) (l m : List (Event Nat)) (e : Event Nat), Reach demoSyncSrbf w ∧ w.st.batchQueue = [] ∧ w.inflight = [] ∧
    w.st.log = l ++ e :: m ∧ opensBatch e = true ∧ (∀ e ∈ m, opensBatch e = false) ∧ (∀ e ∈ m, endOf e ≠ some false) ∧ hasResult m = true := by
  obtain ⟨w, h1, h2⟩ := exists_reach (cfg := demoSyncSrbf) (orc 0) [pr 100, .accept 0, .complete 0 0, pr 100, .accept 0, .complete 0 0,
    pr 100, .accept 0, pr 100, .accept 0, .complete 0 4, .complete 0 3]
    (fun w => decide (w.st.batchQueue = []) && decide (w.inflight = []) && decide ((w.st.log.drop 7).take 1 ≠ []) &&
      ((w.st.log.drop 7).take 1).all opensBatch && (w.st.log.drop 8).all (fun e => !opensBatch e && !(endOf e == some false)) &&
      hasResult (w.st.log.drop 8)) (by decide +kernel)
  simp only [Bool.and_eq_true, decide_eq_true_eq, List.all_eq_true] at h2
  obtain ⟨⟨⟨⟨⟨a, b⟩, c⟩, d⟩, e⟩, f⟩ := h2
  obtain ⟨x, hx⟩ : ∃ x, w.st.log.drop 7 = x :: w.st.log.drop 8 := by
    cases hd : w.st.log.drop 7 with
    | nil => rw [hd] at c; simp at c
    | cons x r => exact ⟨x, by rw [show (8 : ℕ) = 7 + 1 from rfl, ← List.drop_drop, hd]; rfl⟩
  refine ⟨w, w.st.log.take 7, w.st.log.drop 8, x, h1, a, b, ?_, d x (by rw [hx]; simp), fun e' he => ?_, fun e' he => ?_, f⟩
  · rw [← hx, List.take_append_drop]
  · have := e e' he
    simp only [Bool.not_eq_true', beq_eq_false_iff_ne] at this
    exact this.1
  · have := e e' he
    simp only [Bool.not_eq_true', beq_eq_false_iff_ne] at this
    exact this.2

end Verif.Props
