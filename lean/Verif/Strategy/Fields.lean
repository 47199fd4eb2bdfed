import Verif.Strategy.Induct
import Verif.Strategy.Spec
import Mathlib.Data.List.Perm.Basic

/-! # Field lemmas for the strategy model -/

set_option linter.unusedSectionVars false
set_option linter.unusedSimpArgs false

namespace Verif.Strategy

variable {P : Type}

theorem foldl_addExtra (l : List (P × Option Val)) (s : State P) :
    l.foldl State.addExtra s = { s with
      batchQueue := s.batchQueue ++ l.filterMap (fun e => match e.2 with
        | none => some e.1
        | some _ => none)
      X := s.X ++ (l.filterMap (fun e => match e.2 with
        | none => none
        | some v => some (e.1, v))).map Prod.fst
      fX := s.fX ++ (l.filterMap (fun e => match e.2 with
        | none => none
        | some v => some (e.1, v))).map Prod.snd
      surr := s.surr ++ l.filterMap (fun e => match e.2 with
        | none => none
        | some v => some (e.1, v)) } := by
  induction l generalizing s with
  | nil => simp
  | cons e l ih =>
    rw [List.foldl_cons, ih]
    obtain ⟨x, v⟩ := e
    cases v <;> simp [State.addExtra]

/-- `sample_initial`, field by field. -/
theorem sampleInitial_eq (cfg : Config P) (o : Oracle P) (s : State P) :
    s.sampleInitial cfg o = { s with
      batchQueue := s.batchQueue ++ (List.range cfg.numPts).map o.design
        ++ (if s.X = [] then unknownExtras cfg else [])
      X := s.X ++ (if s.X = [] then (knownExtras cfg).map Prod.fst else [])
      fX := s.fX ++ (if s.X = [] then (knownExtras cfg).map Prod.snd else [])
      surr := if s.X = [] then knownExtras cfg else []
      srbf := s.srbf.map Srbf.sampleInitial } := by
  unfold State.sampleInitial
  by_cases h : s.X = []
  · simp only [h, List.length_nil, if_true, foldl_addExtra]
    simp [unknownExtras, knownExtras]
    exact ⟨rfl, rfl, rfl, rfl⟩
  · have h' : ¬ (s.X.length = 0) := by simpa using h
    simp [h]

/-- `sample_restart`, field by field. -/
theorem sampleRestart_eq (cfg : Config P) (o : Oracle P) (s : State P) :
    s.sampleRestart cfg o = { s with
      evLast := s.evNext
      evNext := s.evNext + 1
      curX := []
      curFX := []
      converged := false
      phase := .initial
      batchQueue := s.batchQueue ++ ((List.range cfg.numPts).map o.design
        ++ (if s.X = [] then unknownExtras cfg else []))
      X := s.X ++ (if s.X = [] then (knownExtras cfg).map Prod.fst else [])
      fX := s.fX ++ (if s.X = [] then (knownExtras cfg).map Prod.snd else [])
      surr := if s.X = [] then knownExtras cfg else []
      srbf := s.srbf.map Srbf.sampleInitial
      log := s.log ++ [.restart ((List.range cfg.numPts).map o.design
        ++ (if s.X = [] then unknownExtras cfg else []))] } := by
  unfold State.sampleRestart
  simp only [sampleInitial_eq, State.moveEvLast]
  simp [List.append_assoc]

/-- The constructor, field by field. -/
theorem create_eq (cfg : Config P) (o : Oracle P) :
    State.create cfg o = { State.blank cfg with
      batchQueue := (List.range cfg.numPts).map o.design ++ unknownExtras cfg
      X := (knownExtras cfg).map Prod.fst
      fX := (knownExtras cfg).map Prod.snd
      surr := knownExtras cfg
      log := [.start ((List.range cfg.numPts).map o.design ++ unknownExtras cfg)] } := by
  unfold State.create
  simp only [sampleInitial_eq]
  simp [State.blank]
  rfl

variable [DecidableEq P]

theorem recordCompleted_eq (s : State P) (x : P) (v : Val) (e : Nat) :
    s.recordCompleted x v e = { s with
      numEvals := s.numEvals + 1
      pendingEvals := s.pendingEvals - 1
      X := s.X ++ [x]
      fX := s.fX ++ [v]
      Xpend := s.Xpend.filter fun y => decide (y ≠ x)
      curX := if e > s.evLast then s.curX ++ [x] else s.curX
      curFX := if e > s.evLast then s.curFX ++ [v] else s.curFX
      surr := if e > s.evLast then s.surr ++ [(x, v)] else s.surr
      fevals := s.fevals ++ [{ x := x, value := some v, evId := e }] } := by
  unfold State.recordCompleted
  by_cases h : e > s.evLast <;> simp [State.removePending, h]

theorem onAborted_eq (s : State P) (x : P) (k : Kind) (e : Nat) :
    s.onAborted x k e = { s with
      pendingEvals := s.pendingEvals - 1
      batchQueue := s.batchQueue ++ (if k = .init then [x] else [])
      Xpend := s.Xpend.filter fun y => decide (y ≠ x)
      fevals := s.fevals ++ [{ x := x, value := none, evId := e }] } := by
  unfold State.onAborted
  cases k <;> simp [State.removePending]

theorem onInitialRejected_eq (s : State P) (x : P) :
    s.onInitialRejected x = { s with
      rejectedCount := s.rejectedCount + 1
      pendingEvals := s.pendingEvals - 1
      batchQueue := s.batchQueue ++ [x]
      Xpend := s.Xpend.filter fun y => decide (y ≠ x) } := by
  unfold State.onInitialRejected
  simp [State.removePending]

theorem onAdaptReject_eq (cfg : Config P) (s : State P) (x : P) :
    s.onAdaptReject cfg x = { s with
      rejectedCount := s.rejectedCount + 1
      pendingEvals := s.pendingEvals - 1
      batchQueue := s.batchQueue ++ (if cfg.asynchronous then [] else [x])
      Xpend := s.Xpend.filter fun y => decide (y ≠ x) } := by
  unfold State.onAdaptReject
  cases cfg.asynchronous <;> simp [State.removePending]

theorem resume_eq (s : State P) :
    s.resume = { s with
      batchQueue := s.batchQueue ++ (if s.phase = .initial then s.Xpend else [])
      pendingEvals := 0
      Xpend := []
      log := s.log ++ [.resumed (if s.phase = .initial then s.Xpend else [])] } := by
  unfold State.resume
  cases h : s.phase <;> simp

/-- The two outcomes of `generate_evals`. -/
theorem generateEvals_cases {cfg : Config P} {o : Oracle P} {n : Nat} {s s' : State P}
    (h : s.generateEvals cfg o n = some s') :
    (∃ ws z, s' = { s with
        srbf := z
        batchQueue := s.batchQueue ++ (List.range n).map o.pts
        log := s.log ++ [.generated ((List.range n).map o.pts) ws] } ∧
      ((∃ sc z0 next', cfg.srbf = some sc ∧ s.srbf = some z0 ∧
          getWeights sc.weights z0.nextWeight n = some (ws, next') ∧
          z = some { z0 with nextWeight := next' }) ∨
        (z = s.srbf ∧ (cfg.srbf = none ∨ s.srbf = none) ∧ ws = []))) ∨
    (o.giveUp = true ∧ s' = { s with converged := true } ∧ (cfg.srbf = none ∨ s.srbf = none)) := by
  unfold State.generateEvals at h
  split at h
  · rename_i sc z hsc hz
    split at h
    · simp at h
    · rename_i ws next' hw
      simp only [Option.some.injEq] at h
      left
      exact ⟨ws, _, h.symm, .inl ⟨sc, z, next', hsc, hz, hw, rfl⟩⟩
  · rename_i hnn
    have hno : cfg.srbf = none ∨ s.srbf = none := by
      cases h1 : cfg.srbf with
      | none => simp
      | some a =>
        cases h2 : s.srbf with
        | none => simp
        | some b => exact absurd h2 (hnn a b h1)
    split at h <;> simp only [Option.some.injEq] at h <;> subst h
    · rename_i hg
      right; exact ⟨hg, rfl, hno⟩
    · left; exact ⟨[], s.srbf, rfl, .inr ⟨rfl, hno, rfl⟩⟩

theorem mem_of_getElem? {α : Type} {l : List α} {i : Nat} {a : α} (h : l[i]? = some a) :
    a ∈ l := List.mem_of_getElem? h

theorem perm_eraseIdx {α : Type} {l : List α} {i : Nat} {a : α} (h : l[i]? = some a) :
    l.Perm (a :: l.eraseIdx i) := by
  induction l generalizing i with
  | nil => simp at h
  | cons b l ih =>
    cases i with
    | zero =>
      simp at h; subst h; simp
    | succ i =>
      simp at h
      simp only [List.eraseIdx_cons_succ]
      exact ((ih h).cons b).trans (List.Perm.swap _ _ _)

theorem length_eraseIdx' {α : Type} {l : List α} {i : Nat} {a : α} (h : l[i]? = some a) :
    (l.eraseIdx i).length + 1 = l.length := by
  have := (perm_eraseIdx h).length_eq
  simpa using this.symm

end Verif.Strategy
