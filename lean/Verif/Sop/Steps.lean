import Verif.Sop.Model
import Verif.Strategy.Propose

/-! # Case analysis of the steps of SOP -/

set_option linter.unusedSectionVars false

namespace Verif.Sop

open Verif.Num Verif.Utils Verif.Strategy Verif.Spec

variable {d : ℕ} {c : Cfg d}

/-- The strategy after `generate_evals`. -/
def genState (s : State (Pt d)) (pts : List (Pt d)) : State (Pt d) :=
  { s with phase := .adaptive, batchQueue := pts, log := s.log ++ [.generated pts []] }

/-- Is `generate_evals` called, and for how many points? -/
def genCount (cfg : Config (Pt d)) : ℕ := if cfg.asynchronous then 1 else cfg.batchSize

/-- The kind of proposal made in a phase. -/
def kindOf : Phase → Kind
  | .initial => .init
  | .adaptive => .adapt

/-- A proposal: the last element of the queue. -/
def proposeLast (w : Sys (Pt d)) (s : State (Pt d)) (q : List (Pt d)) (x : Pt d) (k : Kind) : Sys (Pt d) :=
  { w with st := (State.makeProposal { s with batchQueue := q } x).note (.proposed x k)
           props := w.props ++ [{ x := x, kind := k }] }

/-- The strategy after the first branch of `propose_action`. -/
def termState (s : State (Pt d)) : State (Pt d) :=
  if s.pendingEvals = 0 then State.note { s with terminate := true } .terminated else { s with terminate := true }

/-- What the environment does with the result of `propose_action`. -/
def finish (w : Sys (Pt d)) : Option (Action (Pt d) × State (Pt d)) → Option (Sys (Pt d))
  | none => none
  | some (.eval x k, s) => some { w with st := s.note (.proposed x k), props := w.props ++ [{ x := x, kind := k }] }
  | some (.terminate, s) => some { w with st := s.note .terminated }
  | some (.nothing, s) => some { w with st := s }

theorem step_finish (cfg : Config (Pt d)) (w : Sys (Pt d)) (o : Oracle (Pt d)) :
    w.step cfg (.propose o) = finish w (w.st.proposeAction cfg o) := by
  unfold Sys.step
  simp only
  rcases w.st.proposeAction cfg o with _ | ⟨a, s⟩
  · rfl
  · cases a <;> rfl

theorem finish_adapt (w : Sys (Pt d)) (s : State (Pt d)) :
    finish w (some s.adaptProposal) = match popLast s.batchQueue with
      | none => some { w with st := s }
      | some (x, q) => some (proposeLast w s q x .adapt) := by
  unfold State.adaptProposal
  rcases popLast s.batchQueue with _ | ⟨x, q⟩ <;> rfl

theorem finish_init (w : Sys (Pt d)) (s : State (Pt d)) :
    finish w s.initProposal = match popLast s.batchQueue with
      | none => none
      | some (x, q) => some (proposeLast w s q x .init) := by
  unfold State.initProposal
  rcases popLast s.batchQueue with _ | ⟨x, q⟩ <;> rfl

/-- The base strategy, without step control, not giving up and not converged. -/
theorem base_propose (cfg : Config (Pt d)) (hs : cfg.srbf = none) (w : Sys (Pt d)) (hcv : w.st.converged = false)
    (o : Oracle (Pt d)) (ho : o.giveUp = false) :
    w.step cfg (.propose o) =
      if w.st.terminate = true ∨ cfg.maxEvals ≤ w.st.numEvals + w.st.pendingEvals then
        some { w with st := termState w.st }
      else if w.st.batchQueue = [] then
        if cfg.asynchronous = true ∨ w.st.pendingEvals = 0 then
          match popLast ((List.range (genCount cfg)).map o.pts) with
          | none => some { w with st := genState w.st ((List.range (genCount cfg)).map o.pts) }
          | some (x, q) => some (proposeLast w (genState w.st ((List.range (genCount cfg)).map o.pts)) q x .adapt)
        else some { w with st := { w.st with phase := .adaptive } }
      else match popLast w.st.batchQueue with
        | none => none
        | some (x, q) => some (proposeLast w w.st q x (kindOf w.st.phase)) := by
  rw [step_finish]
  by_cases ht : w.st.terminate = true ∨ cfg.maxEvals ≤ w.st.numEvals + w.st.pendingEvals
  · rw [if_pos ht, proposeAction_terminate ht]
    unfold termState
    by_cases hp : w.st.pendingEvals = 0
    · rw [if_pos hp, if_pos hp]; rfl
    · rw [if_neg hp, if_neg hp]; rfl
  · rw [if_neg ht]
    simp only [not_or, not_le, Bool.not_eq_true] at ht
    simp only [proposeAction_going ht.1 ht.2, hcv, Bool.false_eq_true, if_false]
    by_cases hq : w.st.batchQueue = []
    · rw [if_pos (by rw [hq]; rfl), if_pos hq]
      have hgen : ∀ n, State.generateEvals cfg o n { w.st with phase := .adaptive } =
          some (genState w.st ((List.range n).map o.pts)) := by
        intro n
        unfold State.generateEvals
        rw [hs]
        simp only [ho, Bool.false_eq_true, if_false]
        simp [genState, hq]
      have hag : ∀ pts, (genState w.st pts).afterGenerate cfg o = some (genState w.st pts).adaptProposal := by
        intro pts
        unfold State.afterGenerate
        have : (genState w.st pts).converged = false := hcv
        rw [this]
        simp
      by_cases ha : cfg.asynchronous = true
      · have hn : genCount cfg = 1 := by unfold genCount; rw [if_pos ha]
        rw [if_pos (Or.inl ha), hn]
        unfold State.adaptBranch
        simp only
        rw [if_pos ha, hgen]
        simp only
        rw [hag, finish_adapt]
        rfl
      · have hn : genCount cfg = cfg.batchSize := by unfold genCount; rw [if_neg ha]
        by_cases hp : w.st.pendingEvals = 0
        · rw [if_pos (Or.inr hp), hn]
          unfold State.adaptBranch
          simp only
          rw [if_neg ha, if_pos (by simpa using hp), hgen]
          simp only
          rw [hag, finish_adapt]
          rfl
        · rw [if_neg (by tauto)]
          unfold State.adaptBranch
          simp only
          rw [if_neg ha, if_neg (by simpa using hp)]
          have : State.afterGenerate cfg o { w.st with phase := .adaptive } =
              some (State.adaptProposal { w.st with phase := .adaptive }) := by
            unfold State.afterGenerate
            simp [hcv]
          rw [this, finish_adapt]
          simp [hq, popLast, hcv]
    · have hne : w.st.batchQueue.isEmpty = false := by simpa using hq
      rw [if_neg (by simp [hne]), if_neg hq]
      cases hph : w.st.phase with
      | initial => simp only; rw [finish_init]; rfl
      | adaptive =>
        simp only
        rw [finish_adapt]
        cases hpop : popLast w.st.batchQueue with
        | none => exact absurd (popLast_none hpop) hq
        | some p => rfl

/-- The possible outcomes of a call of `propose_action` of SOP. -/
inductive Proposed (c : Cfg d) (w : SopSys d) (o : Oracle (Pt d)) : SopSys d → Prop
  | term (ht : w.sys.st.terminate = true ∨ c.base.maxEvals ≤ w.sys.st.numEvals + w.sys.st.pendingEvals) :
      Proposed c w o ⟨{ w.sys with st := termState w.sys.st }, w.sop⟩
  | queue (x : Pt d) (q : List (Pt d)) (hq : w.sys.st.batchQueue = q ++ [x]) (hg : Going c.base w.sys.st) :
      Proposed c w o ⟨proposeLast w.sys w.sys.st q x (kindOf w.sys.st.phase), w.sop⟩
  | gen (x : Pt d) (q : List (Pt d)) (z : Sop d) (hpts : (List.range (genCount c.base)).map o.pts = q ++ [x])
      (hq : w.sys.st.batchQueue = []) (hg : Going c.base w.sys.st)
      (ha : c.base.asynchronous = true ∨ w.sys.st.pendingEvals = 0)
      (hz : w.sop.generate c w.sys.st.numEvals.toNat (q ++ [x]) = some z) :
      Proposed c w o ⟨proposeLast w.sys (genState w.sys.st (q ++ [x])) q x .adapt, z⟩
  | genNone (z : Sop d) (hn : genCount c.base = 0) (hq : w.sys.st.batchQueue = []) (hg : Going c.base w.sys.st)
      (ha : c.base.asynchronous = true ∨ w.sys.st.pendingEvals = 0)
      (hz : w.sop.generate c w.sys.st.numEvals.toNat [] = some z) :
      Proposed c w o ⟨{ w.sys with st := genState w.sys.st [] }, z⟩
  | wait (hq : w.sys.st.batchQueue = []) (hg : Going c.base w.sys.st) (ha : c.base.asynchronous = false)
      (hp : w.sys.st.pendingEvals ≠ 0) :
      Proposed c w o ⟨{ w.sys with st := { w.sys.st with phase := .adaptive } }, w.sop⟩

theorem generatedNow_same (l : List (Event (Pt d))) : generatedNow l l = none := by
  unfold generatedNow; simp

theorem generatedNow_append (l : List (Event (Pt d))) (e : Event (Pt d)) (m : List (Event (Pt d))) :
    generatedNow l (l ++ e :: m) = match e with | .generated pts _ => some pts | _ => none := by
  unfold generatedNow
  simp
  cases e <;> rfl

theorem step_propose (hs : c.base.srbf = none) {w w' : SopSys d} (hcv : w.sys.st.converged = false)
    {o : Oracle (Pt d)} (h : w.step c (.propose o) = some w') : Proposed c w o w' := by
  unfold SopSys.step at h
  simp only [base_propose c.base hs w.sys hcv { o with giveUp := false } rfl] at h
  by_cases ht : w.sys.st.terminate = true ∨ c.base.maxEvals ≤ w.sys.st.numEvals + w.sys.st.pendingEvals
  · simp only [if_pos ht] at h
    have hn : generatedNow w.sys.st.log (termState w.sys.st).log = none := by
      unfold termState
      by_cases hp : w.sys.st.pendingEvals = 0
      · rw [if_pos hp]
        exact generatedNow_append _ _ []
      · rw [if_neg hp]; exact generatedNow_same _
    simp only [hn, Option.some.injEq] at h
    rw [← h]
    exact .term ht
  · simp only [if_neg ht] at h
    have hg : Going c.base w.sys.st := by
      simp only [not_or, not_le, Bool.not_eq_true] at ht
      exact ⟨ht.1, ht.2⟩
    by_cases hq : w.sys.st.batchQueue = []
    · simp only [if_pos hq] at h
      by_cases ha : c.base.asynchronous = true ∨ w.sys.st.pendingEvals = 0
      · simp only [if_pos ha] at h
        rcases hpop : popLast ((List.range (genCount c.base)).map o.pts) with _ | ⟨x, q⟩
        · have hnil := popLast_none hpop
          simp only [hpop] at h
          rw [hnil] at h
          have hn : generatedNow w.sys.st.log (genState w.sys.st []).log = some [] :=
            generatedNow_append _ _ []
          simp only [hn] at h
          rcases hz : w.sop.generate c w.sys.st.numEvals.toNat [] with _ | z
          · rw [hz] at h; simp at h
          · rw [hz] at h
            simp only [Option.map_some, Option.some.injEq] at h
            rw [← h]
            refine .genNone z ?_ hq hg ha hz
            simpa using hnil
        · have hx := popLast_some hpop
          simp only [hpop] at h
          rw [hx] at h
          have hn : generatedNow w.sys.st.log (proposeLast w.sys (genState w.sys.st (q ++ [x])) q x .adapt).st.log =
              some (q ++ [x]) := by
            have : (proposeLast w.sys (genState w.sys.st (q ++ [x])) q x .adapt).st.log =
                w.sys.st.log ++ .generated (q ++ [x]) [] :: [.proposed x .adapt] := by
              simp [proposeLast, genState, State.note, State.makeProposal]
            rw [this]
            exact generatedNow_append _ _ _
          simp only [hn] at h
          rcases hz : w.sop.generate c w.sys.st.numEvals.toNat (q ++ [x]) with _ | z
          · rw [hz] at h; simp at h
          · rw [hz] at h
            simp only [Option.map_some, Option.some.injEq] at h
            rw [← h]
            exact .gen x q z hx hq hg ha hz
      · simp only [if_neg ha] at h
        have hn := generatedNow_same w.sys.st.log
        simp only [hn, Option.some.injEq] at h
        rw [← h]
        simp only [not_or, Bool.not_eq_true] at ha
        exact .wait hq hg ha.1 ha.2
    · simp only [if_neg hq] at h
      rcases hpop : popLast w.sys.st.batchQueue with _ | ⟨x, q⟩
      · exact absurd (popLast_none hpop) hq
      · simp only [hpop] at h
        have hn : generatedNow w.sys.st.log (proposeLast w.sys w.sys.st q x (kindOf w.sys.st.phase)).st.log = none :=
          generatedNow_append _ _ []
        simp only [hn, Option.some.injEq] at h
        rw [← h]
        exact .queue x q (popLast_some hpop) hg

/-- The other direction for the call of `generate_evals`: if it raises, `propose_action` raises. -/
theorem step_propose_gen (hs : c.base.srbf = none) (w : SopSys d) (hcv : w.sys.st.converged = false)
    (o : Oracle (Pt d)) (hg : Going c.base w.sys.st) (hq : w.sys.st.batchQueue = [])
    (ha : c.base.asynchronous = true ∨ w.sys.st.pendingEvals = 0) (x : Pt d) (q : List (Pt d))
    (hpts : (List.range (genCount c.base)).map o.pts = q ++ [x]) :
    w.step c (.propose o) = (w.sop.generate c w.sys.st.numEvals.toNat (q ++ [x])).map fun z =>
      ⟨proposeLast w.sys (genState w.sys.st (q ++ [x])) q x .adapt, z⟩ := by
  unfold SopSys.step
  simp only [base_propose c.base hs w.sys hcv { o with giveUp := false } rfl]
  have ht : ¬ (w.sys.st.terminate = true ∨ c.base.maxEvals ≤ w.sys.st.numEvals + w.sys.st.pendingEvals) := by
    have := hg.budget
    rw [hg.notTerm]; simp; omega
  simp only [if_neg ht, if_pos hq, if_pos ha]
  have hpop : popLast ((List.range (genCount c.base)).map o.pts) = some (x, q) := by rw [hpts, popLast_append]
  simp only [hpop]
  rw [hpts]
  have hn : generatedNow w.sys.st.log (proposeLast w.sys (genState w.sys.st (q ++ [x])) q x .adapt).st.log =
      some (q ++ [x]) := by
    have : (proposeLast w.sys (genState w.sys.st (q ++ [x])) q x .adapt).st.log =
        w.sys.st.log ++ .generated (q ++ [x]) [] :: [.proposed x .adapt] := by
      simp [proposeLast, genState, State.note, State.makeProposal]
    rw [this]
    exact generatedNow_append _ _ _
  simp only [hn]

/-- A completed evaluation. -/
theorem step_complete (hs : c.base.srbf = none) {w w' : SopSys d} {i : ℕ} {v : Val}
    (h : w.step c (.complete i v) = some w') : ∃ r, w.sys.recs[i]? = some r ∧
      w'.sys = { w.sys with
        st := (w.sys.st.note (.completed r.x r.kind v r.accAt)).recordCompleted r.x v r.evId
        recs := w.sys.recs.eraseIdx i } ∧
      match r.kind with
      | .init => w'.sop = w.sop.onInitialCompleted w'.sys.st r.x v r.evId
      | .adapt => w.sop.onAdaptCompleted c w'.sys.st r.x v r.evId = some w'.sop := by
  unfold SopSys.step Sys.step at h
  simp only at h
  rcases hr : w.sys.recs[i]? with _ | r
  · rw [hr] at h; simp at h
  · rw [hr] at h
    simp only at h
    refine ⟨r, rfl, ?_⟩
    have hc : (w.sys.st.note (.completed r.x r.kind v r.accAt)).onCompleted c.base r.x r.kind v r.evId =
        (w.sys.st.note (.completed r.x r.kind v r.accAt)).recordCompleted r.x v r.evId := by
      unfold State.onCompleted
      rw [hs]
      cases r.kind <;> rfl
    rw [hc] at h
    cases hk : r.kind with
    | init =>
      simp only [hk, Option.some.injEq] at h
      rw [← h]
      exact ⟨rfl, rfl⟩
    | adapt =>
      simp only [hk] at h
      obtain ⟨z, hz, rfl⟩ := Option.map_eq_some_iff.mp h
      exact ⟨rfl, hz⟩

/-- The other events do not touch the memory of SOP. -/
theorem step_other {w w' : SopSys d} {op : Strategy.Op (Pt d)} (h : w.step c op = some w')
    (hp : ∀ o, op ≠ .propose o) (hc : ∀ i v, op ≠ .complete i v) :
    w'.sop = w.sop ∧ w.sys.step c.base op = some w'.sys := by
  unfold SopSys.step at h
  cases op with
  | propose o => exact absurd rfl (hp o)
  | complete i v => exact absurd rfl (hc i v)
  | accept i => obtain ⟨z, hz, rfl⟩ := Option.map_eq_some_iff.mp h; exact ⟨rfl, hz⟩
  | reject i => obtain ⟨z, hz, rfl⟩ := Option.map_eq_some_iff.mp h; exact ⟨rfl, hz⟩
  | abort i => obtain ⟨z, hz, rfl⟩ := Option.map_eq_some_iff.mp h; exact ⟨rfl, hz⟩
  | update i => obtain ⟨z, hz, rfl⟩ := Option.map_eq_some_iff.mp h; exact ⟨rfl, hz⟩

/-- Every step of SOP is a step of the base strategy. -/
theorem step_base {w w' : SopSys d} {op : Strategy.Op (Pt d)} (h : w.step c op = some w') :
    ∃ op', w.sys.step c.base op' = some w'.sys := by
  by_cases hp : ∃ o, op = .propose o
  · obtain ⟨o, rfl⟩ := hp
    refine ⟨.propose { o with giveUp := false }, ?_⟩
    unfold SopSys.step at h
    simp only at h
    rcases hst : w.sys.step c.base (.propose { o with giveUp := false }) with _ | sys
    · rw [hst] at h; simp at h
    · rw [hst] at h
      simp only at h
      split at h
      · simp only [Option.some.injEq] at h
        rw [← h]
      · obtain ⟨z, _, rfl⟩ := Option.map_eq_some_iff.mp h; rfl
  · by_cases hc : ∃ i v, op = .complete i v
    · obtain ⟨i, v, rfl⟩ := hc
      refine ⟨.complete i v, ?_⟩
      unfold SopSys.step at h
      simp only at h
      split at h
      · rename_i r sys hr hst
        rw [hst]
        split at h
        · simp only [Option.some.injEq] at h
          rw [← h]
        · obtain ⟨z, _, rfl⟩ := Option.map_eq_some_iff.mp h; rfl
      · simp at h
    · exact ⟨op, (step_other h (fun o ho => hp ⟨o, ho⟩) fun i v hv => hc ⟨i, v, hv⟩).2⟩

theorem Reach.base {w : SopSys d} (h : Reach c w) : Strategy.Reach c.base w.sys := by
  induction h with
  | create o => exact .create o
  | step op _ hstep ih =>
    obtain ⟨op', h'⟩ := step_base hstep
    exact ih.step op' h'
  | resume _ ih => exact ih.resume

/-! ## The memory functions keep points and values -/

/-- Points and values of the archive. -/
def archive (z : Sop d) : List (Pt d × Val) := z.evals.map fun r => (r.x, r.fx)

theorem map_modify_same {α β : Type} (g : α → β) (f : α → α) (hf : ∀ a, g (f a) = g a) (l : List α) (i : ℕ) :
    (l.modify i f).map g = l.map g := by
  apply List.ext_getElem?
  intro n
  simp only [List.getElem?_map, List.getElem?_modify]
  by_cases h : i = n
  · simp only [h, if_true]
    cases l[n]? <;> simp [hf]
  · simp [h]

theorem updateF_spec {n : ℕ} {z z' : Sop d} (h : z.updateF c n = some z') :
    z.evals.length = n ∧ z' = { z with F := some (z.evals.map (fRow c)) } := by
  unfold Sop.updateF at h
  split at h
  · rename_i hl
    simp only [Option.some.injEq] at h
    exact ⟨hl, h.symm⟩
  · simp at h

theorem updateRanks_spec {n : ℕ} {z z' : Sop d} (h : z.updateRanks c n = some z') :
    z.evals.length = n ∧ ∃ ds, distCol ((z.evals.map (fRow c)).map FRow.u) = some ds ∧
      z' = { z with F := some (rankRows (z.evals.map (fRow c)) ds) } := by
  unfold Sop.updateRanks at h
  split at h
  · simp at h
  · rename_i z1 h1
    obtain ⟨hl, rfl⟩ := updateF_spec h1
    simp only at h
    split at h
    · simp at h
    · rename_i ds hds
      simp only [Option.some.injEq] at h
      exact ⟨hl, ds, hds, h.symm⟩

theorem updateCenterList_keeps {n : ℕ} {z z' : Sop d} (h : z.updateCenterList c n = some z') :
    z'.evals = z.evals ∧ z'.F = z.F := by
  unfold Sop.updateCenterList at h
  split at h
  · simp only at h
    split at h
    · simp at h
    · split at h
      · split at h
        · simp at h
        · simp only [Option.some.injEq] at h; rw [← h]; exact ⟨rfl, rfl⟩
      · simp only [Option.some.injEq] at h; rw [← h]; exact ⟨rfl, rfl⟩
  · simp at h

theorem generate_keeps {n : ℕ} {pts : List (Pt d)} {z z' : Sop d} (h : z.generate c n pts = some z') :
    z'.evals = z.evals := by
  unfold Sop.generate at h
  split at h
  · simp at h
  · rename_i z1 h1
    have e1 : z1.evals = z.evals := by
      unfold Sop.firstRanks at h1
      split at h1
      · obtain ⟨_, ds, _, rfl⟩ := updateRanks_spec h1; rfl
      · simp only [Option.some.injEq] at h1; rw [h1]
    split at h
    · simp at h
    · rename_i z2 h2
      have e2 := (updateCenterList_keeps h2).1
      split at h
      · simp at h
      · simp only [Option.some.injEq] at h
        rw [← h]
        exact e2.trans e1

theorem failStep_archive {F : List (FRow d)} {cs : List (Center d)} {evals evals' : List (SopRec d)} {i : ℕ}
    (h : failStep F cs evals i = some evals') :
    evals'.map (fun r => (r.x, r.fx)) = evals.map (fun r => (r.x, r.fx)) := by
  unfold failStep at h
  split at h
  · simp at h
  · split at h
    · simp at h
    · simp only [Option.some.injEq] at h
      rw [← h]
      split
      · rfl
      · exact map_modify_same _ SopRec.fail (fun _ => rfl) _ _

theorem failLoop_archive {F : List (FRow d)} {cs : List (Center d)} {indices : List ℕ} {evals evals' : List (SopRec d)}
    (h : indices.foldlM (failStep F cs) evals = some evals') :
    evals'.map (fun r => (r.x, r.fx)) = evals.map (fun r => (r.x, r.fx)) := by
  induction indices generalizing evals with
  | nil => simp only [List.foldlM_nil, Option.pure_def, Option.some.injEq] at h; rw [h]
  | cons i l ih =>
    rw [List.foldlM_cons] at h
    obtain ⟨e1, h1, h2⟩ := Option.bind_eq_some_iff.mp h
    rw [ih h2, failStep_archive h1]

theorem tabuLoop_archive (cs : List (Center d)) (indices : List ℕ) (evals : List (SopRec d)) :
    (indices.foldl (tabuStep cs) evals).map (fun r => (r.x, r.fx)) = evals.map (fun r => (r.x, r.fx)) := by
  induction indices generalizing evals with
  | nil => rfl
  | cons i l ih =>
    rw [List.foldl_cons, ih]
    unfold tabuStep
    split
    · rfl
    · exact map_modify_same _ _ (fun r => by split <;> rfl) _ _

theorem tick_archive (evals : List (SopRec d)) :
    (evals.map SopRec.tick).map (fun r => (r.x, r.fx)) = evals.map (fun r => (r.x, r.fx)) := by
  rw [List.map_map]
  refine List.map_congr_left fun r _ => ?_
  simp only [Function.comp, SopRec.tick]
  split
  · split <;> rfl
  · rfl

/-- The phases of `adjust_memory`. -/
theorem adjustMemory_spec {n : ℕ} {index : Option ℕ} {z z' : Sop d} (h : z.adjustMemory c n index = some z') :
    ∃ ds evals, z.evals.length = n ∧ distCol ((z.evals.map (fRow c)).map FRow.u) = some ds ∧
      (processed c index).foldlM
        (failStep (rankRows (z.evals.map (fRow c)) ds) z.centers) z.evals = some evals ∧
      z'.evals = (processed c index).foldl (tabuStep z.centers)
        (evals.map SopRec.tick) ∧
      z'.centers = z.centers ∧ z'.F = some (z'.evals.map (fRow c)) ∧ z'.evals.length = n := by
  unfold Sop.adjustMemory at h
  simp only at h
  split at h
  · simp at h
  · rename_i z1 h1
    obtain ⟨hl, ds, hds, rfl⟩ := updateRanks_spec h1
    simp only at h
    split at h
    · simp at h
    · rename_i evals he
      obtain ⟨hl', rfl⟩ := updateF_spec h
      exact ⟨ds, evals, hl, hds, he, rfl, rfl, rfl, hl'⟩

theorem adjustMemory_archive {n : ℕ} {index : Option ℕ} {z z' : Sop d} (h : z.adjustMemory c n index = some z') :
    archive z' = archive z := by
  obtain ⟨ds, evals, _, _, he, he', _⟩ := adjustMemory_spec h
  unfold archive
  rw [he', tabuLoop_archive, tick_archive, failLoop_archive he]

/-- `on_adapt_completed` appends the evaluation to the archive. -/
theorem onAdaptCompleted_archive {st : State (Pt d)} {z z' : Sop d} {x : Pt d} {v : Val} {evId : ℕ}
    (hev : st.evLast = 0) (h : z.onAdaptCompleted c st x v evId = some z') : archive z' = archive z ++ [(x, v)] := by
  unfold Sop.onAdaptCompleted at h
  rw [hev, if_pos (Nat.zero_le _)] at h
  simp only at h
  split at h
  · rw [adjustMemory_archive h]; simp [archive, SopRec.new]
  · split at h
    · rw [adjustMemory_archive h]; simp [archive, SopRec.new]
    · simp only [Option.some.injEq] at h
      rw [← h]; simp [archive, SopRec.new]

/-- SOP never converges or restarts; the archive is the history. -/
structure Inv (w : SopSys d) : Prop where
  conv : w.sys.st.converged = false
  evLast : w.sys.st.evLast = 0
  arch : archive w.sop = completions w.sys.st.log

theorem completions_append (l m : List (Event (Pt d))) : completions (l ++ m) = completions l ++ completions m := by
  simp [completions]

theorem Reach.inv (hs : c.base.srbf = none) {w : SopSys d} (h : Reach c w) : Inv w := by
  induction h with
  | create o =>
    refine ⟨?_, ?_, ?_⟩ <;>
      simp [SopSys.create, Sys.create, create_eq, State.blank, archive, completions]
  | @step w w' op hr hstep ih =>
    cases op with
    | propose o =>
      cases step_propose hs ih.conv hstep with
      | term ht =>
        by_cases hp : w.sys.st.pendingEvals = 0
        · rw [show termState w.sys.st = State.note { w.sys.st with terminate := true } .terminated by
            unfold termState; rw [if_pos hp]]
          exact ⟨ih.conv, ih.evLast, by
            simp only [State.note, completions_append, ih.arch]; simp [completions]⟩
        · rw [show termState w.sys.st = { w.sys.st with terminate := true } by unfold termState; rw [if_neg hp]]
          exact ⟨ih.conv, ih.evLast, ih.arch⟩
      | queue x q hq hg =>
        exact ⟨ih.conv, ih.evLast, by
          simp only [proposeLast, State.note, State.makeProposal, completions_append, ih.arch]; simp [completions]⟩
      | gen x q z hpts hq hg ha hz =>
        refine ⟨ih.conv, ih.evLast, ?_⟩
        have he := generate_keeps hz
        simp only [archive, he, proposeLast, genState, State.note, State.makeProposal, completions_append]
        rw [← ih.arch]
        simp [completions, archive]
      | genNone z hn hq hg ha hz =>
        refine ⟨ih.conv, ih.evLast, ?_⟩
        have he := generate_keeps hz
        simp only [archive, he, genState, completions_append]
        rw [← ih.arch]
        simp [completions, archive]
      | wait hq hg ha hp => exact ⟨ih.conv, ih.evLast, ih.arch⟩
    | complete i v =>
      obtain ⟨r, hr', hsys, hsop⟩ := step_complete hs hstep
      have hst : w'.sys.st = (w.sys.st.note (.completed r.x r.kind v r.accAt)).recordCompleted r.x v r.evId := by
        rw [hsys]
      have hev : w'.sys.st.evLast = 0 := by rw [hst, recordCompleted_eq]; exact ih.evLast
      refine ⟨by rw [hst, recordCompleted_eq]; exact ih.conv, hev, ?_⟩
      have hlog : completions w'.sys.st.log = completions w.sys.st.log ++ [(r.x, v)] := by
        rw [hst, recordCompleted_eq]
        simp [State.note, completions]
      rw [hlog, ← ih.arch]
      cases hk : r.kind with
      | init =>
        rw [hk] at hsop
        simp only at hsop
        rw [hsop]
        unfold Sop.onInitialCompleted
        rw [hev, if_pos (Nat.zero_le _)]
        simp [archive, SopRec.new]
      | adapt =>
        rw [hk] at hsop
        exact onAdaptCompleted_archive hev hsop
    | accept i =>
      obtain ⟨h1, h2⟩ := step_other hstep (by simp) (by simp)
      unfold Sys.step at h2
      simp only at h2
      split at h2
      · simp at h2
      · simp only [Option.some.injEq] at h2
        refine ⟨by rw [← h2]; exact ih.conv, by rw [← h2]; exact ih.evLast, ?_⟩
        rw [h1, ← h2]
        simp only [State.onAccept, State.note, completions_append, ih.arch]; simp [completions]
    | reject i =>
      obtain ⟨h1, h2⟩ := step_other hstep (by simp) (by simp)
      unfold Sys.step at h2
      simp only at h2
      split at h2
      · simp at h2
      · rename_i p hp
        simp only [Option.some.injEq] at h2
        cases hk : p.kind <;> rw [hk] at h2 <;> simp only [onInitialRejected_eq, onAdaptReject_eq] at h2 <;>
          refine ⟨by rw [← h2]; exact ih.conv, by rw [← h2]; exact ih.evLast, ?_⟩ <;> rw [h1, ← h2] <;>
          simp only [State.note, completions_append, ih.arch] <;> simp [completions]
    | abort i =>
      obtain ⟨h1, h2⟩ := step_other hstep (by simp) (by simp)
      unfold Sys.step at h2
      simp only at h2
      split at h2
      · simp at h2
      · simp only [Option.some.injEq, onAborted_eq] at h2
        refine ⟨by rw [← h2]; exact ih.conv, by rw [← h2]; exact ih.evLast, ?_⟩
        rw [h1, ← h2]
        simp only [State.note, completions_append, ih.arch]; simp [completions]
    | update i =>
      obtain ⟨h1, h2⟩ := step_other hstep (by simp) (by simp)
      unfold Sys.step at h2
      simp only at h2
      split at h2
      · simp at h2
      · simp only [Option.some.injEq] at h2
        exact ⟨by rw [← h2]; exact ih.conv, by rw [← h2]; exact ih.evLast, by rw [h1, ← h2]; exact ih.arch⟩
  | @resume w hr ih =>
    refine ⟨ih.conv, ih.evLast, ?_⟩
    simp only [Sys.resumed, resume_eq, State.note, completions_append, ih.arch]
    simp [completions]

end Verif.Sop
