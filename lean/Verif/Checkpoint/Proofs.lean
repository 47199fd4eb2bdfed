import Verif.Checkpoint.Model

namespace Verif.Checkpoint

open Verif.Strategy Verif.Spec

/-! ## Files -/

theorem tempName_ne (f : Path) : tempName f ≠ f := by
  intro h
  have h := congrArg List.length h
  simp [tempName] at h
  omega

theorem runOps_append (a b : List FsOp) (fs : FS) :
    runOps (a ++ b) fs = if (runOps a fs).2 then runOps b (runOps a fs).1 else runOps a fs := by
  induction a generalizing fs with
  | nil => simp [runOps]
  | cons op a ih =>
    cases h : op.run fs with
    | none => simp [runOps, h]
    | some fs' => simpa [runOps, h] using ih fs'

/-- Writing changes only the file that is written. -/
theorem runOps_writes (t : Path) (chunks : List (List UInt8)) (fs : FS) :
    (runOps (chunks.map (.write t)) fs).1.dir = fs.dir ∧
    (∀ x, x ≠ t → (runOps (chunks.map (.write t)) fs).1.file x = fs.file x) ∧
    (∀ c, fs.file t = some c → (runOps (chunks.map (.write t)) fs).2 = true ∧
      (runOps (chunks.map (.write t)) fs).1.file t = some (c ++ chunks.flatten)) := by
  induction chunks generalizing fs with
  | nil => simp [runOps]
  | cons b chunks ih =>
    simp only [List.map_cons, runOps, FsOp.run]
    cases hf : fs.file t with
    | none => simp
    | some c =>
      obtain ⟨h1, h2, h3⟩ := ih { fs with file := fun x => if x = t then some (c ++ b) else fs.file x }
      refine ⟨h1, ?_, ?_⟩
      · intro x hx; simp only; rw [h2 x hx]; simp [hx]
      · intro c' hc'
        cases hc'
        have := h3 (c ++ b) (by simp)
        simpa using this

/-- The part of `save` before `rename`. -/
theorem before_rename (f : Path) (chunks : List (List UInt8)) (fs : FS) :
    let r := runOps (.openW (tempName f) :: chunks.map (.write (tempName f))) fs
    r.1.dir = fs.dir ∧ (∀ x, x ≠ tempName f → r.1.file x = fs.file x) ∧
    (r.2 = fs.dir (dirname (tempName f))) ∧ (r.2 = true → r.1.file (tempName f) = some chunks.flatten) := by
  simp only [runOps, FsOp.run]
  cases hd : fs.dir (dirname (tempName f)) with
  | false => simp
  | true =>
    simp only [if_true]
    obtain ⟨h1, h2, h3⟩ := runOps_writes (tempName f) chunks
      { fs with file := fun x => if x = tempName f then some [] else fs.file x }
    have h4 := h3 [] (by simp)
    refine ⟨h1, ?_, h4.1, fun _ => by simpa using h4.2⟩
    intro x hx; rw [h2 x hx]; simp [hx]

theorem save_spec (f : Path) (chunks : List (List UInt8)) (fs : FS) :
    let r := save f chunks fs
    (r.2 = (fs.dir (dirname (tempName f)) && fs.dir (dirname f))) ∧
    (r.2 = true → r.1.file f = some chunks.flatten ∧ r.1.file (tempName f) = none) ∧
    (r.2 = false → r.1.file f = fs.file f) ∧
    (∀ x, x ≠ f → x ≠ tempName f → r.1.file x = fs.file x) ∧ r.1.dir = fs.dir := by
  simp only [save, saveOps]
  rw [show (FsOp.openW (tempName f) :: List.map (FsOp.write (tempName f)) chunks ++ [.rename (tempName f) f])
    = (FsOp.openW (tempName f) :: List.map (FsOp.write (tempName f)) chunks) ++ [.rename (tempName f) f] from rfl]
  rw [runOps_append]
  obtain ⟨h1, h2, h3, h4⟩ := before_rename f chunks fs
  generalize runOps (FsOp.openW (tempName f) :: List.map (FsOp.write (tempName f)) chunks) fs = r at *
  cases hr : r.2 with
  | false =>
    rw [hr] at h3
    simp only [Bool.false_eq_true, if_false, hr]
    refine ⟨by rw [← h3]; rfl, by simp, fun _ => h2 f (Ne.symm (tempName_ne f)), ?_, h1⟩
    intro x _ hx; exact h2 x hx
  | true =>
    rw [hr] at h3
    simp only [if_true, runOps, FsOp.run, h4 hr, h1, ← h3, Bool.true_and]
    cases hd : fs.dir (dirname f) with
    | false =>
      simp only [Bool.false_eq_true, if_false]
      refine ⟨trivial, by simp, fun _ => h2 f (Ne.symm (tempName_ne f)), ?_, h1⟩
      intro x _ hx; exact h2 x hx
    | true =>
      simp only [if_true]
      refine ⟨trivial, fun _ => ⟨trivial, ?_⟩, by simp, ?_, trivial⟩
      · simp [tempName_ne]
      · intro x hx hx'; simp [hx, hx', h2 x hx']

/-- A call of `save` that is cut off anywhere. -/
theorem saveCrashed_spec (f : Path) (chunks : List (List UInt8)) (n : Nat) (fs : FS) :
    ((saveCrashed f chunks n fs).file f = fs.file f ∨ (saveCrashed f chunks n fs).file f = some chunks.flatten) ∧
    (∀ x, x ≠ f → x ≠ tempName f → (saveCrashed f chunks n fs).file x = fs.file x) ∧
    (saveCrashed f chunks n fs).dir = fs.dir := by
  by_cases hn : (saveOps f chunks).length ≤ n
  · have : saveCrashed f chunks n fs = (save f chunks fs).1 := by
      unfold saveCrashed save; rw [List.take_of_length_le hn]
    rw [this]
    obtain ⟨_, h2, h3, h4, h5⟩ := save_spec f chunks fs
    refine ⟨?_, h4, h5⟩
    cases hr : (save f chunks fs).2 with
    | false => exact .inl (h3 hr)
    | true => exact .inr (h2 hr).1
  · have hlen : (saveOps f chunks).length = chunks.length + 2 := by simp [saveOps]
    have htake : (saveOps f chunks).take n =
        (FsOp.openW (tempName f) :: List.map (FsOp.write (tempName f)) chunks).take n := by
      unfold saveOps
      rw [List.take_append_of_le_length]
      simp; omega
    unfold saveCrashed
    rw [htake]
    cases n with
    | zero => simp [runOps]
    | succ n =>
      rw [List.take_succ_cons, ← List.map_take]
      obtain ⟨h1, h2, _, _⟩ := before_rename f (chunks.take n) fs
      exact ⟨.inl (h2 f (Ne.symm (tempName_ne f))), fun x _ hx => h2 x hx, h1⟩

/-! ## Worlds -/

variable {P : Type} [DecidableEq P] {cfg : Config P} {first : Bool}

/-- Loss per crash: the evaluation whose completion triggered the save is not yet in the snapshot if the checkpoint
callback runs first. -/
def lossBound (first : Bool) : Nat := if first then 1 else 0

/-- What an event of the process does to the history of completions. -/
theorem step_completions {w w' : Sys P} {op : Op P} (h : w.step cfg op = some w') (hw : Reach cfg w) :
    ∃ c, completions w'.st.log = completions w.st.log ++ c ∧ c.length = Op.completes op := by
  have hw' := Reach.step op hw h
  have hl : Later cfg w w' := .step op .refl h
  obtain ⟨m, hm⟩ := hl.log
  refine ⟨completions m, by rw [← hm, completions_append], ?_⟩
  have h1 := hw.book.num
  have h2 := hw'.book.num
  rw [← hm, completions_append, List.length_append] at h2
  have key : w'.st.numEvals = w.st.numEvals + Op.completes op := by
    cases op with
    | propose o =>
      have h3 : w'.st.X = w.st.X ∨ True := .inr trivial
      simp only [Op.completes]
      have hcl : ∀ v : Sys P, True := fun _ => trivial
      simp only [Sys.step] at h
      split at h
      · simp at h
      all_goals
        rename_i s' he
        simp only [Option.some.injEq] at h; subst h
        have hk : s'.numEvals = w.st.numEvals := by
          by_cases ht : w.st.terminate = true ∨ cfg.maxEvals ≤ w.st.numEvals + w.st.pendingEvals
          · rw [proposeAction_terminate ht] at he
            simp only [Option.some.injEq, Prod.mk.injEq] at he
            rw [← he.2]
          · simp only [not_or, not_le] at ht
            rw [proposeAction_going (by simpa using ht.1) ht.2] at he
            have hinit : ∀ (t : State P) a, t.initProposal = some (a, s') → s'.numEvals = t.numEvals := by
              intro t a hh
              unfold State.initProposal at hh
              split at hh
              · simp at hh
              · simp only [Option.some.injEq, Prod.mk.injEq] at hh; rw [← hh.2]; rfl
            have hadapt : ∀ (t : State P) a, t.adaptProposal = (a, s') → s'.numEvals = t.numEvals := by
              intro t a hh
              unfold State.adaptProposal at hh
              split at hh <;> simp only [Prod.mk.injEq] at hh <;> rw [← hh.2] <;> rfl
            have hag : ∀ (t : State P) a, t.afterGenerate cfg o = some (a, s') → s'.numEvals = t.numEvals := by
              intro t a hh
              unfold State.afterGenerate at hh
              split at hh
              · split at hh
                · rw [hinit _ _ hh, sampleRestart_num]
                · simp only [Option.some.injEq, Prod.mk.injEq] at hh; rw [← hh.2]
              · exact hadapt t a (by simpa using hh)
            have hgen : ∀ n s1, State.generateEvals cfg o n { w.st with phase := .adaptive } = some s1 →
                s1.numEvals = w.st.numEvals := by
              intro n s1 hg
              rcases generateEvals_cases hg with ⟨ws, z, rfl, _⟩ | ⟨_, rfl, _⟩ <;> rfl
            split at he
            · split at he
              · split at he
                · rw [hinit _ _ he, sampleRestart_num]
                · simp only [Option.some.injEq, Prod.mk.injEq] at he; rw [← he.2]
              · simp only [Option.some.injEq, Prod.mk.injEq] at he; rw [← he.2]
            · split at he
              · unfold State.adaptBranch at he
                simp only at he
                split at he
                · split at he
                  · simp at he
                  · rename_i s1 hg
                    rw [hag s1 _ he, hgen _ _ hg]
                · split at he
                  · split at he
                    · simp at he
                    · rename_i s1 hg
                      rw [hag s1 _ he, hgen _ _ hg]
                  · have := hag _ _ he
                    exact this
              · split at he
                · exact hinit _ _ he
                · exact hadapt _ _ (by simpa using he)
        simpa [State.note] using hk
    | accept i =>
      simp only [Sys.step] at h
      split at h
      · simp at h
      · simp only [Option.some.injEq] at h; subst h
        simp [State.note, State.onAccept, Op.completes]
    | reject i =>
      simp only [Sys.step] at h
      split at h
      · simp at h
      · simp only [Option.some.injEq] at h; subst h
        split <;> simp [onInitialRejected_eq, onAdaptReject_eq, State.note, Op.completes]
    | complete i v =>
      simp only [Sys.step] at h
      split at h
      · simp at h
      · simp only [Option.some.injEq] at h; subst h
        simp only [State.onCompleted, Op.completes]
        have hb : ∀ (s : State P) y e u, (State.recordCompleted s y v e).numEvals = u ↔ s.numEvals + 1 = u := by
          intro s y e u; rw [recordCompleted_eq]
        split
        · rw [hb]; rfl
        · split
          · unfold State.srbfCompleted
            split
            · split
              · rw [adjustStep_eq]; simp only; rw [hb]; rfl
              · simp only; rw [hb]; rfl
            · rw [hb]; rfl
          · rw [hb]; rfl
    | abort i =>
      simp only [Sys.step] at h
      split at h
      · simp at h
      · simp only [Option.some.injEq] at h; subst h
        simp [onAborted_eq, State.note, Op.completes]
    | update i =>
      simp only [Sys.step] at h
      split at h
      · simp at h
      · simp only [Option.some.injEq] at h; subst h
        simp [Op.completes]
  omega

/-- Invariant of the world. -/
structure Inv (first : Bool) (cfg : Config P) (W : World P) : Prop where
  proc : ∀ w, W.proc = some w → Reach cfg w
  disk : ∀ d, W.disk = some d → Reach cfg d
  none : W.disk = none → W.total = 0 ∧ ∀ w, W.proc = some w → completions w.st.log = []
  behind : ∀ w d, W.proc = some w → W.disk = some d → ∃ c, d.st.log <+: w.st.log ∧
    completions w.st.log = completions d.st.log ++ c ∧ c.length ≤ lossBound first
  running : ∀ w, W.proc = some w → W.total ≤ (completions w.st.log).length + W.resumes * lossBound first
  stopped : ∀ d, W.disk = some d →
    W.total ≤ (completions d.st.log).length + (W.resumes + 1) * lossBound first

theorem resumed_completions (d : Sys P) : completions d.resumed.st.log = completions d.st.log := by
  simp [Sys.resumed, resume_eq, State.note, completions]

theorem WReach.inv {W : World P} (h : WReach first cfg W) : Inv first cfg W := by
  induction h with
  | init => constructor <;> simp
  | @step W W' op hW hs ih =>
    cases op with
    | run o =>
      simp only [World.step] at hs
      split at hs
      · simp at hs
      · split at hs
        · simp at hs
        · rename_i hp hd
          simp only [Option.some.injEq, Res.ok.injEq] at hs; subst hs
          have h0 := (ih.none hd).1
          constructor
          · intro w hw; simp only [Option.some.injEq] at hw; rw [← hw]; exact .create o
          · exact ih.disk
          · intro _
            refine ⟨h0, ?_⟩
            intro w hw; simp only [Option.some.injEq] at hw; rw [← hw]
            simp [Sys.create, create_eq, completions]
          · intro w d _ hd'; simp only at hd'; rw [hd] at hd'; cases hd'
          · intro w _; simp only; omega
          · intro d hd'; simp only at hd'; rw [hd] at hd'; cases hd'
    | resume =>
      simp only [World.step] at hs
      split at hs
      · simp at hs
      · split at hs
        · simp at hs
        · rename_i hp d hd
          simp only [Option.some.injEq, Res.ok.injEq] at hs; subst hs
          have hst := ih.stopped d hd
          constructor
          · intro w hw; simp only [Option.some.injEq] at hw; rw [← hw]; exact .resume (ih.disk d hd)
          · exact ih.disk
          · intro hn; simp only at hn; rw [hd] at hn; cases hn
          · intro w d' hw hd'
            simp only [Option.some.injEq] at hw hd'
            rw [hd] at hd'; cases hd'
            rw [← hw]
            refine ⟨[], ?_, by rw [resumed_completions]; simp, by simp⟩
            simp only [Sys.resumed, resume_eq, State.note, List.append_assoc]
            exact List.prefix_append _ _
          · intro w hw; simp only [Option.some.injEq] at hw; rw [← hw, resumed_completions]; exact hst
          · intro d' hd'
            simp only at hd'; rw [hd] at hd'; cases hd'
            simp only
            have : (W.resumes + 1) * lossBound first ≤ (W.resumes + 1 + 1) * lossBound first :=
              Nat.mul_le_mul_right _ (by omega)
            omega
    | crash =>
      simp only [World.step] at hs
      split at hs
      · simp at hs
      · simp only [Option.some.injEq, Res.ok.injEq] at hs; subst hs
        exact ⟨by simp, ih.disk, fun hn => ⟨(ih.none hn).1, by simp⟩, by simp, by simp, ih.stopped⟩
    | ev op =>
      simp only [World.step] at hs
      split at hs
      · simp at hs
      · rename_i w hp
        split at hs
        · simp at hs
        · rename_i w' hst
          have hr := ih.proc w hp
          have hr' := Reach.step op hr hst
          obtain ⟨c, hc, hcl⟩ := step_completions hst hr
          have hlog : w.st.log <+: w'.st.log := (Later.step op .refl hst : Later cfg w w').log
          have hrun := ih.running w hp
          split at hs
          · rename_i hf
            simp only [Option.some.injEq, Res.ok.injEq] at hs; subst hs
            constructor
            · intro v hv; simp only [Option.some.injEq] at hv; rw [← hv]; exact hr'
            · intro v hv; simp only [Option.some.injEq] at hv; rw [← hv]; split
              · exact hr
              · exact hr'
            · intro hn; simp at hn
            · intro v d hv hd
              simp only [Option.some.injEq] at hv hd
              subst hv hd
              cases first with
              | true =>
                refine ⟨c, hlog, hc, ?_⟩
                rw [hcl]; unfold lossBound; cases op <;> simp [Op.completes]
              | false => exact ⟨[], List.prefix_refl _, by simp, by simp⟩
            · intro v hv
              simp only [Option.some.injEq] at hv
              rw [← hv, hc, List.length_append]
              simp only; omega
            · intro d hd
              simp only [Option.some.injEq] at hd
              simp only
              rw [Nat.add_mul]
              cases first with
              | true =>
                simp only [if_true] at hd
                rw [← hd]
                have : Op.completes op ≤ 1 := by cases op <;> simp [Op.completes]
                simp only [lossBound, if_true] at *
                omega
              | false =>
                simp only [Bool.false_eq_true, if_false] at hd
                rw [← hd, hc, List.length_append]
                omega
          · rename_i hf
            have hc0 : c = [] := by
              have : Op.completes op = 0 := by cases op <;> simp_all [Op.finishes, Op.completes]
              rw [this] at hcl; simpa using hcl
            rw [hc0, List.append_nil] at hc
            split at hs
            · simp only [Option.some.injEq, Res.ok.injEq] at hs; subst hs
              constructor
              · simp
              · intro v hv; simp only [Option.some.injEq] at hv; rw [← hv]; exact hr'
              · intro hn; simp at hn
              · simp
              · simp
              · intro d hd
                simp only [Option.some.injEq] at hd
                rw [← hd, hc, Nat.add_mul]; simp only; omega
            · simp only [Option.some.injEq, Res.ok.injEq] at hs; subst hs
              constructor
              · intro v hv; simp only [Option.some.injEq] at hv; rw [← hv]; exact hr'
              · exact ih.disk
              · intro hn
                refine ⟨(ih.none hn).1, ?_⟩
                intro v hv; simp only [Option.some.injEq] at hv; rw [← hv, hc]; exact (ih.none hn).2 w hp
              · intro v d hv hd
                simp only [Option.some.injEq] at hv
                subst hv
                obtain ⟨c', h1, h2, h3⟩ := ih.behind w d hp hd
                exact ⟨c', h1.trans hlog, by rw [hc]; exact h2, h3⟩
              · intro v hv
                simp only [Option.some.injEq] at hv
                rw [← hv, hc]; exact hrun
              · exact ih.stopped

end Verif.Checkpoint
