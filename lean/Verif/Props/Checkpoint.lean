import Verif.Checkpoint.Endings
import Verif.Props.Strategy

/-! # Properties C18, C19, C64: checkpointing -/

namespace Verif.Props

open Verif.Strategy Verif.Spec Verif.Checkpoint

/-! ## C18: the checkpoint file is atomic -/

/-- Wherever a call of `save` is cut off, the checkpoint file is what it was before, or the complete new snapshot; no
file other than it and the temporary file is touched. -/
theorem C18_atomic (fname : Path) (chunks : List (List UInt8)) (n : Nat) (fs : FS) :
    ((saveCrashed fname chunks n fs).file fname = fs.file fname ∨
      (saveCrashed fname chunks n fs).file fname = some chunks.flatten) ∧
    ∀ x, x ≠ fname → x ≠ "temp_".toList ++ fname → (saveCrashed fname chunks n fs).file x = fs.file x := by
  obtain ⟨h1, h2, _⟩ := saveCrashed_spec fname chunks n fs
  exact ⟨h1, h2⟩

/-- After any number of calls, each cut off anywhere, the file is absent or as at the beginning, or holds one of the
complete snapshots. -/
theorem C18_history (fname : Path) (calls : List (List (List UInt8) × Nat)) (fs : FS) :
    (calls.foldl (fun fs c => saveCrashed fname c.1 c.2 fs) fs).file fname = fs.file fname ∨
    ∃ c ∈ calls, (calls.foldl (fun fs c => saveCrashed fname c.1 c.2 fs) fs).file fname = some c.1.flatten := by
  induction calls generalizing fs with
  | nil => exact .inl rfl
  | cons c calls ih =>
    simp only [List.foldl_cons]
    rcases ih (saveCrashed fname c.1 c.2 fs) with h | ⟨d, hd, h⟩
    · rw [h]
      rcases (C18_atomic fname c.1 c.2 fs).1 with h1 | h1
      · exact .inl h1
      · exact .inr ⟨c, List.mem_cons_self .., h1⟩
    · exact .inr ⟨d, List.mem_cons_of_mem _ hd, h⟩

/-- A complete call stores the new snapshot and leaves no temporary file, if the directories of both names exist. -/
theorem C18_complete (fname : Path) (chunks : List (List UInt8)) (fs : FS)
    (h1 : fs.dir (dirname ("temp_".toList ++ fname)) = true) (h2 : fs.dir (dirname fname) = true) :
    (save fname chunks fs).2 = true ∧ (save fname chunks fs).1.file fname = some chunks.flatten ∧
    (save fname chunks fs).1.file ("temp_".toList ++ fname) = none := by
  obtain ⟨a, b, _⟩ := save_spec fname chunks fs
  have h1' : fs.dir (dirname (tempName fname)) = true := h1
  have hr : (save fname chunks fs).2 = true := by rw [a, h1', h2]; rfl
  exact ⟨hr, b hr⟩

/-- A directory with an old checkpoint. -/
def demoFS : FS := { file := fun p => if p = "c.pysot".toList then some [1, 2] else none, dir := fun p => p == [] }

example : (saveCrashed "c.pysot".toList [[3], [4, 5]] 3 demoFS).file "c.pysot".toList = some [1, 2] ∧
    (saveCrashed "c.pysot".toList [[3], [4, 5]] 4 demoFS).file "c.pysot".toList = some [3, 4, 5] ∧
    demoFS.dir (dirname ("temp_".toList ++ "c.pysot".toList)) = true := by decide

/-! ## C64: saving works for every name in an existing directory -/

/-- Full statement: `save` succeeds for every file name whose directory exists.  False for names with a directory part
(`C64_refuted`: the prefix is put before the directory).  Proved for names without separator. -/
theorem C64_save_partial (fname : Path) (hs : '/' ∉ fname) (chunks : List (List UInt8)) (fs : FS)
    (hd : fs.dir (dirname fname) = true) :
    (save fname chunks fs).2 = true ∧ (save fname chunks fs).1.file fname = some chunks.flatten := by
  have hnil : ∀ p : Path, '/' ∉ p → dirname p = [] := by
    intro p hp
    unfold dirname
    have hdw : ∀ l : List Char, '/' ∉ l → l.dropWhile (fun c => c ≠ '/') = [] := by
      intro l
      induction l with
      | nil => simp
      | cons c l ih =>
        intro h
        have h1 : c ≠ '/' := fun e => h (by simp [e])
        have h2 : '/' ∉ l := fun e => h (by simp [e])
        simpa [List.dropWhile, h1] using ih h2
    rw [List.reverse_eq_nil_iff]
    exact hdw _ (by simpa using hp)
  have ht : fs.dir (dirname ("temp_".toList ++ fname)) = true := by
    rw [hnil _ (by simp [hs]), ← hnil fname hs]; exact hd
  exact ⟨(C18_complete fname chunks fs ht hd).1, (C18_complete fname chunks fs ht hd).2.1⟩

/-- `fname = "out/c.pysot"` with an existing directory `out/`: the temporary name is `temp_out/c.pysot`, `save` raises
and no checkpoint is ever written. -/
theorem C64_refuted : ∃ (fname : Path) (fs : FS), fs.dir (dirname fname) = true ∧
    ∀ chunks, (save fname chunks fs).2 = false ∧ (save fname chunks fs).1.file fname = none := by
  refine ⟨"out/c.pysot".toList, { file := fun _ => none, dir := fun p => p == [] || p == "out/".toList }, by decide, ?_⟩
  intro chunks
  obtain ⟨a, _, c, _⟩ := save_spec "out/c.pysot".toList chunks
    { file := fun _ => none, dir := fun p => p == [] || p == "out/".toList }
  have hr : (save "out/c.pysot".toList chunks
      { file := fun _ => none, dir := fun p => p == [] || p == "out/".toList }).2 = false := by
    rw [a]; decide
  exact ⟨hr, c hr⟩

/-! ## C19: the checkpoint controller -/

variable {P : Type} [DecidableEq P] {cfg : Config P} {first : Bool}

/-- `run` refuses exactly when a checkpoint file exists, `resume` exactly when none exists. -/
theorem C19_guards (W : World P) (hp : W.proc = none) (o : Oracle P) :
    (W.step first cfg (.run o) = some .ioError ↔ W.disk.isSome = true) ∧
    (W.step first cfg .resume = some .ioError ↔ W.disk.isSome = false) := by
  cases hd : W.disk <;> simp [World.step, hp, hd]

/-- Every process, however it was started, is in a reachable state of the strategy model (so that all its properties
hold), and so is the strategy in the checkpoint file: a resumed run starts from that snapshot. -/
theorem C19_refines {W : World P} (h : WReach first cfg W) :
    (∀ w, W.proc = some w → Reach cfg w) ∧ (∀ d, W.disk = some d → Reach cfg d) ∧
    (∀ W', W.step first cfg .resume = some (.ok W') → ∃ d, W.disk = some d ∧ W'.proc = some d.resumed ∧
      completions d.resumed.st.log = completions d.st.log ∧ d.resumed.st.X = d.st.X ∧ d.resumed.st.fX = d.st.fX) := by
  refine ⟨h.inv.proc, h.inv.disk, ?_⟩
  intro W' hs
  simp only [World.step] at hs
  split at hs
  · simp at hs
  · split at hs
    · simp at hs
    · rename_i d hd
      simp only [Option.some.injEq, Res.ok.injEq] at hs
      subst hs
      refine ⟨d, hd, rfl, resumed_completions d, ?_, ?_⟩ <;> simp [Sys.resumed, resume_eq, State.note]

/-- The checkpoint is never more than one completed evaluation behind the running process (none, if the strategy handles
the completion before the save), and nothing was completed as long as there is no checkpoint. -/
theorem C19_behind {W : World P} (h : WReach first cfg W) {w : Sys P} (hp : W.proc = some w) :
    (W.disk = none → completions w.st.log = []) ∧
    ∀ d, W.disk = some d → ∃ c, completions w.st.log = completions d.st.log ++ c ∧
      c.length ≤ (if first then 1 else 0) := by
  refine ⟨fun hn => (h.inv.none hn).2 w hp, fun d hd => ?_⟩
  obtain ⟨c, _, h2, h3⟩ := h.inv.behind w d hp hd
  exact ⟨c, h2, h3⟩

/-- The same for all evaluations that ended, completed or aborted: the checkpoint is rewritten after each of them. -/
theorem C19_recent {W : World P} (h : WReach first cfg W) {w : Sys P} (hp : W.proc = some w) :
    (W.disk = none → endings w.st.log = []) ∧
    ∀ d, W.disk = some d → d.st.log <+: w.st.log ∧ ∃ c, endings w.st.log = endings d.st.log ++ c ∧
      c.length ≤ (if first then 1 else 0) := by
  refine ⟨(h.recent w hp).1, fun d hd => ?_⟩
  obtain ⟨_, h1, _, _⟩ := h.inv.behind w d hp hd
  exact ⟨h1, (h.recent w hp).2 d hd⟩

/-- A run that ends because the strategy proposed to terminate leaves a checkpoint with its complete history. -/
theorem C19_final {W : World P} (h : WReach first cfg W) {w : Sys P} (hp : W.proc = some w) {o : Oracle P}
    {s : State P} (ht : w.st.proposeAction cfg o = some (.terminate, s)) :
    ∃ W' d, W.step first cfg (.ev (.propose o)) = some (.ok W') ∧ W'.proc = none ∧ W'.disk = some d ∧
      completions d.st.log = completions w.st.log ∧ d.st.log.getLast? = some .terminated ∧ d.inflight = w.inflight := by
  have hs : w.step cfg (.propose o) = some { w with st := s.note .terminated } := by simp only [Sys.step, ht]
  obtain ⟨c, h1, h2⟩ := step_completions hs (h.inv.proc w hp)
  have hc : c = [] := by simpa [Op.completes] using h2
  refine ⟨{ W with proc := none, disk := some { w with st := s.note .terminated } }, { w with st := s.note .terminated }, ?_,
    rfl, rfl, ?_, ?_, ?_⟩
  · simp only [World.step, hp, hs, Op.finishes, terminates, ht, if_true, Bool.false_eq_true, if_false]
  · rw [h1, hc, List.append_nil]
  · simp [State.note]
  · rfl

/-- The budget over all processes: the evaluations ever completed, including those lost by crashes, are at most
`max_evals`, plus one per resume if the save happens before the strategy handles the completion. -/
theorem C19_total_budget {W : World P} (h : WReach first cfg W) {w : Sys P} (hp : W.proc = some w) :
    (W.total : Int) ≤ max cfg.maxEvals 0 + (if first then W.resumes else 0) := by
  have h1 := h.inv.running w hp
  have h2 := (C01_budget (h.inv.proc w hp)).1
  cases first <;> simp only [lossBound, if_true, Bool.false_eq_true, if_false] at h1 ⊢ <;> push_cast at * <;> omega

/-- Full statement of recovery: the resumed strategy contains every evaluation completed at the time of the last save.
It is false when the checkpoint callback runs first: the evaluation that triggers the save is not in the snapshot. -/
theorem C19_refuted : ∃ (W : World Nat) (w d : Sys Nat), WReach true demo W ∧ W.proc = some w ∧ W.disk = some d ∧
    completions w.st.log = [(11, 3)] ∧ completions d.st.log = [] := by
  have e1 : (World.mk none none 0 0 : World Nat).step true demo (.run (orc 0)) =
    some (.ok ⟨some (Sys.create demo (orc 0)), none, 0, 0⟩) := rfl
  have h1 := WReach.step _ WReach.init e1
  obtain ⟨w2, e2⟩ : ∃ w2, (Sys.create demo (orc 0)).step demo (pr 100) = some w2 := ⟨_, rfl⟩
  obtain ⟨w3, e3⟩ : ∃ w3, w2.step demo (.accept 0) = some w3 := by cases e2; exact ⟨_, rfl⟩
  obtain ⟨w4, e4⟩ : ∃ w4, w3.step demo (.complete 0 3) = some w4 := by cases e2; cases e3; exact ⟨_, rfl⟩
  have t2 : terminates demo (Sys.create demo (orc 0)) (pr 100) = false := by decide +kernel
  have h2 := WReach.step (.ev (pr 100)) h1 (W' := ⟨some w2, none, 0, 0⟩) (by
    simp only [World.step, e2, Op.finishes, pr] at t2 ⊢; simp [pr] at e2; simp [e2, t2])
  have h3 := WReach.step (.ev (.accept 0)) h2 (W' := ⟨some w3, none, 0, 0⟩) (by
    simp [World.step, e3, Op.finishes, terminates])
  have h4 := WReach.step (.ev (.complete 0 3)) h3 (W' := ⟨some w4, some w3, 1, 0⟩) (by
    simp [World.step, e4, Op.finishes, Op.completes])
  refine ⟨_, w4, w3, h4, rfl, rfl, ?_, ?_⟩
  · cases e2; cases e3; cases e4; decide +kernel
  · cases e2; cases e3; decide +kernel

end Verif.Props
