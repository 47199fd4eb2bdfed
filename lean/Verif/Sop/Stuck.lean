import Verif.Sop.Loss
import Verif.Props.Strategy

/-! # SOP after a crash (C146) -/

set_option linter.unusedSectionVars false

namespace Verif.Sop

open Verif.Num Verif.Utils Verif.Strategy Verif.Spec
open List (Perm Sublist)

variable {d : ℕ} {c : Cfg d}

/-- The number of points that are waiting or running. -/
def load (w : SopSys d) : ℕ := w.sys.st.batchQueue.length + w.sys.inflight.length

/-- How one step changes the number of points that are waiting or running, and the centers. -/
inductive Move (c : Cfg d) (w w' : SopSys d) : Prop
  | keep (hc : w'.sop.centers = w.sop.centers) (hl : load w' ≤ load w)
      (hg : generatedPts w'.sys.st.log = generatedPts w.sys.st.log)
      (hp : w.sys.st.phase = .adaptive → w'.sys.st.phase = .adaptive)
      (hd : (completions w'.sys.st.log).length + load w' ≤ (completions w.sys.st.log).length + load w)
      (ht : w'.sys.st.terminate = true → w.sys.st.terminate = true ∨ c.base.maxEvals ≤ w.sys.st.numEvals + w.sys.st.pendingEvals)
  | gen (pts : List (Pt d)) (hq : w.sys.st.batchQueue = []) (hw : c.base.asynchronous = true ∨ w.sys.st.pendingEvals = 0)
      (hz : w.sop.generate c w.sys.st.numEvals.toNat pts = some w'.sop) (hn : pts.length = genCount c.base)
      (hl : load w' = genCount c.base + load w) (hp : w'.sys.st.phase = .adaptive)
  | done (x : Pt d) (n : ℕ) (hc : w'.sop.centers = (markCenter w.sop.centers x n).1) (hl : load w' + 1 = load w)
      (hg : generatedPts w'.sys.st.log = generatedPts w.sys.st.log)
      (hp : w.sys.st.phase = .adaptive → w'.sys.st.phase = .adaptive)
      (hd : (completions w'.sys.st.log).length = (completions w.sys.st.log).length + 1)
      (ht : w'.sys.st.terminate = w.sys.st.terminate)

theorem length_erase_lt {α : Type} {l : List α} {i : ℕ} {a : α} (h : l[i]? = some a) : (l.eraseIdx i).length + 1 = l.length := by
  have hi : i < l.length := (List.getElem?_eq_some_iff.mp h).1
  rw [List.length_eraseIdx_of_lt hi]; omega

theorem step_move (hs : c.base.srbf = none) {w w' : SopSys d} (hr : Reach c w) {op : Strategy.Op (Pt d)}
    (h : w.step c op = some w') : Move c w w' := by
  have keep : w'.sop = w.sop → completions w'.sys.st.log = completions w.sys.st.log → load w' ≤ load w →
      generatedPts w'.sys.st.log = generatedPts w.sys.st.log → (w.sys.st.phase = .adaptive → w'.sys.st.phase = .adaptive) →
      (w'.sys.st.terminate = true → w.sys.st.terminate = true) → Move c w w' := fun h1 h2 h3 h4 h5 h6 =>
    .keep (by rw [h1]) h3 h4 h5 (by rw [h2]; omega) fun h => .inl (h6 h)
  cases op with
  | propose o =>
    cases step_propose hs (hr.inv hs).conv h with
    | term ht =>
      refine .keep rfl ?_ ?_ ?_ ?_ fun _ => ht <;> unfold termState <;> split <;>
        simp [State.note, load, Sys.inflight, generatedPts, completions]
    | queue x q hq hg =>
      have hl : load ⟨proposeLast w.sys w.sys.st q x (kindOf w.sys.st.phase), w.sop⟩ ≤ load w := by
        simp only [load, hq, proposeLast, State.note, State.makeProposal, Sys.inflight, List.length_append, List.length_map,
          List.length_singleton]
        omega
      refine .keep rfl hl ?_ (fun h => h) ?_ .inl
      · simp [proposeLast, State.note, State.makeProposal, generatedPts]
      · have : completions (proposeLast w.sys w.sys.st q x (kindOf w.sys.st.phase)).st.log = completions w.sys.st.log := by
          simp [proposeLast, State.note, State.makeProposal, completions]
        simp only [this]
        omega
    | gen x q z hpts hq hg ha hz =>
      have hl : (q ++ [x]).length = genCount c.base := by rw [← hpts]; simp
      refine .gen (q ++ [x]) hq ha hz hl ?_ rfl
      rw [← hl]
      simp only [load, hq, proposeLast, State.note, State.makeProposal, Sys.inflight, List.length_append, List.length_map,
          List.length_singleton, List.length_nil]
      omega
    | genNone z hn hq hg ha hz =>
      refine .gen [] hq ha hz hn.symm ?_ rfl
      simp [load, genState, Sys.inflight, hq, hn]
    | wait hq hg ha hp => exact .keep rfl (le_refl _) rfl (fun _ => rfl) (le_refl _) .inl
  | complete i v =>
    have hr' := hr.step _ h
    obtain ⟨r, hrec, hsys, hsop⟩ := step_complete hs h
    have hlog : w'.sys.st.log = w.sys.st.log ++ [.completed r.x r.kind v r.accAt] := by
      rw [hsys]; simp only [recordCompleted_eq]; rfl
    have hev := (hr'.inv hs).evLast
    have hload : load w' + 1 = load w := by
      have := length_erase_lt hrec
      rw [load, hsys]
      simp only [recordCompleted_eq, State.note, load, Sys.inflight, List.length_append, List.length_map]
      omega
    have hcomp : (completions w'.sys.st.log).length = (completions w.sys.st.log).length + 1 := by
      rw [hlog]; simp [completions]
    have hterm : w'.sys.st.terminate = w.sys.st.terminate := by rw [hsys]; simp only [recordCompleted_eq]; rfl
    have hph : w'.sys.st.phase = w.sys.st.phase := by rw [hsys]; simp only [recordCompleted_eq]; rfl
    cases hk : r.kind with
    | init =>
      rw [hk] at hsop
      simp only at hsop
      rw [Sop.onInitialCompleted, hev, if_pos (Nat.zero_le _)] at hsop
      exact .keep (by rw [hsop]) (by omega) (by rw [hlog]; simp [generatedPts]) (fun h => hph.trans h) (by omega)
        (fun h => .inl (hterm ▸ h))
    | adapt =>
      rw [hk] at hsop
      exact .done r.x _ (onAdaptCompleted_centers hev hsop) hload (by rw [hlog]; simp [generatedPts]) (fun h => hph.trans h) hcomp
        hterm
  | accept i =>
    obtain ⟨h1, h2⟩ := step_other h (by simp) (by simp)
    unfold Sys.step at h2
    simp only at h2
    split at h2
    · simp at h2
    · rename_i p hp
      have := length_erase_lt hp
      simp only [Option.some.injEq] at h2
      have hl : load w' ≤ load w := by
        simp only [load, ← h2, State.onAccept, State.note, Sys.inflight, List.length_append, List.length_map, List.length_singleton]
        omega
      have hcomp : completions w'.sys.st.log = completions w.sys.st.log := by
        rw [← h2]; simp [State.onAccept, State.note, completions]
      exact .keep (by rw [h1]) hl (by rw [← h2]; simp [State.onAccept, State.note, generatedPts]) (by rw [← h2]; exact fun h => h)
        (by rw [hcomp]; omega) (by rw [← h2]; exact .inl)
  | reject i =>
    obtain ⟨h1, h2⟩ := step_other h (by simp) (by simp)
    unfold Sys.step at h2
    simp only at h2
    split at h2
    · simp at h2
    · rename_i p hp
      have := length_erase_lt hp
      simp only [Option.some.injEq] at h2
      cases hk : p.kind <;> rw [hk] at h2 <;> simp only [onInitialRejected_eq, onAdaptReject_eq] at h2 <;>
        refine keep h1 (by rw [← h2]; simp [State.note, completions]) ?_ (by rw [← h2]; simp [State.note, generatedPts])
          (by rw [← h2]; exact fun h => h) (by rw [← h2]; exact fun h => h)
      · simp only [load, ← h2, State.note, Sys.inflight, List.length_append, List.length_map, List.length_singleton]
        omega
      · simp only [load, ← h2, State.note, Sys.inflight, List.length_append, List.length_map]
        split_ifs <;> simp only [List.length_singleton, List.length_nil] <;> omega
  | abort i =>
    obtain ⟨h1, h2⟩ := step_other h (by simp) (by simp)
    unfold Sys.step at h2
    simp only at h2
    split at h2
    · simp at h2
    · rename_i p hp
      have := length_erase_lt hp
      simp only [Option.some.injEq, onAborted_eq] at h2
      refine keep h1 (by rw [← h2]; simp [State.note, completions]) ?_ (by rw [← h2]; simp [State.note, generatedPts])
          (by rw [← h2]; exact fun h => h) (by rw [← h2]; exact fun h => h)
      simp only [load, ← h2, State.note, Sys.inflight, List.length_append, List.length_map]
      split_ifs <;> simp only [List.length_singleton, List.length_nil] <;> omega
  | update i =>
    obtain ⟨h1, h2⟩ := step_other h (by simp) (by simp)
    unfold Sys.step at h2
    simp only at h2
    split at h2
    · simp at h2
    · simp only [Option.some.injEq] at h2
      refine keep h1 (by rw [← h2]) ?_ (by rw [← h2]) (by rw [← h2]; exact fun h => h) (by rw [← h2]; exact fun h => h)
      simp [load, ← h2]

theorem resumed_load {w : SopSys d} (hp : w.sys.st.phase = .adaptive) :
    load ⟨w.sys.resumed, w.sop⟩ = w.sys.st.batchQueue.length := by
  simp [load, Sys.resumed, resume_eq, hp, Sys.inflight, State.note]

/-- Points are generated only in the adaptive phase, which is never left. -/
theorem Reach.adaptive (hs : c.base.srbf = none) {w : SopSys d} (h : Reach c w) (hg : generatedPts w.sys.st.log ≠ []) :
    w.sys.st.phase = .adaptive := by
  induction h with
  | create o => simp [SopSys.create, Sys.create, create_eq, generatedPts] at hg
  | @step w w' op hr hstep ih =>
    cases step_move hs hr hstep with
    | keep _ _ h3 h4 _ _ => exact h4 (ih (h3 ▸ hg))
    | gen _ _ _ _ _ _ h => exact h
    | done _ _ _ _ h3 h4 _ _ => exact h4 (ih (h3 ▸ hg))
  | @resume w hr ih =>
    have h1 : generatedPts w.sys.resumed.st.log = generatedPts w.sys.st.log := by
      simp [Sys.resumed, resume_eq, State.note, generatedPts]
    rw [h1] at hg
    simpa [Sys.resumed, resume_eq, State.note] using ih hg

/-- In synchronous mode every point that is waiting or running belongs to a center, once points were generated. -/
theorem Reach.load_le (hs : c.base.srbf = none) (ha : c.base.asynchronous = false) {w : SopSys d} (h : Reach c w)
    (hg : generatedPts w.sys.st.log ≠ []) : load w ≤ (busyPts w.sop.centers).length := by
  induction h with
  | create o => simp [SopSys.create, Sys.create, create_eq, generatedPts] at hg
  | @step w w' op hr hstep ih =>
    cases step_move hs hr hstep with
    | keep h1 h2 h3 _ _ _ => rw [h1]; exact h2.trans (ih (h3 ▸ hg))
    | gen pts hq hw hz hn hl _ =>
      have h0 : load w = 0 := by
        have hp : w.sys.st.pendingEvals = 0 := by simpa [ha] using hw
        rw [Props.C02_pending_exact hr.base] at hp
        have : w.sys.inflight.length = 0 := by exact_mod_cast hp
        rw [load, hq, this]; rfl
      have := (generate_pts hz).2.length_eq
      rw [List.length_append] at this
      omega
    | done x n hc hl h3 _ _ _ =>
      have := mark_busy w.sop.centers x n
      have := ih (h3 ▸ hg)
      rw [hc]
      omega
  | @resume w hr ih =>
    have h1 : generatedPts w.sys.resumed.st.log = generatedPts w.sys.st.log := by
      simp [Sys.resumed, resume_eq, State.note, generatedPts]
    rw [h1] at hg
    rw [resumed_load (hr.adaptive hs hg)]
    exact (Nat.le_add_right _ _).trans (ih hg)

/-- The states that a strategy can reach from a given one. -/
inductive After (c : Cfg d) (w : SopSys d) : SopSys d → Prop
  | refl : After c w w
  | step {u v : SopSys d} (op : Strategy.Op (Pt d)) : After c w u → u.step c op = some v → After c w v
  | resume {u : SopSys d} : After c w u → After c w ⟨u.sys.resumed, u.sop⟩

theorem After.reach {w w' : SopSys d} (h : Reach c w) (ha : After c w w') : Reach c w' := by
  induction ha with
  | refl => exact h
  | step op _ hs ih => exact ih.step op hs
  | resume _ ih => exact ih.resume

/-- Even when all points that are waiting or running are evaluated there will be no room for the next ones. -/
structure Stuck (c : Cfg d) (w : SopSys d) : Prop where
  phase : w.sys.st.phase = .adaptive
  room : c.ncenters + load w < (busyPts w.sop.centers).length + genCount c.base

/-- Then no points are generated any more. -/
theorem Stuck.after (hs : c.base.srbf = none) {w w' : SopSys d} (hr : Reach c w) (h : Stuck c w) (ha : After c w w') :
    Stuck c w' ∧ generatedPts w'.sys.st.log = generatedPts w.sys.st.log ∧ load w' ≤ load w ∧
      (completions w'.sys.st.log).length + load w' ≤ (completions w.sys.st.log).length + load w := by
  induction ha with
  | refl => exact ⟨h, rfl, le_refl _, le_refl _⟩
  | @step u v op hau hstep ih =>
    obtain ⟨⟨i1, i2⟩, i3, i4, i5⟩ := ih
    have hu := hau.reach hr
    cases step_move hs hu hstep with
    | keep h1 h2 h3 h4 h5 _ => exact ⟨⟨h4 i1, by rw [h1]; omega⟩, h3.trans i3, h2.trans i4, h5.trans i5⟩
    | gen pts hq hw hz hn hl _ =>
      exfalso
      rw [generate_none (hu.cinv hs) (by omega)] at hz
      cases hz
    | done x n hc hl h3 h4 h5 _ =>
      have := mark_busy u.sop.centers x n
      exact ⟨⟨h4 i1, by rw [hc]; omega⟩, h3.trans i3, by omega, by omega⟩
  | @resume u hau ih =>
    obtain ⟨⟨i1, i2⟩, i3, i4, i5⟩ := ih
    have hl : load ⟨u.sys.resumed, u.sop⟩ ≤ load u := by rw [resumed_load i1]; exact Nat.le_add_right _ _
    refine ⟨⟨by simpa [Sys.resumed, resume_eq, State.note] using i1, ?_⟩, Eq.trans ?_ i3, hl.trans i4, ?_⟩
    · show _ < (busyPts u.sop.centers).length + _
      omega
    · simp [Sys.resumed, resume_eq, State.note, generatedPts]
    · have : completions u.sys.resumed.st.log = completions u.sys.st.log := by
        simp [Sys.resumed, resume_eq, State.note, completions]
      show (completions u.sys.resumed.st.log).length + _ ≤ _
      rw [this]
      omega

/-- If the budget is larger than what can still be evaluated, the strategy never decides to end the run. -/
theorem Stuck.goes_on (hs : c.base.srbf = none) {w w' : SopSys d} (hr : Reach c w) (h : Stuck c w) (ht : w.sys.st.terminate = false)
    (hb : (((completions w.sys.st.log).length + load w : ℕ) : ℤ) < c.base.maxEvals) (ha : After c w w') :
    Going c.base w'.sys.st := by
  have hbud : ∀ u, After c w u → u.sys.st.numEvals + u.sys.st.pendingEvals < c.base.maxEvals := by
    intro u hu
    obtain ⟨_, _, _, h5⟩ := h.after hs hr hu
    rw [Props.C02_pending_exact (hu.reach hr).base, (Props.C03_history (hu.reach hr).base).2.2]
    refine lt_of_le_of_lt ?_ hb
    have : load u = u.sys.st.batchQueue.length + u.sys.inflight.length := rfl
    exact_mod_cast (by omega : (completions u.sys.st.log).length + u.sys.inflight.length ≤ _)
  refine ⟨?_, hbud _ ha⟩
  induction ha with
  | refl => exact ht
  | @step u v op hau hstep ih =>
    cases step_move hs (hau.reach hr) hstep with
    | keep _ _ _ _ _ h6 =>
      by_contra hv
      rcases h6 (by simpa using hv) with h7 | h7
      · rw [ih] at h7; cases h7
      · exact absurd h7 (not_le.mpr (hbud _ hau))
    | gen pts hq hw hz hn hl _ =>
      exfalso
      obtain ⟨⟨_, h2⟩, _⟩ := h.after hs hr hau
      rw [generate_none ((hau.reach hr).cinv hs) (by omega)] at hz
      cases hz
    | done _ _ _ _ _ _ _ h6 => rw [h6]; exact ih
  | @resume u hau ih => simpa [Sys.resumed, resume_eq, State.note] using ih

/-- Every call of `propose_action` that finds the queue empty raises. -/
theorem Stuck.raises (hs : c.base.srbf = none) {w : SopSys d} (hr : Reach c w) (h : Stuck c w) (hq : w.sys.st.batchQueue = [])
    (hg : Going c.base w.sys.st) (ha : c.base.asynchronous = true ∨ w.sys.inflight = []) (o : Oracle (Pt d)) :
    w.step c (.propose o) = none := by
  cases hst : w.step c (.propose o) with
  | none => rfl
  | some w' =>
    exfalso
    have hroom := h.room
    have hnot : ¬ (w.sys.st.terminate = true ∨ c.base.maxEvals ≤ w.sys.st.numEvals + w.sys.st.pendingEvals) := by
      have := hg.budget
      rw [hg.notTerm]; simp; omega
    cases step_propose hs (hr.inv hs).conv hst with
    | term ht => exact hnot ht
    | queue x q hq' _ => rw [hq] at hq'; simp at hq'
    | gen x q z hpts _ _ _ hz =>
      have hl : (q ++ [x]).length = genCount c.base := by rw [← hpts]; simp
      rw [generate_none (hr.cinv hs) (by omega)] at hz
      cases hz
    | genNone z hn _ _ _ hz =>
      rw [generate_none (hr.cinv hs) (by simp only [List.length_nil]; omega)] at hz
      cases hz
    | wait _ _ ha' hp =>
      rcases ha with ha | ha
      · rw [ha] at ha'; cases ha'
      · exact hp (by rw [Props.C02_pending_exact hr.base, ha]; rfl)

end Verif.Sop
