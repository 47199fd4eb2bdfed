import Verif.Sop.Witness

/-! # When the ranked archive is up to date, and what its ranks are (C53, C55) -/

set_option linter.unusedSectionVars false

namespace Verif.Sop

open Verif.Num Verif.Utils Verif.Strategy Verif.Spec
open List (Perm Sublist)

variable {d : ℕ} {c : Cfg d}

/-- The three ways in which a step treats the ranked archive. -/
theorem step_F (hs : c.base.srbf = none) {w w' : SopSys d} (hr : Reach c w) {op : Strategy.Op (Pt d)}
    (h : w.step c op = some w') :
    w'.sop.F = w.sop.F ∨
    (w.sop.F = none ∧ (∃ pts, w.sop.generate c w.sys.st.numEvals.toNat pts = some w'.sop) ∧
      ∃ pts ws, .generated pts ws ∈ w'.sys.st.log) ∨
    w'.sop.F = some (w'.sop.evals.map (fRow c)) := by
  have hgen : ∀ {n pts z'}, w.sop.generate c n pts = some z' → w.sop.F ≠ none → z'.F = w.sop.F := by
    intro n pts z' hg hne
    obtain ⟨z1, z2, h1, h2, _, h4⟩ := generate_spec hg
    rw [h4]
    simp only
    rw [(updateCenterList_keeps h2).2]
    rcases h1 with ⟨hn, _⟩ | ⟨_, rfl⟩
    · exact absurd hn hne
    · rfl
  by_cases hp : ∃ o, op = .propose o
  · obtain ⟨o, rfl⟩ := hp
    cases step_propose hs (hr.inv hs).conv h with
    | term ht => exact Or.inl rfl
    | queue x q hq hg => exact Or.inl rfl
    | gen x q z hpts hq hg ha hz =>
      by_cases hne : w.sop.F = none
      · right; left
        refine ⟨hne, ⟨_, hz⟩, q ++ [x], [], ?_⟩
        simp [proposeLast, State.note, State.makeProposal, genState]
      · exact Or.inl (hgen hz hne)
    | genNone z hn hq hg ha hz =>
      by_cases hne : w.sop.F = none
      · right; left
        refine ⟨hne, ⟨_, hz⟩, [], [], ?_⟩
        simp [genState]
      · exact Or.inl (hgen hz hne)
    | wait hq hg ha hp => exact Or.inl rfl
  · by_cases hc : ∃ i v, op = .complete i v
    · obtain ⟨i, v, rfl⟩ := hc
      have hev := ((hr.step _ h).inv hs).evLast
      obtain ⟨r, hrec, hsys, hsop⟩ := step_complete hs h
      cases hk : r.kind with
      | init =>
        rw [hk] at hsop
        simp only at hsop
        rw [Sop.onInitialCompleted, hev, if_pos (Nat.zero_le _)] at hsop
        left; rw [hsop]
      | adapt =>
        rw [hk] at hsop
        simp only at hsop
        rcases onAdaptCompleted_spec hev hsop with ⟨_, h3⟩ | ⟨_, _, _, h3⟩ | ⟨_, _, h3⟩
        · obtain ⟨_, _, _, _, _, _, _, hF, _⟩ := adjustMemory_spec h3; exact Or.inr (Or.inr hF)
        · obtain ⟨_, _, _, _, _, _, _, hF, _⟩ := adjustMemory_spec h3; exact Or.inr (Or.inr hF)
        · left; rw [h3]
    · left
      rw [(step_other h (fun o he => hp ⟨o, he⟩) (fun i v he => hc ⟨i, v, he⟩)).1]

/-- All ranks are infinite. -/
def Flat (z : Sop d) : Prop := ∃ F, z.F = some F ∧ ∀ row ∈ F, row.rank = ⊤

theorem flat_map {z : Sop d} (h : z.F = some (z.evals.map (fRow c))) : Flat z := by
  refine ⟨_, h, fun row hrow => ?_⟩
  obtain ⟨r, _, rfl⟩ := List.mem_map.mp hrow
  rfl

theorem step_flat (hs : c.base.srbf = none) {w w' : SopSys d} (hr : Reach c w) {op : Strategy.Op (Pt d)}
    (h : w.step c op = some w') (hf : Flat w.sop) : Flat w'.sop := by
  rcases step_F hs hr h with h1 | ⟨h1, _⟩ | h1
  · obtain ⟨F, hF, hrow⟩ := hf
    exact ⟨F, by rw [h1, hF], hrow⟩
  · obtain ⟨F, hF, _⟩ := hf
    rw [h1] at hF; simp at hF
  · exact flat_map h1

/-- The memory was updated at least once: an adaptive evaluation completed that ended its batch. -/
inductive Adjusted (c : Cfg d) : SopSys d → Prop
  | now {w w' : SopSys d} {i : ℕ} {v : Val} {r : Rec (Pt d)} (hr : Reach c w) (h : w.step c (.complete i v) = some w')
      (hrec : w.sys.recs[i]? = some r) (hk : r.kind = .adapt)
      (hb : c.base.asynchronous = true ∨ w'.sys.st.batchQueue = [] ∧ w'.sys.st.pendingEvals = 0) : Adjusted c w'
  | later {w w' : SopSys d} (op : Strategy.Op (Pt d)) (hr : Reach c w) (ha : Adjusted c w) (h : w.step c op = some w') : Adjusted c w'
  | resumed {w : SopSys d} (hr : Reach c w) (ha : Adjusted c w) : Adjusted c ⟨w.sys.resumed, w.sop⟩

theorem Adjusted.flat (hs : c.base.srbf = none) {w : SopSys d} (h : Adjusted c w) : Flat w.sop := by
  induction h with
  | @now w w' i v r hr h hrec hk hb =>
    have hev := ((hr.step _ h).inv hs).evLast
    obtain ⟨r', hrec', hsys, hsop⟩ := step_complete hs h
    rw [hrec] at hrec'
    simp only [Option.some.injEq] at hrec'
    subst hrec'
    rw [hk] at hsop
    simp only at hsop
    rcases onAdaptCompleted_spec hev hsop with ⟨_, h3⟩ | ⟨_, _, _, h3⟩ | ⟨hn, h3, _⟩
    · obtain ⟨_, _, _, _, _, _, _, hF, _⟩ := adjustMemory_spec h3; exact flat_map hF
    · obtain ⟨_, _, _, _, _, _, _, hF, _⟩ := adjustMemory_spec h3; exact flat_map hF
    · rcases hb with hb | hb
      · rw [hb] at hn; simp at hn
      · exact absurd hb h3
  | later op hr ha h ih => exact step_flat hs hr h ih
  | resumed hr ha ih => exact ih

/-- Events of the adaptive phase: points were generated, or an adaptive evaluation completed. -/
def AdaptEvent : Event (Pt d) → Prop
  | .generated _ _ => True
  | .completed _ .adapt _ _ => True
  | _ => False

/-- No initial evaluation completes after the adaptive phase has begun. -/
def NoLateInit (log : List (Event (Pt d))) : Prop :=
  ∀ pre post x v a, log = pre ++ .completed x .init v a :: post → ∀ e ∈ pre, ¬ AdaptEvent e

theorem NoLateInit.of_append {l m : List (Event (Pt d))} (h : NoLateInit (l ++ m)) : NoLateInit l := by
  intro pre post x v a he
  exact h pre (post ++ m) x v a (by rw [he]; simp)

theorem step_log (hs : c.base.srbf = none) {w w' : SopSys d} (hr : Reach c w) {op : Strategy.Op (Pt d)}
    (h : w.step c op = some w') : ∃ e, w'.sys.st.log = w.sys.st.log ++ e := by
  cases op with
  | propose o =>
    cases step_propose hs (hr.inv hs).conv h with
    | term ht =>
      by_cases hp : w.sys.st.pendingEvals = 0
      · exact ⟨[.terminated], by simp [termState, hp, State.note]⟩
      · exact ⟨[], by simp [termState, hp]⟩
    | queue x q hq hg => exact ⟨_, rfl⟩
    | gen x q z hpts hq hg ha hz =>
      exact ⟨[.generated (q ++ [x]) [], .proposed x .adapt], by simp [proposeLast, State.note, State.makeProposal, genState]⟩
    | genNone z hn hq hg ha hz => exact ⟨_, rfl⟩
    | wait hq hg ha hp => exact ⟨[], by simp⟩
  | complete i v =>
    obtain ⟨r, hrec, hsys, hsop⟩ := step_complete hs h
    exact ⟨[.completed r.x r.kind v r.accAt], by rw [hsys]; simp only [recordCompleted_eq]; rfl⟩
  | accept i =>
    obtain ⟨h1, h2⟩ := step_other h (by simp) (by simp)
    unfold Sys.step at h2
    simp only at h2
    split at h2
    · simp at h2
    · simp only [Option.some.injEq] at h2
      rw [← h2]; exact ⟨_, rfl⟩
  | reject i =>
    obtain ⟨h1, h2⟩ := step_other h (by simp) (by simp)
    unfold Sys.step at h2
    simp only at h2
    split at h2
    · simp at h2
    · rename_i p hp
      simp only [Option.some.injEq] at h2
      cases hk : p.kind <;> rw [hk] at h2 <;> simp only [onInitialRejected_eq, onAdaptReject_eq] at h2 <;>
        (rw [← h2]; exact ⟨_, rfl⟩)
  | abort i =>
    obtain ⟨h1, h2⟩ := step_other h (by simp) (by simp)
    unfold Sys.step at h2
    simp only at h2
    split at h2
    · simp at h2
    · simp only [Option.some.injEq, onAborted_eq] at h2
      rw [← h2]; exact ⟨_, rfl⟩
  | update i =>
    obtain ⟨h1, h2⟩ := step_other h (by simp) (by simp)
    unfold Sys.step at h2
    simp only at h2
    split at h2
    · simp at h2
    · simp only [Option.some.injEq] at h2
      rw [← h2]; exact ⟨[], by simp⟩

theorem Reach.hasGen (hs : c.base.srbf = none) {w : SopSys d} (h : Reach c w) :
    w.sop.F ≠ none → ∃ e ∈ w.sys.st.log, AdaptEvent e := by
  induction h with
  | create o => simp [SopSys.create]
  | @step w w' op hr hstep ih =>
    intro hne
    obtain ⟨e, he⟩ := step_log hs hr hstep
    by_cases h0 : w.sop.F = none
    · by_cases hp : ∃ o, op = .propose o
      · obtain ⟨o, rfl⟩ := hp
        cases step_propose hs (hr.inv hs).conv hstep with
        | term ht => exact absurd h0 hne
        | queue x q hq hg => exact absurd h0 hne
        | gen x q z hpts hq hg ha hz =>
          exact ⟨.generated (q ++ [x]) [], by simp [proposeLast, State.note, State.makeProposal, genState], trivial⟩
        | genNone z hn hq hg ha hz => exact ⟨.generated [] [], by simp [genState], trivial⟩
        | wait hq hg ha hp => exact absurd h0 hne
      · by_cases hc : ∃ i v, op = .complete i v
        · obtain ⟨i, v, rfl⟩ := hc
          have hev := ((hr.step _ hstep).inv hs).evLast
          obtain ⟨r, hrec, hsys, hsop⟩ := step_complete hs hstep
          cases hk : r.kind with
          | init =>
            rw [hk] at hsop
            simp only at hsop
            rw [Sop.onInitialCompleted, hev, if_pos (Nat.zero_le _)] at hsop
            rw [hsop] at hne
            exact absurd h0 hne
          | adapt =>
            refine ⟨.completed r.x r.kind v r.accAt, ?_, by rw [hk]; trivial⟩
            rw [hsys]; simp only [recordCompleted_eq]; simp [State.note]
        · rw [(step_other hstep (fun o he => hp ⟨o, he⟩) (fun i v he => hc ⟨i, v, he⟩)).1] at hne
          exact absurd h0 hne
    · obtain ⟨e', hm, ha⟩ := ih h0
      exact ⟨e', by rw [he]; exact List.mem_append_left _ hm, ha⟩
  | @resume w hr ih =>
    intro hne
    obtain ⟨e', hm, ha⟩ := ih hne
    refine ⟨e', ?_, ha⟩
    simp only [Sys.resumed, resume_eq, State.note]
    simp [hm]

/-- In asynchronous runs the ranked archive is always up to date, unless initial evaluations complete late. -/
theorem Reach.fresh_async (hs : c.base.srbf = none) (ha : c.base.asynchronous = true) {w : SopSys d} (h : Reach c w)
    (hn : NoLateInit w.sys.st.log) : Fresh w.sop := by
  induction h with
  | create o => intro F hF; simp [SopSys.create] at hF
  | @step w w' op hr hstep ih =>
    obtain ⟨e, he⟩ := step_log hs hr hstep
    have ih := ih (by rw [he] at hn; exact hn.of_append)
    by_cases hp : ∃ o, op = .propose o
    · obtain ⟨o, rfl⟩ := hp
      cases step_propose hs (hr.inv hs).conv hstep with
      | term ht => exact ih
      | queue x q hq hg => exact ih
      | gen x q z hpts hq hg ha hz =>
        intro F hF
        obtain ⟨F', hF', hl⟩ := rankRows_full hz ih
        simp only at hF
        rw [hF] at hF'
        simp only [Option.some.injEq] at hF'
        rw [hF']; exact hl
      | genNone z hn hq hg ha hz =>
        intro F hF
        obtain ⟨F', hF', hl⟩ := rankRows_full hz ih
        simp only at hF
        rw [hF] at hF'
        simp only [Option.some.injEq] at hF'
        rw [hF']; exact hl
      | wait hq hg ha hp => exact ih
    · by_cases hc : ∃ i v, op = .complete i v
      · obtain ⟨i, v, rfl⟩ := hc
        have hev := ((hr.step _ hstep).inv hs).evLast
        obtain ⟨r, hrec, hsys, hsop⟩ := step_complete hs hstep
        cases hk : r.kind with
        | init =>
          rw [hk] at hsop
          simp only at hsop
          rw [Sop.onInitialCompleted, hev, if_pos (Nat.zero_le _)] at hsop
          intro F hF
          rw [hsop] at hF
          obtain ⟨e', hm, hae⟩ := hr.hasGen hs (by rw [hF]; simp)
          have hlog : w'.sys.st.log = w.sys.st.log ++ .completed r.x .init v r.accAt :: [] := by
            rw [hsys]; simp only [recordCompleted_eq]; simp [State.note, hk]
          exact absurd hae (hn _ _ _ _ _ hlog e' hm)
        | adapt =>
          rw [hk] at hsop
          simp only at hsop
          rcases onAdaptCompleted_spec hev hsop with ⟨_, h3⟩ | ⟨hb, _⟩ | ⟨hb, _⟩
          · obtain ⟨_, _, _, _, _, _, _, hF, _⟩ := adjustMemory_spec h3
            intro F hF'
            rw [hF] at hF'
            simp only [Option.some.injEq] at hF'
            rw [← hF']; simp
          · rw [ha] at hb; simp at hb
          · rw [ha] at hb; simp at hb
      · rw [(step_other hstep (fun o he => hp ⟨o, he⟩) (fun i v he => hc ⟨i, v, he⟩)).1]
        exact ih
  | @resume w hr ih =>
    refine ih ?_
    simp only [Sys.resumed, resume_eq, State.note, List.append_assoc] at hn
    exact hn.of_append

end Verif.Sop
