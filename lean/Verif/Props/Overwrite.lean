import Verif.Strategy.Overwrite
import Verif.Strategy.Tally
import Verif.Checkpoint.Proofs
import Verif.Props.Strategy

/-! # Property C105: objective functions that modify their argument -/

namespace Verif.Props

open Verif.Strategy Verif.Spec

variable {P : Type} [DecidableEq P] {cfg : Config P}

/-- The point was proposed at some time. -/
def EverProposed (w : Sys P) (x : P) : Prop := ∃ k, Event.proposed x k ∈ w.st.log

/-- Full statement: as `C105_untouched`, also if the objective function modifies its argument; false (`C105_refuted`).
What remains true: counters, budget, values and their order, one row of `X` per value. -/
theorem C105_counts_partial {w : Sys P} (h : MReach cfg w) :
    w.st.pendingEvals = w.inflight.length ∧
    w.st.numEvals = (completions w.st.log).length ∧
    (((completions w.st.log).length + w.inflight.length : Nat) : Int) ≤ max cfg.maxEvals 0 ∧
    w.st.fX = (known cfg.extras ++ completions w.st.log).map Prod.snd ∧
    w.st.X.length = w.st.fX.length ∧
    w.st.fevals.map (fun f => f.value) = (finished w.st.log).map Prod.snd := by
  have c := h.counts
  have hp := c.pending
  have hb := c.budget
  have hn := c.num
  refine ⟨?_, c.num, ?_, ?_, ?_, ?_⟩
  · simp only [Sys.inflight, List.length_append, List.length_map]; omega
  · simp only [Sys.inflight, List.length_append, List.length_map]; omega
  · rw [c.fX, known_eq]; simp
  · rw [c.X, c.fX]; simp
  · rw [← c.fevals]; simp

/-- Events of a run with in-place modification. -/
inductive MOp (P : Type)
  | op (o : Op P)
  | overwrite (i : Nat) (y : P)
  | resume

/-- Executes such events. -/
def msteps (cfg : Config P) : Sys P → List (MOp P) → Option (Sys P)
  | w, [] => some w
  | w, .op o :: l => (w.step cfg o).bind fun v => msteps cfg v l
  | w, .overwrite i y :: l => msteps cfg (w.overwrite i y) l
  | w, .resume :: l => msteps cfg w.resumed l

theorem msteps_reach {w v : Sys P} (l : List (MOp P)) (h : MReach cfg w) (hv : msteps cfg w l = some v) : MReach cfg v := by
  induction l generalizing w with
  | nil => simp only [msteps, Option.some.injEq] at hv; exact hv ▸ h
  | cons a l ih =>
    cases a with
    | op o =>
      simp only [msteps] at hv
      cases hs : w.step cfg o with
      | none => rw [hs] at hv; simp at hv
      | some u => rw [hs] at hv; exact ih (h.step o hs) hv
    | overwrite i y => exact ih (h.overwrite i y) hv
    | resume => exact ih h.resume hv

theorem exists_mreach (o : Oracle P) (ops : List (MOp P)) (p : Sys P → Bool)
    (h : (msteps cfg (Sys.create cfg o) ops).any p = true) : ∃ w, MReach cfg w ∧ p w = true := by
  cases hw : msteps cfg (Sys.create cfg o) ops with
  | none => rw [hw] at h; simp at h
  | some w => rw [hw] at h; exact ⟨w, msteps_reach ops (.create o) hw, by simpa using h⟩

/-- In a run without in-place modification every evaluated point was proposed. -/
theorem C105_untouched {w : Sys P} (h : Reach cfg w) (x : P) (hx : x ∈ w.st.X) :
    x ∈ (known cfg.extras).map Prod.fst ∨ EverProposed w x := by
  rw [h.book.X, known_eq] at hx
  replace hx := List.mem_append.1 hx
  rcases hx with hx | hx
  · exact .inl hx
  right
  induction h with
  | create o => simp [Sys.create, create_eq, completions] at hx
  | @step w w' op hw hs ih =>
    obtain ⟨m, hm⟩ := Later.log (cfg := cfg) (.step op .refl hs : Later cfg w w')
    have key : x ∈ (completions w.st.log).map Prod.fst ∨ ∃ k, Event.proposed x k ∈ w.st.log := by
      cases op with
      | complete i v =>
        simp only [Sys.step] at hs
        split at hs
        · simp at hs
        rename_i r hr
        simp only [Option.some.injEq] at hs
        subst hs
        dsimp only at hx
        rw [(onCompleted_ext _ _ _ _ _).completions] at hx
        simp only [State.note, completions_append, List.map_append, List.mem_append] at hx
        rcases hx with hx | hx
        · exact .inl hx
        · right
          have : x = r.x := by simpa [completions] using hx
          exact ⟨r.kind, this ▸ hw.kinds.recs r (List.mem_of_getElem? hr)⟩
      | _ =>
        left
        obtain ⟨c, hc, hl⟩ := Checkpoint.step_completions hs hw
        simp only [Checkpoint.Op.completes, List.length_eq_zero_iff] at hl
        subst hl
        rw [hc, List.append_nil] at hx
        exact hx
    rcases key with hk | ⟨k, hk⟩
    · obtain ⟨k, hk⟩ := ih hk
      exact ⟨k, hm ▸ List.mem_append_left _ hk⟩
    · exact ⟨k, hm ▸ List.mem_append_left _ hk⟩
  | @resume w hw ih =>
    have h1 : completions w.resumed.st.log = completions w.st.log := by
      simp only [Sys.resumed, resume_eq, State.note, completions_append]
      simp [completions]
    rw [h1] at hx
    obtain ⟨k, hk⟩ := ih hx
    exact ⟨k, by simp only [Sys.resumed, resume_eq, State.note]; simp [hk]⟩

/-- An objective function that modifies its argument: the history holds a point that was never proposed (with the value of
another point), and the point that was evaluated stays in `Xpend` although nothing is in flight any more. -/
theorem C105_refuted : ∃ (cfg : Config Nat) (w : Sys Nat), MReach cfg w ∧
    (∃ x ∈ w.st.X, x ∉ (known cfg.extras).map Prod.fst ∧ ¬ EverProposed w x) ∧ w.inflight = [] ∧ w.st.Xpend ≠ [] := by
  obtain ⟨w, hw, hp⟩ := exists_mreach (cfg := demo) (orc 0)
    [.op (pr 100), .op (.accept 0), .overwrite 0 77, .op (.complete 0 3)]
    (fun w => decide (77 ∈ w.st.X) && decide (Event.proposed 77 .init ∉ w.st.log) &&
      decide (Event.proposed 77 .adapt ∉ w.st.log) && decide (w.inflight = []) && decide (w.st.Xpend ≠ [])) (by decide +kernel)
  simp only [Bool.and_eq_true, decide_eq_true_eq] at hp
  refine ⟨demo, w, hw, ⟨77, hp.1.1.1.1, by decide, ?_⟩, hp.1.2, hp.2⟩
  rintro ⟨k, hk⟩
  cases k
  · exact hp.1.1.1.2 hk
  · exact hp.1.1.2 hk

/-- A resume in the initial phase then queues the point again although its evaluation has completed. -/
theorem C105_again_refuted : ∃ (cfg : Config Nat) (w : Sys Nat) (x : Nat), MReach cfg w ∧
    Event.accepted x .init 1 ∈ w.st.log ∧ (finished w.st.log).length = 1 ∧ crashedBy w.st.log = [] ∧ x ∈ w.st.batchQueue := by
  obtain ⟨w, hw, hp⟩ := exists_mreach (cfg := demo) (orc 0)
    [.op (pr 100), .op (.accept 0), .overwrite 0 77, .op (.complete 0 3), .resume]
    (fun w => decide (Event.accepted 11 .init 1 ∈ w.st.log) && decide ((finished w.st.log).length = 1) &&
      decide (crashedBy w.st.log = []) && decide (11 ∈ w.st.batchQueue)) (by decide +kernel)
  simp only [Bool.and_eq_true, decide_eq_true_eq] at hp
  exact ⟨demo, w, 11, hw, hp.1.1.1, hp.1.1.2, hp.1.2, hp.2⟩

end Verif.Props
