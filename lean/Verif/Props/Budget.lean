import Verif.Props.Whole
import Verif.Props.Dycors

/-! # Property C121: a larger budget continues the run -/

namespace Verif.Props

open Verif.Num Verif.Utils Verif.Cand Verif.Design Verif.Strategy Verif.Spec Verif.Loop

variable {d : ℕ} {L : Setup d} {f : Pt d → Val}

/-- The same arguments except for `max_evals`. -/
def Setup.withBudget (L : Setup d) (M : ℤ) : Setup d := { L with cfg := { L.cfg with maxEvals := M } }

theorem proposeAction_budget {P : Type} [DecidableEq P] {cfg : Config P} {M : ℤ} (hM : cfg.maxEvals ≤ M) {o : Oracle P}
    {s s' : State P} {a : Action P} (h : s.proposeAction cfg o = some (a, s')) (ht : s'.terminate = false) :
    s.terminate = false ∧ s.numEvals + s.pendingEvals < cfg.maxEvals ∧
      s.proposeAction { cfg with maxEvals := M } o = some (a, s') := by
  by_cases hg : s.terminate = true ∨ cfg.maxEvals ≤ s.numEvals + s.pendingEvals
  · rw [proposeAction_terminate hg] at h
    simp only [Option.some.injEq, Prod.mk.injEq] at h
    rw [← h.2] at ht; cases ht
  · simp only [not_or, not_le, Bool.not_eq_true] at hg
    refine ⟨hg.1, hg.2, ?_⟩
    rw [proposeAction_going hg.1 hg.2] at h
    rw [proposeAction_going hg.1 (show _ < M by omega)]
    exact h

theorem step_budget {P : Type} [DecidableEq P] {cfg : Config P} {M : ℤ} (hM : cfg.maxEvals ≤ M) {w w' : Sys P} {op : Op P}
    (h : w.step cfg op = some w') (ht : w'.st.terminate = false) : w.step { cfg with maxEvals := M } op = some w' := by
  cases op with
  | propose o =>
    simp only [Sys.step] at h ⊢
    cases hp : w.st.proposeAction cfg o with
    | none => rw [hp] at h; cases h
    | some as =>
      obtain ⟨a, s⟩ := as
      have hs : s.terminate = false := by
        rw [hp] at h
        cases a <;> (simp only [Option.some.injEq] at h; subst h; exact ht)
      rw [(proposeAction_budget hM hp hs).2.2]
      rw [hp] at h; exact h
  | accept i => exact h
  | reject i => exact h
  | complete i v => exact h
  | abort i => exact h
  | update i => exact h

/-- The auxiliary problem does not read `max_evals`, except for the probability of DYCORS, which has no effect in dimension 1. -/
theorem gen_budget (hm : L.method = .dycors → d = 1) (M : ℤ) (S : Surr d) (s : State (Pt d)) (n : ℕ) (r : Rnd d) :
    gen (Setup.withBudget L M) S s n r = gen L S s n r := by
  obtain ⟨prob, cfg, method⟩ := L
  cases method with
  | srbf => rfl
  | ei t e => rfl
  | lcb k t e => rfl
  | dycors =>
    have hd := hm rfl
    subst hd
    unfold gen
    split
    · rfl
    · split_ifs with h
      · unfold genWith Setup.withBudget
        dsimp only
        split
        · congr 1
        · rfl
      · rfl

theorem loopStep_budget {M : ℤ} (hM : L.cfg.maxEvals ≤ M) {S : Surr d} {w w' : Sys (Pt d)} {e : Ev d}
    (hgen : ∀ r, e = .propose r → wantsPoints L.cfg w.st →
      gen (Setup.withBudget L M) S w.st (wanted L.cfg) r = gen L S w.st (wanted L.cfg) r) (h : loopStep L S f w e = some w') (ht : w'.st.terminate = false) :
    w.st.terminate = false ∧ loopStep (Setup.withBudget L M) S f w e = some w' ∧
      ∀ r, e = .propose r → (wantsPoints (Setup.withBudget L M).cfg w.st ↔ wantsPoints L.cfg w.st) := by
  have mono : ∀ {op}, w.step L.cfg op = some w' → w.st.terminate = false := by
    intro op hop
    by_contra hc
    have := (terminate_closed L.cfg).step (w := w) (w' := w') (by simpa using hc) hop
    rw [this] at ht; cases ht
  have key : ∀ {op}, w.step L.cfg op = some w' → w.step (Setup.withBudget L M).cfg op = some w' :=
    fun hop => step_budget hM hop ht
  cases e with
  | propose r =>
    simp only [loopStep, Option.bind_eq_some_iff] at h
    obtain ⟨g, hg, hw⟩ := h
    have h0 := mono hw
    have hb : w.st.numEvals + w.st.pendingEvals < L.cfg.maxEvals := by
      simp only [Sys.step] at hw
      cases hp : w.st.proposeAction L.cfg (oracleOf L r.design g) with
      | none => rw [hp] at hw; cases hw
      | some as =>
        obtain ⟨a, s⟩ := as
        have hs : s.terminate = false := by
          rw [hp] at hw
          cases a <;> (simp only [Option.some.injEq] at hw; subst hw; exact ht)
        exact (proposeAction_budget le_rfl hp hs).2.1
    have hiff : wantsPoints (Setup.withBudget L M).cfg w.st ↔ wantsPoints L.cfg w.st := by
      have : w.st.numEvals + w.st.pendingEvals < M := by omega
      simp only [wantsPoints, Setup.withBudget, hb, this, true_and]
    refine ⟨h0, ?_, fun _ _ => hiff⟩
    have hans : answer (Setup.withBudget L M) S w.st r = answer L S w.st r := by
      unfold answer
      by_cases hc : wantsPoints L.cfg w.st
      · rw [if_pos hc, if_pos (hiff.mpr hc)]; exact hgen r rfl hc
      · rw [if_neg hc, if_neg (fun h => hc (hiff.mp h))]
    simp only [loopStep, hans, hg, Option.bind_some]
    exact key hw
  | accept i => exact ⟨mono (op := .accept i) h, key (op := .accept i) h, fun _ he => by cases he⟩
  | reject i => exact ⟨mono (op := .reject i) h, key (op := .reject i) h, fun _ he => by cases he⟩
  | complete i =>
    simp only [loopStep, Option.bind_eq_some_iff] at h ⊢
    obtain ⟨r, hr, hw⟩ := h
    exact ⟨mono hw, ⟨r, hr, key hw⟩, fun _ he => by cases he⟩
  | abort i => exact ⟨mono (op := .abort i) h, key (op := .abort i) h, fun _ he => by cases he⟩
  | update i => exact ⟨mono (op := .update i) h, key (op := .update i) h, fun _ he => by cases he⟩
  | resume =>
    simp only [loopStep, Option.some.injEq] at h
    refine ⟨?_, by simp only [loopStep, h], fun _ he => by cases he⟩
    subst h
    simpa only [Sys.resumed, resume_eq, State.note] using ht

theorem loopSteps_budget (hm : L.method = .dycors → d = 1) {M : ℤ} (hM : L.cfg.maxEvals ≤ M) {S : Surr d} (es : List (Ev d)) :
    ∀ {w w' : Sys (Pt d)}, loopSteps L S f w es = some w' → w'.st.terminate = false →
      w.st.terminate = false ∧ loopSteps (Setup.withBudget L M) S f w es = some w' := by
  induction es with
  | nil => intro w w' h ht; simp only [loopSteps, Option.some.injEq] at h ⊢; subst h; exact ⟨ht, rfl⟩
  | cons e es ih =>
    intro w w' h ht
    simp only [loopSteps, Option.bind_eq_some_iff] at h ⊢
    obtain ⟨w1, h1, h2⟩ := h
    obtain ⟨ht1, h2'⟩ := ih h2 ht
    obtain ⟨ht0, h1', _⟩ := loopStep_budget hM (fun r _ _ => gen_budget hm M S w.st _ r) h1 ht1
    exact ⟨ht0, w1, h1', h2'⟩

/-- As long as the budget `max_evals` has not been reached, a run with a larger budget is in the same state after the same
random draws and the same schedule. -/
theorem C121_run_partial (hm : L.method = .dycors → d = 1) (M : ℤ) (hM : L.cfg.maxEvals ≤ M) (S : Surr d) (D : List (Pt d))
    (es : List (Ev d)) (w : Sys (Pt d)) (h : loopRun L S f D es = some w) (ht : w.st.terminate = false) :
    loopRun (Setup.withBudget L M) S f D es = some w :=
  (loopSteps_budget hm hM es h ht).2

/-- The records of the evaluations are only extended. -/
theorem fevals_closed {P : Type} [DecidableEq P] (cfg : Config P) (l : List (Finished P)) : Closed cfg (fun v => l <+: v.st.fevals) where
  setTerm w h _ := h
  setPhase w h _ _ _ := h
  gen w o n s' h a b c d e hg := by
    rcases generateEvals_cases hg with ⟨ws, z, rfl, hz⟩ | ⟨_, rfl, _⟩ <;> exact h
  restart w o h a b c d := by rw [sampleRestart_eq]; exact h
  term w h _ _ := h
  pop w x q k h _ _ _ _ := h
  accept w i p h hp := h
  rejectInit w i p h hp hk := by rw [onInitialRejected_eq]; exact h
  rejectAdapt w i p h hp hk := by rw [onAdaptReject_eq]; exact h
  completed w i r v h hr := by rw [recordCompleted_eq]; exact h.trans (List.prefix_append _ _)
  adjusted w sc' z v h hsc' hz hc hv := by rw [adjustStep_eq]; exact h
  queued w z v h hz _ _ := h
  aborted w i r h hr := by rw [onAborted_eq]; exact h.trans (List.prefix_append _ _)
  resume w h := by simp only [Sys.resumed, resume_eq, State.note]; exact h

theorem loopStep_fevals {S : Surr d} {w w' : Sys (Pt d)} {e : Ev d} (h : loopStep L S f w e = some w') :
    w.st.fevals <+: w'.st.fevals := by
  have key : ∀ {op}, w.step L.cfg op = some w' → w.st.fevals <+: w'.st.fevals :=
    fun hop => (fevals_closed L.cfg w.st.fevals).step (List.prefix_refl _) hop
  cases e with
  | propose r =>
    simp only [loopStep, Option.bind_eq_some_iff] at h
    obtain ⟨g, _, hw⟩ := h
    exact key hw
  | accept i => exact key (op := .accept i) h
  | reject i => exact key (op := .reject i) h
  | complete i =>
    simp only [loopStep, Option.bind_eq_some_iff] at h
    obtain ⟨r, _, hw⟩ := h
    exact key hw
  | abort i => exact key (op := .abort i) h
  | update i => exact key (op := .update i) h
  | resume =>
    simp only [loopStep, Option.some.injEq] at h
    subst h
    simp only [Sys.resumed, resume_eq, State.note, List.prefix_refl]

theorem objStep_sys {L : Setup d} {K : Obj d} {W W' : ObjSys d} {e : Ev d} (h : objStep L K f W e = some W') :
    loopStep L (K W.calls) f W.sys e = some W'.sys := by
  simp only [objStep, Option.map_eq_some_iff] at h
  obtain ⟨w', hw, rfl⟩ := h
  exact hw

theorem objStep_budget {K : Obj d} (hm : L.method = .dycors → d = 1) {M : ℤ} (hM : L.cfg.maxEvals ≤ M) {W W' : ObjSys d}
    {e : Ev d} (h : objStep L K f W e = some W') (ht : W'.sys.st.terminate = false) :
    objStep (Setup.withBudget L M) K f W e = some W' := by
  simp only [objStep, Option.map_eq_some_iff] at h ⊢
  obtain ⟨w', hw, rfl⟩ := h
  obtain ⟨_, h2, h3⟩ := loopStep_budget hM (fun r _ _ => gen_budget hm M _ W.sys.st _ r) hw ht
  refine ⟨w', h2, ?_⟩
  congr 2
  cases e with
  | propose r =>
    have := h3 r rfl
    simp only [callsOf]
    by_cases hc : wantsPoints L.cfg W.sys.st
    · rw [if_pos hc, if_pos (this.mpr hc)]; rfl
    · rw [if_neg hc, if_neg (fun h => hc (this.mp h))]; rfl
  | _ => rfl

theorem objSerial_fevals {K : Obj d} (rs : List (State (Pt d) → Rnd d)) :
    ∀ {W W' : ObjSys d} {b : Bool}, objSerial L K f rs W = some (W', b) → W.sys.st.fevals <+: W'.sys.st.fevals := by
  induction rs with
  | nil =>
    intro W W' b h
    simp only [objSerial, Option.some.injEq, Prod.mk.injEq] at h
    rw [h.1]
  | cons r rs ih =>
    intro W W' b h
    simp only [objSerial, Option.bind_eq_some_iff] at h
    obtain ⟨W1, h1, h2⟩ := h
    have f1 := loopStep_fevals (objStep_sys h1)
    split at h2
    · simp only [Option.some.injEq, Prod.mk.injEq] at h2
      rw [← h2.1]; exact f1
    · simp only [Option.bind_eq_some_iff] at h2
      obtain ⟨W2, h2, W3, h3, h4⟩ := h2
      exact ((f1.trans (loopStep_fevals (objStep_sys h2))).trans (loopStep_fevals (objStep_sys h3))).trans (ih h4)

/-- A proposal changes neither the records nor, unless the budget is used, the flag. -/
theorem proposeAction_same {P : Type} [DecidableEq P] {cfg : Config P} {o : Oracle P} {s s' : State P} {a : Action P}
    (h : s.proposeAction cfg o = some (a, s')) :
    s'.fevals = s.fevals ∧ ((∃ x k, a = .eval x k) → s'.terminate = false) := by
  by_cases ht : s.terminate = true ∨ cfg.maxEvals ≤ s.numEvals + s.pendingEvals
  · rw [proposeAction_terminate ht] at h
    simp only [Option.some.injEq, Prod.mk.injEq] at h
    refine ⟨by rw [← h.2], ?_⟩
    rintro ⟨x, k, rfl⟩
    have := h.1
    split at this <;> cases this
  · simp only [not_or, not_le, Bool.not_eq_true] at ht
    rw [proposeAction_going ht.1 ht.2] at h
    suffices hh : s'.fevals = s.fevals ∧ s'.terminate = s.terminate from ⟨hh.1, fun _ => hh.2.trans ht.1⟩
    have hini : ∀ t : State P, t.initProposal = some (a, s') → s'.fevals = t.fevals ∧ s'.terminate = t.terminate := by
      intro t hh
      unfold State.initProposal at hh
      split at hh
      · cases hh
      · simp only [Option.some.injEq, Prod.mk.injEq] at hh
        rw [← hh.2]; exact ⟨rfl, rfl⟩
    have hada : ∀ t : State P, some t.adaptProposal = some (a, s') → s'.fevals = t.fevals ∧ s'.terminate = t.terminate := by
      intro t hh
      unfold State.adaptProposal at hh
      split at hh <;> (simp only [Option.some.injEq, Prod.mk.injEq] at hh; rw [← hh.2]; exact ⟨rfl, rfl⟩)
    have hrest : ∀ (t : State P), (t.sampleRestart cfg o).initProposal = some (a, s') →
        s'.fevals = t.fevals ∧ s'.terminate = t.terminate := by
      intro t hh
      have := hini _ hh
      rw [sampleRestart_eq] at this
      exact this
    have hag : ∀ t : State P, t.afterGenerate cfg o = some (a, s') → s'.fevals = t.fevals ∧ s'.terminate = t.terminate := by
      intro t hh
      unfold State.afterGenerate at hh
      split at hh
      · split at hh
        · exact hrest t hh
        · simp only [Option.some.injEq, Prod.mk.injEq] at hh; rw [← hh.2]; exact ⟨rfl, rfl⟩
      · exact hada t hh
    split at h
    · split at h
      · split at h
        · exact hrest s h
        · simp only [Option.some.injEq, Prod.mk.injEq] at h; rw [← h.2]; exact ⟨rfl, rfl⟩
      · simp only [Option.some.injEq, Prod.mk.injEq] at h; rw [← h.2]; exact ⟨rfl, rfl⟩
    · split at h
      · unfold State.adaptBranch at h
        simp only at h
        have hgen : ∀ n s1, State.generateEvals cfg o n { s with phase := .adaptive } = some s1 →
            s1.fevals = s.fevals ∧ s1.terminate = s.terminate := by
          intro n s1 hg
          rcases generateEvals_cases hg with ⟨ws, z, rfl, _⟩ | ⟨_, rfl, _⟩ <;> exact ⟨rfl, rfl⟩
        split at h
        · split at h
          · simp at h
          · rename_i s1 hg
            exact ⟨(hag _ h).1.trans (hgen _ _ hg).1, (hag _ h).2.trans (hgen _ _ hg).2⟩
        · split at h
          · split at h
            · simp at h
            · rename_i s1 hg
              exact ⟨(hag _ h).1.trans (hgen _ _ hg).1, (hag _ h).2.trans (hgen _ _ hg).2⟩
          · exact hag { s with phase := .adaptive } h
      · split at h
        · exact hini _ h
        · exact hada _ h

/-- What a proposal can be, when nothing was proposed before. -/
theorem propose_shape {K : Obj d} {W W1 : ObjSys d} {r : Rnd d} (h : objStep L K f W (.propose r) = some W1)
    (hp : W.sys.props = []) :
    W1.sys.recs = W.sys.recs ∧ W1.sys.st.fevals = W.sys.st.fevals ∧
      (W1.sys.props = [] ∨ W1.sys.st.terminate = false ∧ ∃ p, W1.sys.props = [p]) := by
  have h' := objStep_sys h
  simp only [loopStep, Option.bind_eq_some_iff] at h'
  obtain ⟨g, _, hw⟩ := h'
  have hf : W1.sys.st.fevals = W.sys.st.fevals := by
    simp only [Sys.step] at hw
    cases ha : W.sys.st.proposeAction L.cfg (oracleOf L r.design g) with
    | none => rw [ha] at hw; cases hw
    | some as =>
      obtain ⟨a, s⟩ := as
      have hk := proposeAction_same ha
      rw [ha] at hw
      cases a <;> (simp only [Option.some.injEq] at hw; rw [← hw]; exact hk.1)
  simp only [Sys.step] at hw
  cases ha : W.sys.st.proposeAction L.cfg (oracleOf L r.design g) with
  | none => rw [ha] at hw; cases hw
  | some as =>
    obtain ⟨a, s⟩ := as
    rw [ha] at hw
    cases a with
    | eval x k =>
      simp only [Option.some.injEq] at hw
      refine ⟨by rw [← hw], hf, Or.inr ⟨?_, ⟨x, k⟩, by rw [← hw, hp]; rfl⟩⟩
      rw [← hw]
      exact (proposeAction_same ha).2 ⟨x, k, rfl⟩
    | terminate =>
      simp only [Option.some.injEq] at hw
      exact ⟨by rw [← hw], hf, Or.inl (by rw [← hw, hp])⟩
    | nothing =>
      simp only [Option.some.injEq] at hw
      exact ⟨by rw [← hw], hf, Or.inl (by rw [← hw, hp])⟩

theorem objSerial_budget {K : Obj d} (hm : L.method = .dycors → d = 1) {M : ℤ} (hM : L.cfg.maxEvals ≤ M)
    (rs : List (State (Pt d) → Rnd d)) :
    ∀ {W W' V : ObjSys d} {b c : Bool}, W.sys.props = [] → W.sys.recs = [] → objSerial L K f rs W = some (W', b) →
      objSerial (Setup.withBudget L M) K f rs W = some (V, c) →
      W'.sys.st.fevals <+: V.sys.st.fevals ∧ (b = false → V = W' ∧ c = false) := by
  induction rs with
  | nil =>
    intro W W' V b c _ _ h hv
    simp only [objSerial, Option.some.injEq, Prod.mk.injEq] at h hv
    rw [← h.1, ← h.2, ← hv.1, ← hv.2]; exact ⟨List.prefix_refl _, fun _ => ⟨rfl, rfl⟩⟩
  | cons r rs ih =>
    intro W W' V b c hp hr h hv
    have mono := objSerial_fevals _ hv
    simp only [objSerial, Option.bind_eq_some_iff] at h
    obtain ⟨W1, h1, h2⟩ := h
    obtain ⟨s1, s2, s3⟩ := propose_shape h1 hp
    split at h2
    · simp only [Option.some.injEq, Prod.mk.injEq] at h2
      rw [← h2.1, ← h2.2, s2]; exact ⟨mono, fun hb => by cases hb⟩
    · rename_i hlast
      simp only [Option.bind_eq_some_iff] at h2
      obtain ⟨W2, h2, W3, h3, h4⟩ := h2
      rcases s3 with s3 | ⟨s3, p, s4⟩
      · exfalso
        have := objStep_sys h2
        simp only [loopStep, Sys.step, s3, List.getElem?_nil] at this
        cases this
      · have e1 := objStep_budget hm hM h1 s3
        have g2 := objStep_sys h2
        simp only [loopStep, Sys.step, s4, List.getElem?_cons_zero, Option.some.injEq] at g2
        have e2 : objStep (Setup.withBudget L M) K f W1 (.accept 0) = some W2 := h2
        have g3 := objStep_sys h3
        rw [← g2] at g3
        simp only [loopStep, s1, hr, List.nil_append, List.getElem?_cons_zero, Option.bind_some, Sys.step, Option.some.injEq] at g3
        have e3 : objStep (Setup.withBudget L M) K f W2 (.complete 0) = some W3 := h3
        have hv' : objSerial (Setup.withBudget L M) K f rs W3 = some (V, c) := by
          simp only [objSerial, e1, Option.bind_some] at hv
          simpa only [e2, e3, Option.bind_some] using hv
        refine ih ?_ ?_ h4 hv'
        · rw [← g3]; rfl
        · rw [← g3]; rfl

/-- As long as the serial run with budget `max_evals` goes on, a run with a larger budget and the same draws is in the same state
(surrogate object included); all its evaluations are also made, in the same order and with the same values and numbers, by the
run with the larger budget. -/
theorem C121_serial_partial {K : Obj d} (hm : L.method = .dycors → d = 1) (M : ℤ) (hM : L.cfg.maxEvals ≤ M) (D : List (Pt d))
    (rs : List (State (Pt d) → Rnd d)) (W V : ObjSys d) (b c : Bool) (h : objSerial L K f rs (objCreate L D) = some (W, b))
    (h' : objSerial (Setup.withBudget L M) K f rs (objCreate (Setup.withBudget L M) D) = some (V, c)) :
    W.sys.st.fevals <+: V.sys.st.fevals ∧ (b = false → V = W ∧ c = false) :=
  objSerial_budget hm hM rs (W := objCreate L D) rfl rfl h h'

/-! ## DYCORS reads `max_evals` -/

/-- A single candidate with all uniform draws equal to `v`: coordinate 1 is moved only if `v` is below the probability. -/
theorem dycors_one {n : ℕ} (p : OptProb d) (i1 : Fin d) (h1 : (i1 : ℕ) = 1) (pred : Pt d → ℝ) (X : Fin (n + 1) → Pt d)
    (ws : List ℝ) (prob v : ℝ) (Xpend : List (Pt d)) (radius : ℝ) (dtol : ℝ) (xbest z : Pt d) :
    ∃ res, candidateDycors p pred X ws prob Xpend radius (List.finRange d) dtol xbest (fun (_ : Fin 1) _ => v) (fun _ => 0)
        (fun _ => z) = some res ∧ res.length = ws.length ∧
      ∀ x ∈ res, ∃ y, x = roundVars y p.intVar p.lb p.ub ∧
        y i1 = if v < prob then truncnorm (xbest i1) (scalefactors p radius (List.finRange d) i1) (z i1) else xbest i1 := by
  have hd : d ≠ 1 := by have := i1.2; omega
  have hmask : dycorsMask (List.finRange d).length prob (fun _ => v) 0 (i1 : ℕ) = true ↔ v < prob := by
    unfold dycorsMask
    rw [List.length_finRange, if_neg hd, h1]
    split_ifs with hc
    · have : ¬ v < prob := hc 0 (by have := i1.2; omega)
      simp [this]
    · simp
  obtain ⟨y, hy, hy2⟩ := dycorsCand_prefix xbest (scalefactors p radius (List.finRange d)) (List.finRange d) (fun i h => by simp)
    (dycorsMask (List.finRange d).length prob (fun _ => v) 0) z
  have hall : ∀ j : Fin 1, (dycorsCand xbest (scalefactors p radius (List.finRange d)) (List.finRange d)
      (dycorsMask (List.finRange d).length prob (fun _ => v) 0) z).isSome := by intro j; rw [hy]; rfl
  refine ⟨_, by simp only [candidateDycors]; rw [dif_pos hall], (C28_candidates _ _ _ _ _ _).1, ?_⟩
  intro x hx
  obtain ⟨j, rfl⟩ := (C28_candidates _ _ _ _ _ _).2 x hx
  refine ⟨y, by simp only [hy, Option.get_some], ?_⟩
  rw [hy2 i1]
  by_cases hv : v < prob
  · rw [if_pos hv, if_pos ⟨List.mem_finRange _, hmask.mpr hv⟩]
  · rw [if_neg hv, if_neg (fun h => hv (hmask.mp h.2))]

/-- The probability grows with the budget, as soon as more than the points of the design are evaluated or running. -/
theorem perturbProb_grows {dim numExp a b : ℕ} {M M' : ℤ} (hd : 2 ≤ dim) (hn : numExp < a + b) (hM : (numExp : ℤ) + 2 ≤ M)
    (hMM : M < M') (hc : ((a + b - numExp + 1 : ℤ)) ^ 3 ≤ M' - numExp) :
    ∃ p p', perturbProb dim M numExp a b = .fin p ∧ perturbProb dim M' numExp a b = .fin p' ∧ 0 ≤ p ∧ p < p' ∧ p' ≤ 1 := by
  obtain ⟨p, hp, hp1, hp2⟩ := C25_range_partial (dim := dim) (by omega) hn.le hM
  obtain ⟨p', hp', hp1', hp2'⟩ := C25_range_partial (dim := dim) (by omega) hn.le (show (numExp : ℤ) + 2 ≤ M' by omega)
  refine ⟨p, p', hp, hp', le_trans (by positivity) hp1, ?_, hp2'⟩
  rw [perturbProb_eq hn.le hM, NF.fin.injEq] at hp
  rw [perturbProb_eq hn.le (by omega), NF.fin.injEq] at hp'
  have hdR : (2 : ℝ) ≤ dim := by exact_mod_cast hd
  have hA : (2 : ℝ) ≤ (a : ℝ) + b - numExp + 1 := by
    have : ((numExp + 1 : ℕ) : ℝ) ≤ ((a + b : ℕ) : ℝ) := by exact_mod_cast hn
    push_cast at this; linarith
  have hB : (2 : ℝ) ≤ (M : ℝ) - numExp := by
    have : (((numExp : ℤ) + 2 : ℤ) : ℝ) ≤ (M : ℝ) := by exact_mod_cast hM
    push_cast at this; linarith
  have hBB : (M : ℝ) - numExp < (M' : ℝ) - numExp := by
    have : (M : ℝ) < (M' : ℝ) := by exact_mod_cast hMM
    linarith
  have hcube : ((a : ℝ) + b - numExp + 1) ^ 3 ≤ (M' : ℝ) - numExp := by
    have : (((a + b - numExp + 1 : ℤ) ^ 3 : ℤ) : ℝ) ≤ ((M' - numExp : ℤ) : ℝ) := by exact_mod_cast hc
    push_cast at this; exact this
  generalize (a : ℝ) + b - numExp + 1 = A at *
  generalize (M : ℝ) - numExp = B at *
  generalize (M' : ℝ) - numExp = B' at *
  have lA : 0 < Real.log A := Real.log_pos (by linarith)
  have lB : 0 < Real.log B := Real.log_pos (by linarith)
  have lBB : Real.log B < Real.log B' := Real.log_lt_log (by linarith) hBB
  have l3 : 3 * Real.log A ≤ Real.log B' := by
    have := Real.log_le_log (by positivity) hcube
    rwa [Real.log_pow] at this
  have hq : Real.log A / Real.log B' ≤ 1 / 3 := by rw [div_le_iff₀ (by linarith)]; linarith
  have hlt : Real.log A / Real.log B' < Real.log A / Real.log B := div_lt_div_of_pos_left lA lB lBB
  have hcp : 0 < min (20 / (dim : ℝ)) 1 := lt_min (by positivity) one_pos
  rw [← hp, ← hp']
  have h1 : min 1 (1 / (dim : ℝ)) < min (20 / (dim : ℝ)) 1 * (1 - Real.log A / Real.log B') := by
    have e : 1 / (dim : ℝ) < min (20 / (dim : ℝ)) 1 * (2 / 3) := by
      rcases le_total (20 / (dim : ℝ)) 1 with h | h
      · rw [min_eq_left h, div_mul_eq_mul_div]
        exact div_lt_div_of_pos_right (by norm_num) (by linarith)
      · rw [min_eq_right h, div_lt_iff₀ (by linarith)]; linarith
    calc min 1 (1 / (dim : ℝ)) ≤ 1 / (dim : ℝ) := min_le_right _ _
      _ < _ := e
      _ ≤ _ := mul_le_mul_of_nonneg_left (by linarith) hcp.le
  have h2 : min (20 / (dim : ℝ)) 1 * (1 - Real.log A / Real.log B) < min (20 / (dim : ℝ)) 1 * (1 - Real.log A / Real.log B') :=
    mul_lt_mul_of_pos_left (by linarith) hcp
  exact (max_lt h2 h1).trans_le (le_max_left _ _)

theorem gen_differ (hm : L.method = .dycors) (hd : 2 ≤ d) (ok : ProbOk L.prob) {s : State (Pt d)} {S : Surr d} {pred : Pt d → ℝ}
    (hS : S.mean (surrData s) = some pred) {x0 : Pt d} {xs : List (Pt d)} (hX : s.curX = x0 :: xs)
    (hlen : s.curFX.length = xs.length + 1) (hfX : s.fX ≠ []) (hfeas : ∀ x ∈ s.curX, Feasible L.prob x) {sc : SrbfCfg} {z : Srbf}
    (hsc : L.cfg.srbf = some sc) (hz : s.srbf = some z) (hrad : 0 < z.radius) {n : ℕ} {ws : List ℚ} {next : ℕ}
    (hws : getWeights sc.weights z.nextWeight n = some (ws, next)) (hwl : ws.length = n)
    (hn : L.cfg.numPts < s.X.length + s.Xpend.length) (hM : (L.cfg.numPts : ℤ) + 2 ≤ L.cfg.maxEvals) {M : ℤ} (hMM : L.cfg.maxEvals < M)
    (hc : ((s.X.length + s.Xpend.length - L.cfg.numPts + 1 : ℤ)) ^ 3 ≤ M - L.cfg.numPts) {r0 : Rnd d} (hr0 : RndOk L s r0) :
    ∃ r, r.design = r0.design ∧ RndOk L s r ∧ ∃ g g', gen L S s n r = some (some g) ∧
      gen (Setup.withBudget L M) S s n r = some (some g') ∧ g.length = n ∧ g'.length = n ∧ ∀ x ∈ g, ∀ x' ∈ g', x ≠ x' := by
  obtain ⟨p, p', hp, hp', hp0, hpp, hp1⟩ := perturbProb_grows (dim := d) hd hn hM hMM hc
  set X : Fin (xs.length + 1) → Pt d := fun i => (x0 :: xs)[i] with hXdef
  set fX : Fin (xs.length + 1) → ℝ := fun i => ((s.curFX[i]'(by rw [hlen]; exact i.2) : ℚ) : ℝ) with hfXdef
  set xb := xbestOf X fX with hxb
  have hxbf : Feasible L.prob xb := hfeas _ (by rw [hX]; exact List.getElem_mem _)
  have hrad' : (0 : ℝ) < ((z.radius : ℚ) : ℝ) := by exact_mod_cast hrad
  have hσ := fun i => scale_pos ok hrad' (List.finRange d) i
  set σ := scalefactors L.prob ((z.radius : ℚ) : ℝ) (List.finRange d) with hσdef
  obtain ⟨t, ht, htb⟩ : ∃ t, t ≠ xb ⟨1, hd⟩ ∧ (t = L.prob.lb ⟨1, hd⟩ ∨ t = L.prob.ub ⟨1, hd⟩) := by
    by_cases h : xb ⟨1, hd⟩ = L.prob.lb ⟨1, hd⟩
    · exact ⟨_, by rw [h]; exact (ok.lt _).ne', .inr rfl⟩
    · exact ⟨_, fun h' => h h'.symm, .inl rfl⟩
  have htin : L.prob.lb ⟨1, hd⟩ ≤ t ∧ t ≤ L.prob.ub ⟨1, hd⟩ := by
    have := (ok.lt ⟨1, hd⟩).le
    rcases htb with rfl | rfl <;> constructor <;> first | exact le_rfl | exact this
  have htint : (⟨1, hd⟩ : Fin d) ∈ L.prob.intVar → ∃ k : ℤ, t = k := by
    intro hi
    rcases htb with rfl | rfl
    · exact ok.lbInt _ hi
    · exact ok.ubInt _ hi
  set zz : Pt d := fun i => if i = ⟨1, hd⟩ then (t - xb i) / σ i else 0 with hzz
  have hdraw : ∀ i, DrawOk L.prob xb σ i (zz i) := by
    intro i
    by_cases hi : i = ⟨1, hd⟩
    · subst hi
      simp only [DrawOk, hzz, if_true]
      exact ⟨div_le_div_of_nonneg_right (by linarith [htin.1]) (hσ _).le, div_le_div_of_nonneg_right (by linarith [htin.2]) (hσ _).le⟩
    · simp only [DrawOk, hzz, if_neg hi]
      have hb := hxbf.1 i
      exact ⟨div_nonpos_of_nonpos_of_nonneg (by linarith [hb.1]) (hσ i).le, div_nonneg (by linarith [hb.2]) (hσ i).le⟩
  have huniq : ∀ (k : ℕ) (X' : Fin (k + 1) → Pt d) (fX' : Fin (k + 1) → ℝ), s.curX = List.ofFn X' →
      s.curFX.map (fun v => ((v : ℚ) : ℝ)) = List.ofFn fX' → xbestOf X' fX' = xb := by
    intro k X' fX' h1 h2
    have hk : k = xs.length := by
      have := congrArg List.length h1
      rw [hX, List.length_ofFn] at this
      simpa using this.symm
    subst hk
    have e1 : X' = X := by
      funext i
      have h3 : (x0 :: xs)[i.val]? = (List.ofFn X')[i.val]? := by rw [← hX, h1]
      simp only [hXdef]
      rw [List.getElem?_eq_getElem i.2, List.getElem?_eq_getElem (by rw [List.length_ofFn]; exact i.2), List.getElem_ofFn] at h3
      simpa using h3.symm
    have e2 : fX' = fX := by
      funext i
      have h3 : (s.curFX.map (fun v => ((v : ℚ) : ℝ)))[i.val]? = (List.ofFn fX')[i.val]? := by rw [h2]
      rw [List.getElem?_eq_getElem (by rw [List.length_map, hlen]; exact i.2), List.getElem?_eq_getElem (by rw [List.length_ofFn]; exact i.2),
        List.getElem_ofFn] at h3
      simp only [hfXdef]
      simpa using h3.symm
    rw [e1, e2]
  refine ⟨{ r0 with m := 0, draws := fun _ => zz, u := fun _ _ => p, forced := fun _ => 0 }, rfl, ?_, ?_⟩
  · obtain ⟨a1, a2, a3, _, _⟩ := hr0
    refine ⟨a1, a2, a3, fun _ _ => ⟨hp0, lt_of_lt_of_le hpp hp1⟩, ?_⟩
    intro k X' fX' z' h1 h2 h3 j i
    rw [hz] at h3; cases h3
    rw [huniq k X' fX' h1 h2]
    exact hdraw i
  · obtain ⟨g, hg, hgl, hgx⟩ := dycors_one L.prob ⟨1, hd⟩ rfl pred X (ws.map fun v => ((v : ℚ) : ℝ)) p p s.Xpend
      ((z.radius : ℚ) : ℝ) 1e-3 xb zz
    obtain ⟨g', hg', hgl', hgx'⟩ := dycors_one L.prob ⟨1, hd⟩ rfl pred X (ws.map fun v => ((v : ℚ) : ℝ)) p' p s.Xpend
      ((z.radius : ℚ) : ℝ) 1e-3 xb zz
    refine ⟨g, g', ?_, ?_, by rw [hgl, List.length_map, hwl], by rw [hgl', List.length_map, hwl], ?_⟩
    · unfold gen
      rw [hX]
      simp only
      rw [dif_pos ⟨hlen, hfX⟩]
      simp only [genWith, hm, hsc, hz, hS, hws, Option.bind_some, State.perturbProb, hp, probOf]
      exact congrArg (Option.map some) hg
    · unfold gen
      rw [hX]
      simp only
      rw [dif_pos ⟨hlen, hfX⟩]
      simp only [genWith, Setup.withBudget, hm, hsc, hz, hS, hws, Option.bind_some, State.perturbProb, hp', probOf]
      exact congrArg (Option.map some) hg'
    · intro x hx x' hx' he
      obtain ⟨y, hy, hy1⟩ := hgx x hx
      obtain ⟨y', hy', hy1'⟩ := hgx' x' hx'
      rw [if_neg (lt_irrefl _)] at hy1
      rw [if_pos hpp] at hy1'
      have hy1' : y' ⟨1, hd⟩ = t := by
        rw [hy1', truncnorm]
        simp only [hzz, if_true]
        rw [mul_div_cancel₀ _ (hσ _).ne']; ring
      have e1 : x ⟨1, hd⟩ = xb ⟨1, hd⟩ := by
        rw [hy, roundVars_of_feasible (by rw [hy1]; exact hxbf.1 _) (fun hi => by rw [hy1]; exact hxbf.2 _ hi), hy1]
      have e2 : x' ⟨1, hd⟩ = t := by
        rw [hy', roundVars_of_feasible (by rw [hy1']; exact htin) (fun hi => by rw [hy1']; exact htint hi), hy1']
      exact ht (by rw [← e2, ← he, e1])

theorem gen_budget_prob {M : ℤ} {S : Surr d} {s : State (Pt d)} {n : ℕ} {r : Rnd d}
    (h : State.perturbProb (Setup.withBudget L M).cfg d s = State.perturbProb L.cfg d s) :
    gen (Setup.withBudget L M) S s n r = gen L S s n r := by
  unfold gen
  split
  · rfl
  · split_ifs
    · unfold genWith
      rw [h]
      rfl
    · rfl

theorem idle_create {D : List (Pt d)} (hx : L.cfg.extras = []) (hD : D.length = L.cfg.numPts) :
    Idle L.cfg (Sys.create L.cfg (oracleOf L D none)) D [] := by
  have hq : (List.range L.cfg.numPts).map (fun i => D.getD i L.prob.lb) = D := by
    apply List.ext_getElem
    · simp [hD]
    · intro i h1 h2
      simp [List.getElem?_eq_getElem h2]
  constructor <;> simp [Sys.create, create_eq, State.blank, unknownExtras, knownExtras, known, hx, completions]
  exact hq

theorem loop_curX_feasible (ok : ProbOk L.prob) (hbs : BatchOk L.cfg) (hx : ∀ e ∈ L.cfg.extras, Feasible L.prob e.1)
    {w : Sys (Pt d)} (h : LoopReach L w) : ∀ x ∈ w.st.curX, Feasible L.prob x := by
  intro x hx'
  refine (C74_feasible ok hbs hx h).2.2.2.2 x ?_
  obtain ⟨cur, h1, h2, _⟩ := C13_isolation h.reach
  rw [(C03_history h.reach).1, List.map_append]
  refine List.mem_append_right _ ?_
  rw [h2] at hx'
  obtain ⟨e, he, rfl⟩ := List.mem_map.mp hx'
  refine List.mem_map_of_mem ?_
  have := h1.subset he
  obtain ⟨ev, he1, he2⟩ := List.mem_filterMap.mp this
  refine List.mem_filterMap.mpr ⟨ev, he1, ?_⟩
  cases ev <;> simp at he2 ⊢
  obtain ⟨_, rfl⟩ := he2
  rfl

theorem Idle.design {S : Surr d} {M : ℤ} (hM : L.cfg.maxEvals ≤ M) (hL : MethodOk L) {r : Rnd d}
    (hr : ∀ w, LoopReach L w → RndOk L w.st r) {q : List (Pt d)} :
    ∀ {w : Sys (Pt d)} {c : List (Pt d × Val)}, ((q.length + c.length : ℕ) : ℤ) ≤ L.cfg.maxEvals → Idle L.cfg w q c →
      LoopReach L w → LoopReach (Setup.withBudget L M) w →
    ∃ w' c', loopSteps L S f w (List.replicate q.length [Ev.propose r, .accept 0, .complete 0]).flatten = some w' ∧
      loopSteps (Setup.withBudget L M) S f w (List.replicate q.length [Ev.propose r, .accept 0, .complete 0]).flatten = some w' ∧
      Idle L.cfg w' [] c' ∧ c'.length = c.length + q.length ∧ LoopReach L w' ∧ LoopReach (Setup.withBudget L M) w' := by
  induction q using List.reverseRecOn with
  | nil => intro w c _ hi l1 l2; exact ⟨w, c, rfl, rfl, hi, rfl, l1, l2⟩
  | append_singleton q x ih =>
    intro w c hm hi l1 l2
    rw [List.length_append, List.length_singleton] at hm
    obtain ⟨w1, e1, i1⟩ := hi.turn (S := S) (f := f) r (by omega)
    have hw : ¬ wantsPoints L.cfg w.st := by
      rintro ⟨_, _, _, h4, _⟩; rw [hi.queue] at h4; simp at h4
    have e1' := e1
    simp only [loopSteps, Option.bind_eq_some_iff] at e1
    obtain ⟨a, ea, b, eb, c1, ec, ed⟩ := e1
    simp only [Option.some.injEq] at ed
    subst ed
    obtain ⟨tb, fc, _⟩ := loopStep_budget hM (fun r he => by cases he) ec i1.term
    obtain ⟨ta, fb, _⟩ := loopStep_budget hM (fun r he => by cases he) eb tb
    obtain ⟨_, fa, _⟩ := loopStep_budget hM (fun r _ hc => absurd hc hw) ea ta
    have hns := hL.noSrbf
    have l1a := loopStep_reach hns l1 _ (fun r' he => by cases he; exact hr w l1) ea
    have l1b := loopStep_reach hns l1a _ (fun r' he => by cases he) eb
    have l1c := loopStep_reach hns l1b _ (fun r' he => by cases he) ec
    have hns' : (∃ t e, (Setup.withBudget L M).method = .ei t e) ∨ (∃ k t e, (Setup.withBudget L M).method = .lcb k t e) →
      (Setup.withBudget L M).cfg.srbf = none := hns
    have l2a := loopStep_reach hns' l2 _ (fun r' he => by cases he; exact hr w l1) fa
    have l2b := loopStep_reach hns' l2a _ (fun r' he => by cases he) fb
    have l2c := loopStep_reach hns' l2b _ (fun r' he => by cases he) fc
    obtain ⟨w2, c', e2, f2, i2, hl, m1, m2⟩ := ih (w := c1) (c := c ++ [(x, f x)]) (by
      rw [List.length_append, List.length_singleton]; omega) i1 l1c l2c
    have f1 : loopSteps (Setup.withBudget L M) S f w [.propose r, .accept 0, .complete 0] = some c1 := by
      simp only [loopSteps, fa, fb, fc, Option.bind_some]
    refine ⟨w2, c', ?_, ?_, i2, by rw [hl, List.length_append, List.length_append]; simp; omega, m1, m2⟩
    · rw [List.length_append, List.length_singleton, List.replicate_succ, List.flatten_cons, loopSteps_append, e1', Option.bind_some, e2]
    · rw [List.length_append, List.length_singleton, List.replicate_succ, List.flatten_cons, loopSteps_append, f1, Option.bind_some, f2]

/-- An adaptive proposal of SRBF or DYCORS in asynchronous mode. -/
theorem propose_adapt_async {P : Type} [DecidableEq P] {cfg : Config P} {o : Oracle P} {s : State P} {sc : SrbfCfg} {z : Srbf}
    {ws : List ℚ} {next : ℕ} (ha : cfg.asynchronous = true) (hsc : cfg.srbf = some sc) (hz : s.srbf = some z)
    (hws : getWeights sc.weights z.nextWeight 1 = some (ws, next)) (ht : s.terminate = false)
    (hb : s.numEvals + s.pendingEvals < cfg.maxEvals) (hc : s.converged = false) (hq : s.batchQueue = []) :
    s.proposeAction cfg o = some (.eval (o.pts 0) .adapt, { s with
      phase := .adaptive
      srbf := some { z with nextWeight := next }
      batchQueue := []
      log := s.log ++ [.generated [o.pts 0] ws]
      pendingEvals := s.pendingEvals + 1
      Xpend := s.Xpend ++ [o.pts 0] }) := by
  rw [proposeAction_going ht hb]
  simp only [hc, Bool.false_eq_true, if_false, hq, List.isEmpty_nil, if_true, State.adaptBranch, ha, State.generateEvals, hsc, hz,
    hws, State.afterGenerate, Bool.false_and, State.adaptProposal, popLast]
  simp [State.makeProposal]

/-- Draws at the centre of their ranges. -/
noncomputable def restRnd (D : List (Pt d)) (n : ℕ) : Rnd d where
  design := D
  m := 0
  draws := fun _ _ => 0
  u := fun _ _ => 0
  forced := fun _ => 0
  h := 0
  runs := List.replicate n ⟨fun _ _ => 0, []⟩

theorem restRnd_ok (ok : ProbOk L.prob) {D : List (Pt d)} (hD : DesignOf L.prob L.cfg.numPts D) {s : State (Pt d)}
    (hfeas : ∀ x ∈ s.curX, Feasible L.prob x) (hrad : ∀ z, s.srbf = some z → 0 < z.radius) :
    RndOk L s (restRnd D (wanted L.cfg)) := by
  refine ⟨hD, by simp [restRnd], ?_, fun _ _ => ⟨le_refl (0 : ℝ), one_pos⟩, fun k X fX z hX _ hz j i => ?_⟩
  · intro g hg q i
    rw [List.eq_of_mem_replicate hg]; simp
  · have hb := (hfeas (xbestOf X fX) (by rw [hX]; exact (List.mem_ofFn' _ _).mpr ⟨_, rfl⟩)).1 i
    have hr' : (0 : ℝ) < ((z.radius : ℚ) : ℝ) := by exact_mod_cast hrad z hz
    have hσ := scale_pos ok hr' (List.finRange d) i
    show DrawOk _ _ _ i 0
    exact ⟨div_nonpos_of_nonpos_of_nonneg (by linarith [hb.1]) hσ.le, div_nonneg (by linarith [hb.2]) hσ.le⟩

theorem gen_rest (hm : L.method = .dycors) (hd : 2 ≤ d) {s : State (Pt d)} {S : Surr d} {pred : Pt d → ℝ}
    (hS : S.mean (surrData s) = some pred) {x0 : Pt d} {xs : List (Pt d)} (hX : s.curX = x0 :: xs)
    (hlen : s.curFX.length = xs.length + 1) (hfX : s.fX ≠ []) {sc : SrbfCfg} {z : Srbf}
    (hsc : L.cfg.srbf = some sc) (hz : s.srbf = some z) {n : ℕ} {ws : List ℚ} {next : ℕ}
    (hws : getWeights sc.weights z.nextWeight n = some (ws, next)) (D : List (Pt d)) (k : ℕ) :
    ∃ g, gen L S s n (restRnd D k) = some (some g) ∧ g.length = n := by
  unfold gen
  rw [hX]
  simp only
  rw [dif_pos ⟨hlen, hfX⟩]
  simp only [genWith, hm, hsc, hz, hS, hws, Option.bind_some]
  obtain ⟨g, hg, hgl, _⟩ := dycors_one L.prob ⟨1, hd⟩ rfl pred (fun i => (x0 :: xs)[i]) (ws.map fun v => ((v : ℚ) : ℝ))
    (probOf (State.perturbProb L.cfg d s)) 0 s.Xpend ((z.radius : ℚ) : ℝ) 1e-3
    (xbestOf (fun i => (x0 :: xs)[i]) fun i => ((s.curFX[i]'(by rw [hlen]; exact i.2) : ℚ) : ℝ)) (fun _ => 0)
  refine ⟨g, ?_, by rw [hgl, List.length_map, getWeights_length hws]⟩
  exact congrArg (Option.map some) hg

/-- DYCORS in dimension at least 2, asynchronous: whatever the problem, the objective, the surrogate and the design, there are a
schedule and random outcomes after which the runs with two different budgets are in the same state, although neither budget is
used up, and then propose different points for the same random outcome. -/
theorem C121_dycors_refuted (hm : L.method = .dycors) (hd : 2 ≤ d) (ok : ProbOk L.prob) (ha : L.cfg.asynchronous = true)
    {sc : SrbfCfg} (hsc : L.cfg.srbf = some sc) (hw : sc.weights ≠ []) (hx : L.cfg.extras = []) {D : List (Pt d)}
    (hD : DesignOf L.prob L.cfg.numPts D) (hn : 0 < L.cfg.numPts) (hM : (L.cfg.numPts : ℤ) + 2 ≤ L.cfg.maxEvals) (M : ℤ)
    (hMM : L.cfg.maxEvals < M) (h8 : (L.cfg.numPts : ℤ) + 8 ≤ M) (S : Surr d) (hS : ∀ A, S.mean A ≠ none) :
    ∃ es r w w1 w2 x y, loopRun L S f D es = some w ∧ loopRun (Setup.withBudget L M) S f D es = some w ∧ LoopReach L w ∧
      LoopReach (Setup.withBudget L M) w ∧ w.st.numEvals + w.st.pendingEvals < L.cfg.maxEvals ∧ RndOk L w.st r ∧
      loopRun L S f D (es ++ [.propose r]) = some w1 ∧ loopRun (Setup.withBudget L M) S f D (es ++ [.propose r]) = some w2 ∧
      w1.props = w.props ++ [⟨x, .adapt⟩] ∧ w2.props = w.props ++ [⟨y, .adapt⟩] ∧ x ≠ y := by
  have hL : MethodOk L := by simp [MethodOk, hm, hsc]
  have hbs : BatchOk L.cfg := by
    simp [BatchOk, ha]
  have hx' : ∀ e ∈ L.cfg.extras, Feasible L.prob e.1 := by simp [hx]
  have hwant : wanted L.cfg = 1 := by simp [wanted, ha]
  have hrest : ∀ w, LoopReach L w → RndOk L w.st (restRnd D (wanted L.cfg)) := fun w h =>
    restRnd_ok ok hD (loop_curX_feasible ok hbs hx' h) (radius_pos hbs h.reach)
  obtain ⟨hDl, _, _⟩ := hD.spec ok
  obtain ⟨w1, c, e1, f1, i1, hc, l1, l1'⟩ := Idle.design (S := S) (f := f) hMM.le hL hrest (q := D) (c := []) (by
    simp [hDl]; omega) (idle_create hx hDl) (.create D hD) (.create (L := Setup.withBudget L M) D hD)
  have hns := hL.noSrbf
  simp only [List.length_nil, Nat.zero_add, hDl] at hc
  have hz1 := i1.srbf
  rw [hsc, Option.map_some] at hz1
  obtain ⟨ws, next, hws⟩ := getWeights_some (ws := sc.weights) (next := 0) 1 (List.length_pos_iff.mpr hw)
  have hXl : w1.st.X.length = L.cfg.numPts := by rw [i1.X]; simp [hx, known, hc]
  -- the first adaptive proposal is the same
  have hpp : State.perturbProb (Setup.withBudget L M).cfg d w1.st = State.perturbProb L.cfg d w1.st := by
    simp only [State.perturbProb, Setup.withBudget, hXl, i1.xpend, List.length_nil]
    rw [perturbProb_eq (by omega) hM, perturbProb_eq (by omega) (by omega)]
    simp
  obtain ⟨x0, xs, hX1⟩ : ∃ x0 xs, w1.st.curX = x0 :: xs := by
    cases h : w1.st.curX with
    | nil => rw [i1.curX] at h; have := congrArg List.length h; simp at this; rw [this] at hc; simp at hc; omega
    | cons x0 xs => exact ⟨x0, xs, rfl⟩
  have hlen1 : w1.st.curFX.length = xs.length + 1 := by
    have h1 := congrArg List.length hX1
    rw [i1.curX] at h1
    rw [i1.curFX]; simpa using h1
  have hfX1 : w1.st.fX ≠ [] := by
    rw [i1.fX]; intro h
    have := congrArg List.length h
    simp [hx, known] at this
    rw [this] at hc; simp at hc; omega
  obtain ⟨pred, hpred⟩ := Option.ne_none_iff_exists'.mp (hS (surrData w1.st))
  obtain ⟨g, hg, hgl⟩ := gen_rest hm hd hpred hX1 hlen1 hfX1 hsc hz1 hws D (wanted L.cfg)
  have hb1 : w1.st.numEvals + w1.st.pendingEvals < L.cfg.maxEvals := by rw [i1.num, i1.pend, hc]; omega
  have hw1 : wantsPoints L.cfg w1.st := ⟨i1.term, hb1, i1.conv, i1.queue, .inl ha⟩
  obtain ⟨w2, hw2⟩ : ∃ w2 : Sys (Pt d), w2 = { w1 with
      st := State.note { w1.st with
        phase := .adaptive
        srbf := some { status := 0, failcount := 0, radius := 2 / 10, fbest := none, recordQueue := [], nextWeight := next }
        batchQueue := []
        log := w1.st.log ++ [.generated [g.getD 0 L.prob.lb] ws]
        pendingEvals := w1.st.pendingEvals + 1
        Xpend := w1.st.Xpend ++ [g.getD 0 L.prob.lb] } (.proposed (g.getD 0 L.prob.lb) .adapt)
      props := w1.props ++ [⟨g.getD 0 L.prob.lb, .adapt⟩] } := ⟨_, rfl⟩
  have e2 : loopStep L S f w1 (.propose (restRnd D (wanted L.cfg))) = some w2 := by
    simp only [loopStep, answer, if_pos hw1, hwant]
    rw [hwant] at hg
    rw [hg, Option.bind_some]
    simp only [Sys.step]
    rw [propose_adapt_async ha hsc hz1 hws i1.term hb1 i1.conv i1.queue, hw2]
    rfl
  have t2 : w2.st.terminate = false := by rw [hw2]; exact i1.term
  obtain ⟨_, f2, _⟩ := loopStep_budget hMM.le (fun r _ _ => gen_budget_prob hpp) e2 t2
  have l2 := loopStep_reach hns l1 _ (fun r' he => by cases he; exact hrest w1 l1) e2
  have l2' : LoopReach (Setup.withBudget L M) w2 := loopStep_reach (L := Setup.withBudget L M) hns l1' _
    (fun r' he => by cases he; exact hrest w1 l1) f2
  -- the second one is not
  have hz2 : w2.st.srbf = some { status := 0, failcount := 0, radius := 2 / 10, fbest := none, recordQueue := [], nextWeight := next } := by
    rw [hw2]; rfl
  have hnext : next < sc.weights.length := by
    have := getWeights_spec (ws := sc.weights) (next := 0) (n := 1) (l := ws) (next' := next) 0 (by simp) hws
    rw [this.1]; exact Nat.mod_lt _ (List.length_pos_iff.mpr hw)
  obtain ⟨ws2, next2, hws2⟩ := getWeights_some (ws := sc.weights) (next := next) 1 hnext
  have hX2 : w2.st.curX = x0 :: xs := by rw [hw2]; exact hX1
  have hlen2 : w2.st.curFX.length = xs.length + 1 := by rw [hw2]; exact hlen1
  have hfX2 : w2.st.fX ≠ [] := by rw [hw2]; exact hfX1
  have hXX2 : w2.st.X.length = L.cfg.numPts := by rw [hw2]; exact hXl
  have hXp2 : w2.st.Xpend.length = 1 := by rw [hw2]; simp [State.note, i1.xpend]
  have hb2 : w2.st.numEvals + w2.st.pendingEvals < L.cfg.maxEvals := by
    rw [hw2]; simp only [State.note, i1.num, i1.pend, hc]; omega
  have hq2 : w2.st.batchQueue = [] := by rw [hw2]; rfl
  have hc2 : w2.st.converged = false := by rw [hw2]; exact i1.conv
  have hw2' : wantsPoints L.cfg w2.st := ⟨t2, hb2, hc2, hq2, .inl ha⟩
  obtain ⟨pred2, hpred2⟩ := Option.ne_none_iff_exists'.mp (hS (surrData w2.st))
  obtain ⟨r, hrd, hrok, g1, g2, hg1, hg2, hl1, hl2, hne⟩ := gen_differ hm hd ok hpred2 hX2 hlen2 hfX2
    (loop_curX_feasible ok hbs hx' l2) hsc hz2 (by norm_num) hws2 (getWeights_length hws2) (by omega) hM hMM (by
      rw [hXX2, hXp2]; push_cast; ring_nf; omega) (hrest w2 l2)
  obtain ⟨x, rfl⟩ := List.length_eq_one_iff.mp hl1
  obtain ⟨y, rfl⟩ := List.length_eq_one_iff.mp hl2
  have hwb : wantsPoints (Setup.withBudget L M).cfg w2.st := ⟨t2, hb2.trans hMM, hc2, hq2, .inl ha⟩
  have run : ∀ es w, loopRun L S f D es = some w → ∀ e, loopRun L S f D (es ++ [e]) = loopStep L S f w e := by
    intro es w h e
    unfold loopRun at h ⊢
    rw [loopSteps_append, h, Option.bind_some]
    simp [loopSteps]
  have run' : ∀ es w, loopRun (Setup.withBudget L M) S f D es = some w → ∀ e,
      loopRun (Setup.withBudget L M) S f D (es ++ [e]) = loopStep (Setup.withBudget L M) S f w e := by
    intro es w h e
    unfold loopRun at h ⊢
    rw [loopSteps_append, h, Option.bind_some]
    simp [loopSteps]
  have a2 := run _ _ e1 (.propose (restRnd D (wanted L.cfg)))
  rw [e2] at a2
  have a2' := run' _ _ f1 (.propose (restRnd D (wanted L.cfg)))
  rw [f2] at a2'
  have a3 : ∃ w3, loopStep L S f w2 (.propose r) = some w3 ∧ w3.props = w2.props ++ [⟨x, .adapt⟩] := by
    simp only [loopStep, answer, if_pos hw2', hwant, hg1, Option.bind_some, Sys.step]
    rw [propose_adapt_async ha hsc hz2 hws2 t2 hb2 hc2 hq2]
    exact ⟨_, rfl, rfl⟩
  have a3' : ∃ w3, loopStep (Setup.withBudget L M) S f w2 (.propose r) = some w3 ∧ w3.props = w2.props ++ [⟨y, .adapt⟩] := by
    have hwant' : wanted (Setup.withBudget L M).cfg = 1 := hwant
    simp only [loopStep, answer, if_pos hwb, hwant', hg2, Option.bind_some, Sys.step]
    rw [propose_adapt_async (cfg := (Setup.withBudget L M).cfg) ha hsc hz2 hws2 t2 (hb2.trans hMM) hc2 hq2]
    exact ⟨_, rfl, rfl⟩
  obtain ⟨w3, e3, p3⟩ := a3
  obtain ⟨w3', e3', p3'⟩ := a3'
  exact ⟨_, r, w2, w3, w3', x, y, a2, a2', l2, l2', hb2, hrok, by rw [run _ _ a2, e3], by rw [run' _ _ a2', e3'], p3, p3',
    hne x (by simp) y (by simp)⟩

/-! ## The hypotheses are met -/

theorem unit_span : ¬ OnHyperplane [(fun _ => 0 : Pt 1), fun _ => 1] := by
  rintro ⟨w, c, hw, h⟩
  have e0 := h (fun _ => 0) (by simp)
  have e1 := h (fun _ => 1) (by simp)
  simp at e0 e1
  apply hw
  funext i
  rw [Subsingleton.elim i 0, e1, ← e0]; rfl

theorem whole_demo (f : Pt 1 → Val) {m : Method} (hm : m = .srbf ∨ m = .dycors) {lu : ℕ → Surrogate.Mat → Surrogate.LuOut}
    {chol : ℕ → Surrogate.Mat → Option Surrogate.Mat} (h1 : Surrogate.LuSpec lu) (h2 : Surrogate.CholSpec chol) (M : ℕ) (k : ℕ) :
    ∃ (W : ObjSys 1) (b : Bool),
    objSerial (Setup.withBudget (wholeSetup m) M) (rbfObj (defaultPar unitProb 1e-6 id lu chol)) f (List.replicate k fun _ => restRnd [fun _ => 0, fun _ => 1] 1)
      (objCreate (Setup.withBudget (wholeSetup m) M) [fun _ => 0, fun _ => 1]) = some (W, b) ∧
      (completions W.sys.st.log).length = min k M ∧ (b = true ↔ M < k) := by
  have ok : ProbOk (wholeSetup m).prob := unitProb_ok
  have hs : Sane (Setup.withBudget (wholeSetup m) M).cfg := ⟨by norm_num [wholeSetup, loopCfg, Setup.withBudget], .inl rfl, fun sc h => by cases h; simp⟩
  have hL : MethodOk (Setup.withBudget (wholeSetup m) M) := by rcases hm with rfl | rfl <;> simp [MethodOk, wholeSetup, Setup.withBudget]
  obtain ⟨W, b, e, hc, _, hb⟩ := C118_rbf_serial (L := Setup.withBudget (wholeSetup m) M) (f := f) (eta := 1e-6) (trans := id) (M := M) ok hs rfl hL hm
    (by simp [wholeSetup, loopCfg, Setup.withBudget]) (by norm_num) h1 h2 rfl _ (design_unit _ rfl rfl) unit_span
    (List.replicate k fun _ => restRnd [fun _ => 0, fun _ => 1] 1) (fun r hr W hW => by
      rw [List.eq_of_mem_replicate hr]
      have hl := hW.loop hL
      exact ⟨restRnd_ok (L := Setup.withBudget (wholeSetup m) M) ok (design_unit _ rfl rfl)
        (loop_curX_feasible (L := Setup.withBudget (wholeSetup m) M) ok hs.batch (by simp [wholeSetup, loopCfg, Setup.withBudget]) hl)
        (radius_pos (L := Setup.withBudget (wholeSetup m) M) hs.batch hl.reach), unit_span⟩)
  rw [List.length_replicate] at hc hb
  exact ⟨W, b, e, hc, hb⟩

/-- Runs with budgets 10 and 20: 10 and 12 evaluations in twelve rounds, the first ten are the same. -/
example (f : Pt 1 → Val) : ∃ (K : Obj 1) (rs : List (State (Pt 1) → Rnd 1)) (W V : ObjSys 1),
    objSerial (Setup.withBudget (wholeSetup .srbf) 10) K f rs (objCreate (Setup.withBudget (wholeSetup .srbf) 10) [fun _ => 0, fun _ => 1]) = some (W, true) ∧
    objSerial (Setup.withBudget (wholeSetup .srbf) 20) K f rs (objCreate (Setup.withBudget (wholeSetup .srbf) 20) [fun _ => 0, fun _ => 1]) = some (V, false) ∧
    (completions W.sys.st.log).length = 10 ∧ (completions V.sys.st.log).length = 12 ∧ W.sys.st.fevals <+: V.sys.st.fevals := by
  obtain ⟨lu, chol, h1, h2, _⟩ := Surrogate.exists_library
  obtain ⟨W, b, e, hc, hb⟩ := whole_demo f (.inl rfl : Method.srbf = .srbf ∨ _) h1 h2 10 12
  obtain ⟨V, c, e', hc', hb'⟩ := whole_demo f (.inl rfl : Method.srbf = .srbf ∨ _) h1 h2 20 12
  have hb : b = true := hb.mpr (by norm_num)
  have hb' : c = false := by
    cases c with
    | false => rfl
    | true => have := hb'.mp rfl; omega
  subst hb; subst hb'
  exact ⟨_, _, W, V, e, e', hc, hc', (C121_serial_partial (L := Setup.withBudget (wholeSetup .srbf) 10) (fun _ => rfl) 20
    (show (10 : ℤ) ≤ 20 by norm_num) _ _ W V true false e e').1⟩

/-- DYCORS with two variables, one of them integer. -/
noncomputable def dycorsSetup : Setup 2 where
  prob := demoProb
  cfg := { asynchronous := true, batchSize := 1, maxEvals := 20, useRestarts := true, numPts := 4, extras := [],
           srbf := some { dim := 2, weights := [3 / 10, 1 / 2, 8 / 10, 95 / 100] } }
  method := .dycors

example (f : Pt 2 → Val) : ∃ es r w w1 w2 x y, loopRun dycorsSetup ⟨fun _ => some fun _ => 0, fun _ => none⟩ f
      (twoFactorialPoints 2 (some (demoProb.lb, demoProb.ub)) demoProb.intVar) es = some w ∧
    loopRun (Setup.withBudget dycorsSetup 30) ⟨fun _ => some fun _ => 0, fun _ => none⟩ f
      (twoFactorialPoints 2 (some (demoProb.lb, demoProb.ub)) demoProb.intVar) es = some w ∧
    loopRun dycorsSetup ⟨fun _ => some fun _ => 0, fun _ => none⟩ f
      (twoFactorialPoints 2 (some (demoProb.lb, demoProb.ub)) demoProb.intVar) (es ++ [.propose r]) = some w1 ∧
    loopRun (Setup.withBudget dycorsSetup 30) ⟨fun _ => some fun _ => 0, fun _ => none⟩ f
      (twoFactorialPoints 2 (some (demoProb.lb, demoProb.ub)) demoProb.intVar) (es ++ [.propose r]) = some w2 ∧
    w1.props = w.props ++ [⟨x, .adapt⟩] ∧ w2.props = w.props ++ [⟨y, .adapt⟩] ∧ x ≠ y := by
  obtain ⟨es, r, w, w1, w2, x, y, h1, h2, _, _, _, _, h3, h4, h5, h6, h7⟩ := C121_dycors_refuted (L := dycorsSetup) (f := f) rfl le_rfl demoProb_ok rfl
    (sc := { dim := 2, weights := [3 / 10, 1 / 2, 8 / 10, 95 / 100] }) rfl (by simp) rfl
    (D := twoFactorialPoints 2 (some (demoProb.lb, demoProb.ub)) demoProb.intVar) (.inr (.inr ⟨by simp [twoFactorialInit, dycorsSetup], rfl⟩))
    (by norm_num [dycorsSetup]) (by norm_num [dycorsSetup]) 30 (by norm_num [dycorsSetup]) (by norm_num [dycorsSetup])
    ⟨fun _ => some fun _ => 0, fun _ => none⟩ (by simp)
  exact ⟨es, r, w, w1, w2, x, y, h1, h2, h3, h4, h5, h6, h7⟩

end Verif.Props
