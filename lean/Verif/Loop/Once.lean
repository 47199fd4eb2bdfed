import Verif.Loop.Fresh
import Verif.Loop.Feasible

/-! # EI and LCB never evaluate a point twice -/

namespace Verif.Spec

open Verif.Strategy

variable {P : Type} [DecidableEq P]

/-- Events that do not queue new points. -/
def Plain (e : Event P) : Prop :=
  match e with
  | .start _ => False
  | .restart _ => False
  | .generated _ _ => False
  | _ => True

theorem FreshRun.concat {l : List (Event P)} {e : Event P} (h : FreshRun l)
    (he : match e with
      | .start q => q.Nodup
      | .restart _ => False
      | .generated q _ => q.Nodup ∧ ∀ x ∈ q, x ∉ openPoints l ∧ x ∉ (completions l).map Prod.fst
      | _ => True) : FreshRun (l ++ [e]) := by
  intro k e' hk
  rcases List.prefix_concat_iff.mp hk with heq | hk
  · obtain ⟨rfl, h2⟩ := List.append_inj' heq rfl
    simp only [List.cons.injEq, and_true] at h2
    subst h2
    exact he
  · exact h k e' hk

theorem FreshRun.plain {l m : List (Event P)} (h : FreshRun l) (hm : ∀ e ∈ m, Plain e) : FreshRun (l ++ m) := by
  induction m using List.reverseRecOn with
  | nil => simpa using h
  | append_singleton m e ih =>
    rw [← List.append_assoc]
    refine (ih fun e he => hm e (by simp [he])).concat ?_
    have := hm e (by simp)
    unfold Plain at this
    cases e <;> trivial

end Verif.Spec

namespace Verif.Strategy

open Verif.Spec

variable {P : Type} [DecidableEq P] {cfg : Config P}

/-- Events other than proposals only add plain entries to the log. -/
theorem step_plain {w w' : Sys P} {op : Op P} (hop : ∀ o, op ≠ .propose o) (hs : w.step cfg op = some w') :
    ∃ m, w'.st.log = w.st.log ++ m ∧ ∀ e ∈ m, Plain e := by
  cases op with
  | propose o => exact absurd rfl (hop o)
  | accept i =>
    simp only [Sys.step] at hs
    split at hs
    · simp at hs
    · simp only [Option.some.injEq] at hs; subst hs
      exact ⟨[_], rfl, by simp [Plain]⟩
  | reject i =>
    simp only [Sys.step] at hs
    split at hs
    · simp at hs
    · simp only [Option.some.injEq] at hs; subst hs
      split
      · exact ⟨[_], by simp only [onInitialRejected_eq, State.note]; rfl, by simp [Plain]⟩
      · exact ⟨[_], by simp only [onAdaptReject_eq, State.note]; rfl, by simp [Plain]⟩
  | complete i v =>
    simp only [Sys.step] at hs
    split at hs
    · simp at hs
    · simp only [Option.some.injEq] at hs; subst hs
      rename_i r hr
      have hb : ((w.st.note (.completed r.x r.kind v r.accAt)).recordCompleted r.x v r.evId).log =
          w.st.log ++ [.completed r.x r.kind v r.accAt] := by
        rw [recordCompleted_eq]; rfl
      simp only [State.onCompleted]
      split
      · exact ⟨[_], hb, by simp [Plain]⟩
      · split
        · unfold State.srbfCompleted
          split
          · split
            · unfold State.adjustStep
              simp only
              have h3 : ∀ (f : Val) (b : Bool), ∀ e ∈ [Event.completed r.x r.kind v r.accAt] ++ [.adjusted f] ++
                  (if b then [.stepChange] else []), Plain e := by
                intro f b e he
                simp only [List.mem_append, List.mem_singleton] at he
                rcases he with (rfl | rfl) | he
                · trivial
                · trivial
                · split at he
                  · rw [List.mem_singleton.mp he]; trivial
                  · simp at he
              split <;> split
              · exact ⟨_, by simp only [State.moveEvLast, hb]; simp only [List.append_assoc]; rfl, h3 _ true⟩
              · exact ⟨_, by simp only [hb]; simp only [List.append_assoc]; rfl, h3 _ false⟩
              · exact ⟨_, by simp only [State.moveEvLast, hb]; simp only [List.append_assoc]; rfl, h3 _ true⟩
              · exact ⟨_, by simp only [hb]; simp only [List.append_assoc]; rfl, h3 _ false⟩
            · exact ⟨[_], hb, by simp [Plain]⟩
          · exact ⟨[_], hb, by simp [Plain]⟩
        · exact ⟨[_], hb, by simp [Plain]⟩
  | abort i =>
    simp only [Sys.step] at hs
    split at hs
    · simp at hs
    · simp only [Option.some.injEq] at hs; subst hs
      exact ⟨[_], by simp only [onAborted_eq, State.note]; rfl, by simp [Plain]⟩
  | update i =>
    simp only [Sys.step] at hs
    split at hs
    · simp at hs
    · simp only [Option.some.injEq] at hs; subst hs
      exact ⟨[], by simp, by simp⟩

theorem afterGenerate_log (hur : cfg.useRestarts = false) {o : Oracle P} {s s' : State P} {a : Action P}
    (h : s.afterGenerate cfg o = some (a, s')) : s'.log = s.log := by
  unfold State.afterGenerate at h
  simp only [hur, Bool.and_false, Bool.false_eq_true, if_false] at h
  exact adaptProposal_log (by simpa using h)

/-- Without restarts, `propose_action` adds at most one batch of adaptive points. -/
theorem proposeAction_noRestart (hur : cfg.useRestarts = false) {o : Oracle P} {s s' : State P} {a : Action P}
    (h : s.proposeAction cfg o = some (a, s')) :
    s'.log = s.log ∨ (s.terminate = false ∧ s.numEvals + s.pendingEvals < cfg.maxEvals ∧ s.converged = false ∧
      s.batchQueue = [] ∧ (cfg.asynchronous = true ∨ s.pendingEvals = 0) ∧
      (o.giveUp = false ∨ (cfg.srbf ≠ none ∧ s.srbf ≠ none)) ∧
      ∃ ws, s'.log = s.log ++ [.generated ((List.range (if cfg.asynchronous then 1 else cfg.batchSize)).map o.pts) ws]) := by
  by_cases ht : s.terminate = true ∨ cfg.maxEvals ≤ s.numEvals + s.pendingEvals
  · rw [proposeAction_terminate ht] at h
    simp only [Option.some.injEq, Prod.mk.injEq] at h
    rw [← h.2]; exact .inl rfl
  · simp only [not_or, not_le] at ht
    rw [proposeAction_going (by simpa using ht.1) ht.2] at h
    have hgen : ∀ n s1, State.generateEvals cfg o n { s with phase := .adaptive } = some s1 →
        s1.log = s.log ∨ ((o.giveUp = false ∨ (cfg.srbf ≠ none ∧ s.srbf ≠ none)) ∧ ∃ ws, s1.log = s.log ++ [.generated ((List.range n).map o.pts) ws]) := by
      intro n s1 hg
      unfold State.generateEvals at hg
      split at hg
      · rename_i sc z hsc hz
        split at hg
        · simp at hg
        · simp only [Option.some.injEq] at hg
          subst hg
          refine .inr ⟨.inr ⟨by simp [hsc], ?_⟩, _, rfl⟩
          have hz : s.srbf = some z := hz
          simp [hz]
      · split at hg
        · simp only [Option.some.injEq] at hg
          subst hg; exact .inl rfl
        · rename_i hgu
          simp only [Option.some.injEq] at hg
          subst hg
          exact .inr ⟨.inl (by simpa using hgu), _, rfl⟩
    split at h
    · simp only [hur, Bool.false_eq_true, if_false, Option.some.injEq, Prod.mk.injEq] at h
      rw [← h.2]; exact .inl rfl
    · rename_i hcv
      have hcv : s.converged = false := by simpa using hcv
      split at h
      · rename_i hq
        have hq : s.batchQueue = [] := by simpa using hq
        unfold State.adaptBranch at h
        simp only at h
        split at h
        · rename_i has
          split at h
          · simp at h
          · rename_i s1 hg
            rcases hgen _ _ hg with h1 | ⟨h1, h2⟩
            · left; rw [afterGenerate_log hur h, h1]
            · right
              rw [afterGenerate_log hur h]
              exact ⟨by simpa using ht.1, ht.2, hcv, hq, .inl has, h1, by simpa [has] using h2⟩
        · rename_i has
          split at h
          · rename_i hp
            split at h
            · simp at h
            · rename_i s1 hg
              rcases hgen _ _ hg with h1 | ⟨h1, h2⟩
              · left; rw [afterGenerate_log hur h, h1]
              · right
                rw [afterGenerate_log hur h]
                exact ⟨by simpa using ht.1, ht.2, hcv, hq, .inr (by simpa using hp), h1, by simpa [has] using h2⟩
          · left; have := afterGenerate_log hur h; exact this
      · left
        split at h
        · exact initProposal_log h
        · exact adaptProposal_log (by simpa using h)

theorem step_propose {w w' : Sys P} {o : Oracle P} (hs : w.step cfg (.propose o) = some w') :
    ∃ a s', w.st.proposeAction cfg o = some (a, s') ∧ ∃ m, w'.st.log = s'.log ++ m ∧ ∀ e ∈ m, Plain e := by
  simp only [Sys.step] at hs
  split at hs
  · simp at hs
  all_goals
    rename_i he
    simp only [Option.some.injEq] at hs; subst hs
    refine ⟨_, _, he, ?_⟩
    first | exact ⟨[_], rfl, by simp [Plain]⟩ | exact ⟨[], by simp, by simp⟩

theorem lastRestart_zero {l : List (Event P)} (h : FreshRun l) : lastRestart l = 0 := by
  induction l using List.reverseRecOn with
  | nil => rfl
  | append_singleton l e ih =>
    rw [lastRestart_concat, ih h.of_append]
    have := h l e (List.prefix_refl _)
    cases e <;> first | rfl | exact absurd this id

theorem currentRun_all {l : List (Event P)} (h : FreshRun l) : currentRun l = completions l := by
  unfold currentRun completions
  rw [lastRestart_zero h]
  simp

end Verif.Strategy

namespace Verif.Loop

open Verif.Num Verif.Utils Verif.Cand Verif.Design Verif.Strategy Verif.Spec Verif.Props

variable {d : ℕ} {L : Setup d}

/-- EI with positive tolerances, or LCB with a positive distance tolerance. -/
def Separating (m : Method) : Prop :=
  match m with
  | .ei (some tol) dtol => 0 < tol ∧ 0 < dtol
  | .lcb _ _ dtol => 0 < dtol
  | _ => False

theorem GenOf.separated (ok : ProbOk L.prob) (hm : Separating L.method) {s : State (Pt d)} {n : ℕ} {l : List (Pt d)}
    (h : GenOf L s n (some l)) : ∃ δ > 0, l.length = n ∧ (∀ x ∈ l, Separated δ x (s.curX ++ s.Xpend)) ∧
      l.Pairwise fun x y => δ ≤ eucl x y := by
  obtain ⟨k, X, fX, h1, h2, h3⟩ := h
  have hc : s.curX = X 0 :: List.ofFn fun i : Fin k => X i.succ := by rw [h1, List.ofFn_succ]
  revert hm h3
  cases L.method with
  | srbf => exact fun hm => absurd hm id
  | dycors => exact fun hm => absurd hm id
  | ei tol dtol =>
    rintro hm ⟨_, h, mean, std, runs, hn, hu, hg⟩
    cases tol with
    | none => exact absurd hm id
    | some tol =>
      obtain ⟨a, _, b, c, _⟩ := C30_separated L.prob ok mean std _ (X 0) _ s.Xpend dtol tol hm.2 hm.1 runs
        (fun r hr q i => hu r hr q i) l hg.symm
      exact ⟨dtol, hm.2, a.trans hn, by rw [hc]; exact b, c⟩
  | lcb kappa tol dtol =>
    rintro hm ⟨_, h, mean, std, runs, hn, hu, hg⟩
    obtain ⟨a, _, b, c, _⟩ := C31_separated L.prob ok mean std kappa (X 0) _ s.Xpend dtol _ hm runs
        (fun r hr q i => hu r hr q i) l hg.symm
    exact ⟨dtol, hm, a.trans hn, by rw [hc]; exact b, c⟩

theorem GenOf.srbf (hm : Separating L.method) {s : State (Pt d)} {n : ℕ} {g : Option (List (Pt d))}
    (h : GenOf L s n g) : L.cfg.srbf = none := by
  obtain ⟨k, X, fX, h1, h2, h3⟩ := h
  revert hm h3
  cases L.method with
  | srbf => exact fun hm => absurd hm id
  | dycors => exact fun hm => absurd hm id
  | ei tol dtol => exact fun _ h => h.1
  | lcb kappa tol dtol => exact fun _ h => h.1

theorem map_getD_range {l : List (Pt d)} {n : ℕ} (h : l.length = n) (x : Pt d) :
    (List.range n).map (fun i => l.getD i x) = l := by
  subst h
  apply List.ext_getElem
  · simp
  · intro i h1 h2
    simp [List.getElem?_eq_getElem h2]

/-- Every batch of a run of EI/LCB without restarts consists of new points. -/
theorem LoopReach.fresh (ok : ProbOk L.prob) (hm : Separating L.method) (hur : L.cfg.useRestarts = false)
    (hx : ∀ e ∈ L.cfg.extras, e.2 ≠ none) {w : Sys (Pt d)} (h : LoopReach L w) : FreshRun w.st.log := by
  induction h with
  | create D hD =>
    obtain ⟨h1, h2, _⟩ := hD.spec ok
    have : (Sys.create L.cfg (oracleOf L D none)).st.log = [] ++ [.start D] := by
      simp only [Sys.create, create_eq, List.nil_append]
      have he : unknownExtras L.cfg = [] := by
        unfold unknownExtras
        rw [List.filterMap_eq_nil_iff]
        intro e he
        cases hv : e.2 with
        | none => exact absurd hv (hx e he)
        | some v => simp
      rw [he, List.append_nil]
      exact congrArg (fun l => [Event.start l]) (map_getD_range h1 _)
    rw [this]
    exact FreshRun.concat (fun k e hk => by simp at hk) h2
  | @propose w w' D g hw hD hg hg' hs ih =>
    obtain ⟨a, s', h1, m, h2, h3⟩ := step_propose hs
    rw [h2]
    refine FreshRun.plain ?_ h3
    rcases proposeAction_noRestart hur h1 with h4 | ⟨c1, c2, c3, c4, c5, c6, ws, h4⟩
    · rw [h4]; exact ih
    · rw [h4]
      have hwp : wantsPoints L.cfg w.st := ⟨c1, c2, c3, c4, c5⟩
      have hgen := hg hwp
      have hsr := hgen.srbf hm
      cases g with
      | none => simp [oracleOf, hsr] at c6
      | some l =>
        obtain ⟨δ, hδ, e1, e2, e3⟩ := hgen.separated ok hm
        have hpts : (List.range (if L.cfg.asynchronous then 1 else L.cfg.batchSize)).map (oracleOf L D (some l)).pts = l :=
          map_getD_range e1 _
        rw [hpts]
        refine FreshRun.concat ih ⟨?_, fun x hx' => ⟨?_, ?_⟩⟩
        · refine e3.imp fun {x y} hxy heq => ?_
          rw [heq, eucl_self] at hxy; linarith
        · intro ho
          have hperm := (C05_xpend_partial hw.reach).2 (hw.reach.once ih).opens
          have h6 : x ∈ w.st.Xpend := hperm.mem_iff.mpr (hw.reach.book.opn.mem_iff.mp ho)
          have := e2 x hx' x (List.mem_append_right _ h6)
          rw [eucl_self] at this; linarith
        · intro hc
          obtain ⟨cur, f1, _, _, _, f2⟩ := C14_complete_partial hw.reach
          have f3 := f2 (.inr (.inl hsr))
          rw [currentRun_all ih] at f3
          rw [← f3, ← f1] at hc
          have := e2 x hx' x (List.mem_append_left _ hc)
          rw [eucl_self] at this; linarith
  | other op _ hop hs ih =>
    obtain ⟨m, h1, h2⟩ := step_plain hop hs
    rw [h1]; exact ih.plain h2
  | @resume w _ ih =>
    have : w.resumed.st.log = w.st.log ++ [.crashed w.inflight, .resumed (match w.st.phase with
      | .initial => w.st.Xpend
      | .adaptive => [])] := by
      simp only [Sys.resumed, State.resume, State.note, List.append_assoc, List.cons_append, List.nil_append]
      cases w.st.phase <;> rfl
    rw [this]
    refine ih.plain fun e he => ?_
    simp only [List.mem_cons, List.not_mem_nil, or_false] at he
    rcases he with rfl | rfl <;> trivial

end Verif.Loop
