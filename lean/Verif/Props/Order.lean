import Verif.Loop.Sync
import Verif.Props.Whole
import Verif.Props.WholeGP
import Verif.Props.GPOrder
import Verif.Props.Reproduce
import Verif.Props.TooFew
import Verif.Props.Budget

/-! # Property C122: in synchronous mode the proposed points do not depend on the workers -/

namespace Verif.Props

open Verif.Num Verif.Utils Verif.Cand Verif.Design Verif.Strategy Verif.Spec Verif.Loop

variable {d : ℕ} {L : Setup d} {S : Surr d} {f : Pt d → Val} {D : List (Pt d)} {rs : ℕ → Rnd d}
  {Q : State (Pt d) → Rnd d → Prop}

theorem _root_.Verif.Loop.SyncRun.reach {w : Sys (Pt d)} (h : SyncRun Q L S f D rs w) : Reach L.cfg w := by
  induction h with
  | create => exact .create _
  | ask S' _ _ _ hs ih =>
    simp only [loopStep, Option.bind_eq_some_iff] at hs
    obtain ⟨g, _, hs⟩ := hs
    exact .step _ ih hs
  | accept i _ hs ih => exact .step (.accept i) ih hs
  | complete i _ hs ih =>
    simp only [loopStep, Option.bind_eq_some_iff] at hs
    obtain ⟨r, _, hs⟩ := hs
    exact .step _ ih hs

/-- What happened to the proposed points: each is completed, with the value of the objective, or in flight; nothing is lost. -/
structure Ledger (f : Pt d → Val) (w : Sys (Pt d)) : Prop where
  perm : (proposals w.st.log).Perm ((completions w.st.log).map Prod.fst ++ w.inflight)
  value : ∀ q ∈ completions w.st.log, q.2 = f q.1
  loss : ∀ e ∈ w.st.log, isLoss e = false

/-- Events that are neither proposals nor completions nor losses. -/
def Quiet (m : List (Event (Pt d))) : Prop := proposals m = [] ∧ completions m = [] ∧ ∀ e ∈ m, isLoss e = false

theorem quiet_append {m m' : List (Event (Pt d))} (h : Quiet m) (h' : Quiet m') : Quiet (m ++ m') := by
  refine ⟨by rw [proposals_append, h.1, h'.1]; rfl, by rw [completions_append, h.2.1, h'.2.1]; rfl, ?_⟩
  intro e he
  rcases List.mem_append.mp he with he | he
  · exact h.2.2 e he
  · exact h'.2.2 e he

theorem quiet_generated {m : List (Event (Pt d))} (h : OnlyGenerated m) : Quiet m := by
  induction m with
  | nil => exact ⟨rfl, rfl, by simp⟩
  | cons e m ih =>
    have hm := ih fun e' he' => h e' (by simp [he'])
    obtain ⟨q, ws, rfl⟩ := h e (by simp)
    exact quiet_append (m := [_]) ⟨rfl, rfl, by simp [isLoss]⟩ hm

theorem quiet_adjusted {m : List (Event (Pt d))} (h : ∀ e ∈ m, (∃ v, e = Event.adjusted v) ∨ e = .stepChange) : Quiet m := by
  induction m with
  | nil => exact ⟨rfl, rfl, by simp⟩
  | cons e m ih =>
    have hm := ih fun e' he' => h e' (by simp [he'])
    rcases h e (by simp) with ⟨v, rfl⟩ | rfl
    · exact quiet_append (m := [_]) ⟨rfl, rfl, by simp [isLoss]⟩ hm
    · exact quiet_append (m := [_]) ⟨rfl, rfl, by simp [isLoss]⟩ hm

theorem Ledger.same {w w' : Sys (Pt d)} (h : Ledger f w) {m : List (Event (Pt d))} (hl : w'.st.log = w.st.log ++ m) (hm : Quiet m)
    (hi : w.inflight.Perm w'.inflight) : Ledger f w' := by
  refine ⟨?_, ?_, ?_⟩
  · rw [hl, proposals_append, completions_append, hm.1, hm.2.1, List.append_nil, List.append_nil]
    exact h.perm.trans (hi.append_left _)
  · rw [hl, completions_append, hm.2.1, List.append_nil]; exact h.value
  · rw [hl]
    intro e he
    rcases List.mem_append.mp he with he | he
    · exact h.loss e he
    · exact hm.2.2 e he

theorem _root_.Verif.Loop.SyncRun.ledger {w : Sys (Pt d)} (h : SyncRun Q L S f D rs w) : Ledger f w := by
  induction h with
  | create => exact ⟨by simp [Sys.create, create_eq, proposals, completions, Sys.inflight],
      by simp [Sys.create, create_eq, completions], by simp [Sys.create, create_eq, isLoss]⟩
  | @ask w w' S' _ _ _ hs ih =>
    simp only [loopStep, Option.bind_eq_some_iff] at hs
    obtain ⟨g, _, hs⟩ := hs
    simp only [Sys.step] at hs
    cases hp : w.st.proposeAction L.cfg (oracleOf L (rs (proposals w.st.log).length).design g) with
    | none => rw [hp] at hs; cases hs
    | some as =>
      obtain ⟨a, s⟩ := as
      have hlog : ∃ m, s.log = w.st.log ++ m ∧ Quiet m := by
        cases proposeAction_kept hp with
        | same m hl hm => exact ⟨m, hl, quiet_generated hm⟩
        | restart m q _ hl hm =>
          exact ⟨m ++ [.restart q], by rw [hl]; simp, quiet_append (quiet_generated hm) ⟨rfl, rfl, by simp [isLoss]⟩⟩
      obtain ⟨m, hl, hm⟩ := hlog
      rw [hp] at hs
      cases a with
      | nothing =>
        simp only [Option.some.injEq] at hs
        rw [← hs]
        exact ih.same (w' := { w with st := s }) hl hm .rfl
      | terminate =>
        simp only [Option.some.injEq] at hs
        rw [← hs]
        refine ih.same (w' := { w with st := s.note .terminated }) (m := m ++ [.terminated]) ?_ (quiet_append hm ⟨rfl, rfl, by simp [isLoss]⟩) .rfl
        show s.log ++ _ = _
        rw [hl]; simp
      | eval x k =>
        simp only [Option.some.injEq] at hs
        rw [← hs]
        have h1 := ih.same (w' := { w with st := s }) hl hm .rfl
        refine ⟨?_, ?_, ?_⟩
        · show (proposals (s.log ++ [Event.proposed x k])).Perm ((completions (s.log ++ [Event.proposed x k])).map Prod.fst ++
            ((w.props ++ [({ x := x, kind := k } : Proposal (Pt d))]).map Proposal.x ++ w.recs.map Rec.x))
          rw [proposals_append, completions_append]
          simp only [proposals, completions, List.filterMap_cons, List.filterMap_nil, List.append_nil, List.map_append, List.map_cons,
            List.map_nil, List.append_assoc, List.singleton_append]
          have e := h1.perm
          simp only [Sys.inflight] at e
          refine (List.perm_append_singleton x _).trans ((e.cons x).trans ?_)
          refine List.perm_middle.symm.trans (List.Perm.append_left _ ?_)
          exact List.perm_middle.symm
        · intro q hq
          have hq : q ∈ completions (s.log ++ [Event.proposed x k]) := hq
          rw [completions_append] at hq
          exact h1.value q (by simpa [completions] using hq)
        · intro e he
          have he : e ∈ s.log ++ [Event.proposed x k] := he
          rcases List.mem_append.mp he with he | he
          · exact h1.loss e he
          · rw [List.mem_singleton] at he; rw [he]; rfl
  | @accept w w' i _ hs ih =>
    simp only [loopStep, Sys.step] at hs
    cases hi : w.props[i]? with
    | none => rw [hi] at hs; cases hs
    | some p =>
      rw [hi] at hs
      simp only [Option.some.injEq] at hs
      rw [← hs]
      obtain ⟨hlt, hpe⟩ := List.getElem?_eq_some_iff.mp hi
      have hperm : w.props.Perm (p :: w.props.eraseIdx i) := by
        have := List.getElem_cons_eraseIdx_perm hlt
        rw [hpe] at this
        exact this.symm
      refine ih.same (m := [Event.accepted p.x p.kind w.st.evNext]) rfl ⟨rfl, rfl, by simp [isLoss]⟩ ?_
      simp only [Sys.inflight, List.map_append, List.map_cons, List.map_nil]
      refine ((hperm.map Proposal.x).append_right _).trans ?_
      simp only [List.map_cons, List.cons_append]
      rw [← List.append_assoc]
      exact (List.perm_append_singleton _ _).symm
  | @complete w w' i _ hs ih =>
    simp only [loopStep, Sys.step] at hs
    cases hi : w.recs[i]? with
    | none => rw [hi] at hs; cases hs
    | some r =>
      rw [hi] at hs
      simp only [Option.bind_some, Option.some.injEq] at hs
      obtain ⟨hlt, hre⟩ := List.getElem?_eq_some_iff.mp hi
      have hperm : w.recs.Perm (r :: w.recs.eraseIdx i) := by
        have := List.getElem_cons_eraseIdx_perm hlt
        rw [hre] at this
        exact this.symm
      obtain ⟨_, _, _, m, hm, hq⟩ := onCompleted_kept (cfg := L.cfg) (w.st.note (.completed r.x r.kind (f r.x) r.accAt)) r.x r.kind (f r.x) r.evId
      have hq := quiet_adjusted hq
      obtain ⟨ev, hev⟩ : ∃ ev, ev = Event.completed r.x r.kind (f r.x) r.accAt := ⟨_, rfl⟩
      rw [← hev] at hm
      have hlog : w'.st.log = (w.st.log ++ [ev]) ++ m := by rw [← hs, ← hev]; exact hm
      have hin : w.inflight.Perm (r.x :: w'.inflight) := by
        rw [← hs]
        exact ((hperm.map Rec.x).append_left _).trans List.perm_middle
      have hc1 : completions w'.st.log = completions w.st.log ++ [(r.x, f r.x)] := by
        rw [hlog, completions_append, completions_append, hq.2.1, hev]; simp [completions]
      have hp1 : proposals w'.st.log = proposals w.st.log := by
        rw [hlog, proposals_append, proposals_append, hq.1, hev]; simp [proposals]
      refine ⟨?_, ?_, ?_⟩
      · rw [hc1, hp1, List.map_append, List.append_assoc]
        exact ih.perm.trans (hin.append_left _)
      · intro q hq'
        rw [hc1] at hq'
        rcases List.mem_append.mp hq' with hq' | hq'
        · exact ih.value q hq'
        · rw [List.mem_singleton] at hq'; rw [hq']
      · rw [hlog]
        intro e he
        rcases List.mem_append.mp he with he | he
        · rcases List.mem_append.mp he with he | he
          · exact ih.loss e he
          · rw [List.mem_singleton] at he; rw [he, hev]; rfl
        · exact hq.2.2 e he

/-- Synchronous mode, nothing rejected, killed or lost, the same design, random outcomes and objective: two runs propose the same
points in the same order, whatever the number of workers and the order in which proposals are accepted and evaluations finish;
only how far they are may differ.  For SRBF and DYCORS it is assumed that the best value of the current run is attained at one
point only, whenever points are generated (otherwise it is false: `C122_ties_refuted`).  The surrogate does not depend on the order
of its data. -/
theorem sync_order (hS : OrderFreeSurr S) (ha : L.cfg.asynchronous = false) (hs : Sane L.cfg)
    (hub : ∀ s r, Q s r → NoTie L s)
    {w w' : Sys (Pt d)} (h : SyncRun Q L S f D rs w) (h' : SyncRun Q L S f D rs w') :
    proposals w.st.log <+: proposals w'.st.log ∨ proposals w'.st.log <+: proposals w.st.log :=
  syncRun_prefix hS ha hs.design (by rcases hs.batch with h | h; · rw [ha] at h; cases h
                                     · exact h) hub h h'

/-- The same for what was found: if both runs have proposed equally many points and nothing is running, the same evaluations
were made, in possibly different order. -/
theorem sync_results (hS : OrderFreeSurr S) (ha : L.cfg.asynchronous = false) (hs : Sane L.cfg)
    (hub : ∀ s r, Q s r → NoTie L s)
    {w w' : Sys (Pt d)} (h : SyncRun Q L S f D rs w) (h' : SyncRun Q L S f D rs w') (hi : w.inflight = []) (hi' : w'.inflight = [])
    (hn : (completions w.st.log).length = (completions w'.st.log).length) :
    (completions w.st.log).Perm (completions w'.st.log) := by
  have e := h.ledger
  have e' := h'.ledger
  have p := e.perm
  have p' := e'.perm
  rw [hi, List.append_nil] at p
  rw [hi', List.append_nil] at p'
  have hlen : (proposals w.st.log).length = (proposals w'.st.log).length := by
    rw [p.length_eq, p'.length_eq, List.length_map, List.length_map, hn]
  have heq : proposals w.st.log = proposals w'.st.log := by
    rcases sync_order hS ha hs hub h h' with h | h
    · exact h.eq_of_length hlen
    · exact (h.eq_of_length hlen.symm).symm
  have key : ∀ {w : Sys (Pt d)}, Ledger f w → completions w.st.log = ((completions w.st.log).map Prod.fst).map fun x => (x, f x) := by
    intro w e
    rw [List.map_map]
    conv_lhs => rw [← List.map_id (completions w.st.log)]
    refine List.map_congr_left fun q hq => ?_
    simp [← e.value q hq]
  rw [key e, key e']
  refine List.Perm.map _ (p.symm.trans ?_)
  rw [heq]; exact p'

/-- At the end: if both runs propose to terminate, they made the same `max_evals` evaluations. -/
theorem sync_end (hS : OrderFreeSurr S) (ha : L.cfg.asynchronous = false) (hs : Sane L.cfg) (hm : 0 ≤ L.cfg.maxEvals)
    (hub : ∀ s r, Q s r → NoTie L s)
    {w w' : Sys (Pt d)} (h : SyncRun Q L S f D rs w) (h' : SyncRun Q L S f D rs w') {o o' : Oracle (Pt d)} {s s' : State (Pt d)}
    (ht : w.st.proposeAction L.cfg o = some (.terminate, s)) (ht' : w'.st.proposeAction L.cfg o' = some (.terminate, s')) :
    ((completions w.st.log).length : ℤ) = L.cfg.maxEvals ∧ (completions w.st.log).Perm (completions w'.st.log) := by
  have key : ∀ {w : Sys (Pt d)} {o : Oracle (Pt d)} {s : State (Pt d)}, SyncRun Q L S f D rs w →
      w.st.proposeAction L.cfg o = some (.terminate, s) → ((completions w.st.log).length : ℤ) = L.cfg.maxEvals := by
    intro w o s h ht
    refine C09_exact_partial (SyncRun.reach h) hm ht fun l m hlm _ e he => (SyncRun.ledger h).loss e ?_
    rw [hlm]; exact List.mem_append_right _ he
  refine ⟨key h ht, sync_results hS ha hs hub h h' (C08_terminate_only_if (SyncRun.reach h) ht).1
    (C08_terminate_only_if (SyncRun.reach h') ht').1 ?_⟩
  have h1 := key h ht
  have h2 := key h' ht'
  omega

/-! ## With the surrogate object -/

/-- States of the program with the surrogate object `K` in which nothing is rejected, killed or lost: the design `D`, then
proposals, acceptances and completions with the values of `f` in any order.  `rs n` are the random outcomes of a proposal after `n`
others. -/
inductive SyncObj (Q : State (Pt d) → Rnd d → Prop) (L : Setup d) (K : Obj d) (f : Pt d → Val) (D : List (Pt d)) (rs : ℕ → Rnd d) :
    ObjSys d → Prop
  | create : SyncObj Q L K f D rs (objCreate L D)
  | ask {W W' : ObjSys d} : SyncObj Q L K f D rs W → Q W.sys.st (rs (proposals W.sys.st.log).length) →
      objStep L K f W (.propose (rs (proposals W.sys.st.log).length)) = some W' → SyncObj Q L K f D rs W'
  | accept {W W' : ObjSys d} (i : ℕ) : SyncObj Q L K f D rs W → objStep L K f W (.accept i) = some W' → SyncObj Q L K f D rs W'
  | complete {W W' : ObjSys d} (i : ℕ) : SyncObj Q L K f D rs W → objStep L K f W (.complete i) = some W' → SyncObj Q L K f D rs W'

/-- The random outcomes are possible ones, a new design is not `Bad`, and for SRBF and DYCORS the best value of the current run
is attained at one point only. -/
def Fair (Bad : List (Pt d) → Prop) (L : Setup d) (s : State (Pt d)) (r : Rnd d) : Prop :=
  RndOk L s r ∧ ¬ Bad r.design ∧ NoTie L s

/-- What the object predicts depends only on the set of its data, as long as they are not `Bad`, and were not at an earlier
prediction. -/
def Steady (Bad : List (Pt d) → Prop) (K : Obj d) : Prop :=
  ∀ (c c' : List (Surrogate.Op d)) (A B : List (Pt d × ℝ)), NoMultiColumn c → NoMultiColumn c' → (dataOf d c).Perm (dataOf d c') →
    dataOf d c ≠ [] → ¬ Bad ((dataOf d c).map Prod.fst) → ¬ Failed Bad c → ¬ Failed Bad c' →
    (K c).mean A = (K c').mean B ∧ (K c).std A = (K c').std B

open Classical in
/-- The predictions of a new object that gets the data. -/
noncomputable def freshSurr (Bad : List (Pt d) → Prop) (K : Obj d) : Surr d where
  mean := fun A => if A ≠ [] ∧ ¬ Bad (A.map Prod.fst) then (K (scratch A)).mean A else none
  std := fun A => if A ≠ [] ∧ ¬ Bad (A.map Prod.fst) then (K (scratch A)).std A else none

variable {K : Obj d} {Bad : List (Pt d) → Prop} [Hereditary Bad]

theorem scratch_notFailed (A : List (Pt d × ℝ)) : ¬ Failed Bad (scratch A) := by
  rintro ⟨o₁, x, o₂, he, _⟩
  have : Surrogate.Op.predict x ∈ scratch A := by rw [he]; simp
  simp [scratch] at this

theorem freshSurr_orderFree (hK : Steady Bad K) : OrderFreeSurr (freshSurr Bad K) := by
  intro A B hAB
  have h1 : (A ≠ [] ∧ ¬ Bad (A.map Prod.fst)) ↔ (B ≠ [] ∧ ¬ Bad (B.map Prod.fst)) := by
    refine and_congr (not_congr ?_) (not_congr ⟨fun h => ?_, fun h => ?_⟩)
    · constructor <;> rintro rfl
      · exact hAB.nil_eq.symm
      · exact hAB.symm.nil_eq.symm
    · exact Hereditary.mono (hAB.symm.map _).subset h
    · exact Hereditary.mono (hAB.map _).subset h
  simp only [freshSurr]
  by_cases h : A ≠ [] ∧ ¬ Bad (A.map Prod.fst)
  · rw [if_pos h, if_pos (h1.mp h), if_pos h, if_pos (h1.mp h)]
    refine hK _ _ _ _ (scratch_ok A) (scratch_ok B) ?_ ?_ ?_ (scratch_notFailed A) (scratch_notFailed B)
    · rw [scratch_data, scratch_data]; exact hAB
    · rw [scratch_data]; exact h.1
    · rw [scratch_data]; exact h.2
  · rw [if_neg h, if_neg (mt h1.mpr h), if_neg h, if_neg (mt h1.mpr h)]
    exact ⟨rfl, rfl⟩

theorem thisRun_subset (l : List (Event (Pt d))) : thisRun l ⊆ l := by
  induction l using List.reverseRecOn with
  | nil => simp [thisRun]
  | append_singleton l e ih =>
    rw [thisRun_concat]
    intro a ha
    cases e <;> simp only [thisRunStep, List.mem_append, List.mem_singleton] at ha ⊢ <;>
      first
        | exact .inr ha
        | exact ha.imp_left fun h => ih h

theorem SyncObj.reach (hL : MethodOk L) (hD : DesignOf L.prob L.cfg.numPts D) (hB : ¬ Bad D) (hQ : ∀ s r, Q s r → RndOk L s r ∧ ¬ Bad r.design)
    {W : ObjSys d} (h : SyncObj Q L K f D rs W) : ObjReach Bad L K f W := by
  induction h with
  | create => exact .create D hD hB
  | ask _ hq hs ih => exact .step _ ih (fun r he => by cases he; exact hQ _ _ hq) hs
  | accept i _ hs ih => exact .step _ ih (fun r he => by cases he) hs
  | complete i _ hs ih => exact .step _ ih (fun r he => by cases he) hs

theorem SyncObj.run (ok : ProbOk L.prob) (hs : Sane L.cfg) (hL : MethodOk L) (ha : L.cfg.asynchronous = false) (hK : Steady Bad K)
    (hD : DesignOf L.prob L.cfg.numPts D) (hB : ¬ Bad D) (hQ : ∀ s r, Q s r → RndOk L s r ∧ ¬ Bad r.design)
    {W : ObjSys d} (h : SyncObj Q L K f D rs W) : SyncRun Q L (freshSurr Bad K) f D rs W.sys := by
  induction h with
  | create => exact .create
  | @ask W W' h hq hstep ih =>
    have hre := h.reach hL hD hB hQ
    have hi := hre.inv ok
    have hloss := ih.ledger.loss
    have hsub : ∀ e ∈ thisRun W.sys.st.log, e ∈ W.sys.st.log := fun e he => thisRun_subset _ he
    have hd : droppedBy false (thisRun W.sys.st.log) = [] := by
      refine List.filterMap_eq_nil_iff.mpr fun e he => ?_
      have := hloss e (hsub e he)
      cases e <;> simp_all [isLoss]
    have hc : crashedBy (thisRun W.sys.st.log) = [] := by
      refine List.flatMap_eq_nil_iff.mpr fun e he => ?_
      have := hloss e (hsub e he)
      cases e <;> simp_all [isLoss]
    have hff := sync_noFail hL ok ha hre hd hc
    simp only [objStep, Option.map_eq_some_iff] at hstep
    obtain ⟨w', hw', rfl⟩ := hstep
    refine .ask (K W.calls) ih hq (fun hw => ?_) hw'
    obtain ⟨h1, h2⟩ := covered ok hs hre (sync_asked ha (hre.loop hL).reach hw hd hc)
    have hcur := data_curX hL ok hre
    have hne : dataOf d W.calls ≠ [] := by
      intro h0
      rw [h0] at hcur
      exact h2 (List.subset_nil.mp hcur)
    have hnb : ¬ Bad ((dataOf d W.calls).map Prod.fst) := fun hh => h1 (Hereditary.mono hcur hh)
    have key := hK W.calls (scratch (dataOf d W.calls)) (surrData W.sys.st) (surrData W.sys.st) hi.cols (scratch_ok _)
      (by rw [scratch_data]) hne hnb hff (scratch_notFailed _)
    rw [hi.data] at key hne hnb
    simp only [freshSurr]
    rw [if_pos ⟨hne, hnb⟩, if_pos ⟨hne, hnb⟩]
    exact key
  | accept i _ hstep ih =>
    simp only [objStep, Option.map_eq_some_iff] at hstep
    obtain ⟨w', hw', rfl⟩ := hstep
    exact .accept i ih hw'
  | complete i _ hstep ih =>
    simp only [objStep, Option.map_eq_some_iff] at hstep
    obtain ⟨w', hw', rfl⟩ := hstep
    exact .complete i ih hw'

theorem lossless {l : List (Event (Pt d))} (h : ∀ e ∈ l, isLoss e = false) :
    droppedBy false (thisRun l) = [] ∧ crashedBy (thisRun l) = [] := by
  refine ⟨List.filterMap_eq_nil_iff.mpr fun e he => ?_, List.flatMap_eq_nil_iff.mpr fun e he => ?_⟩
  all_goals
    have := h e (thisRun_subset _ he)
    cases e <;> simp_all [isLoss]

theorem SyncObj.noFail (ok : ProbOk L.prob) (hs : Sane L.cfg) (hL : MethodOk L) (ha : L.cfg.asynchronous = false) (hK : Steady Bad K)
    (hD : DesignOf L.prob L.cfg.numPts D) (hB : ¬ Bad D) (hQ : ∀ s r, Q s r → RndOk L s r ∧ ¬ Bad r.design)
    {W : ObjSys d} (h : SyncObj Q L K f D rs W) : ¬ Failed Bad W.calls := by
  obtain ⟨h1, h2⟩ := lossless (h.run ok hs hL ha hK hD hB hQ).ledger.loss
  exact sync_noFail hL ok ha (h.reach hL hD hB hQ) h1 h2

/-- Synchronous mode, nothing rejected, killed or lost, the same design, random outcomes and objective: two runs propose the same
points in the same order, whatever the number of workers and the order in which proposals are accepted and evaluations finish;
only how far they are may differ.  For SRBF and DYCORS it is assumed that the best value of the current run is attained at one
point only, whenever points are generated (`Fair`; otherwise it is false: `C122_ties_refuted`).  The predictions of the surrogate
depend only on the set of its data. -/
theorem C122_order_partial (ok : ProbOk L.prob) (hs : Sane L.cfg) (hL : MethodOk L) (ha : L.cfg.asynchronous = false)
    (hK : Steady Bad K) (hD : DesignOf L.prob L.cfg.numPts D) (hB : ¬ Bad D) {W W' : ObjSys d}
    (h : SyncObj (Fair Bad L) L K f D rs W) (h' : SyncObj (Fair Bad L) L K f D rs W') :
    proposals W.sys.st.log <+: proposals W'.sys.st.log ∨ proposals W'.sys.st.log <+: proposals W.sys.st.log := by
  have hQ : ∀ s r, Fair Bad L s r → RndOk L s r ∧ ¬ Bad r.design := fun s r h => ⟨h.1, h.2.1⟩
  exact sync_order (freshSurr_orderFree hK) ha hs (fun s r h => h.2.2) (h.run ok hs hL ha hK hD hB hQ) (h'.run ok hs hL ha hK hD hB hQ)

/-- The same for what was found: if both runs have evaluated equally many points and nothing is running, the same evaluations
were made, in possibly different order. -/
theorem C122_results_partial (ok : ProbOk L.prob) (hs : Sane L.cfg) (hL : MethodOk L) (ha : L.cfg.asynchronous = false)
    (hK : Steady Bad K) (hD : DesignOf L.prob L.cfg.numPts D) (hB : ¬ Bad D) {W W' : ObjSys d}
    (h : SyncObj (Fair Bad L) L K f D rs W) (h' : SyncObj (Fair Bad L) L K f D rs W') (hi : W.sys.inflight = []) (hi' : W'.sys.inflight = [])
    (hn : (completions W.sys.st.log).length = (completions W'.sys.st.log).length) :
    (completions W.sys.st.log).Perm (completions W'.sys.st.log) := by
  have hQ : ∀ s r, Fair Bad L s r → RndOk L s r ∧ ¬ Bad r.design := fun s r h => ⟨h.1, h.2.1⟩
  exact sync_results (freshSurr_orderFree hK) ha hs (fun s r h => h.2.2) (h.run ok hs hL ha hK hD hB hQ)
    (h'.run ok hs hL ha hK hD hB hQ) hi hi' hn

/-- At the end: if both runs propose to terminate, they made the same `max_evals` evaluations. -/
theorem C122_end_partial (ok : ProbOk L.prob) (hs : Sane L.cfg) (hL : MethodOk L) (ha : L.cfg.asynchronous = false) (hm : 0 ≤ L.cfg.maxEvals)
    (hK : Steady Bad K) (hD : DesignOf L.prob L.cfg.numPts D) (hB : ¬ Bad D) {W W' : ObjSys d}
    (h : SyncObj (Fair Bad L) L K f D rs W) (h' : SyncObj (Fair Bad L) L K f D rs W') {o o' : Oracle (Pt d)} {s s' : State (Pt d)}
    (ht : W.sys.st.proposeAction L.cfg o = some (.terminate, s)) (ht' : W'.sys.st.proposeAction L.cfg o' = some (.terminate, s')) :
    ((completions W.sys.st.log).length : ℤ) = L.cfg.maxEvals ∧ (completions W.sys.st.log).Perm (completions W'.sys.st.log) := by
  have hQ : ∀ s r, Fair Bad L s r → RndOk L s r ∧ ¬ Bad r.design := fun s r h => ⟨h.1, h.2.1⟩
  exact sync_end (freshSurr_orderFree hK) ha hs hm (fun s r h => h.2.2) (h.run ok hs hL ha hK hD hB hQ)
    (h'.run ok hs hL ha hK hD hB hQ) ht ht'

/-! ## The surrogates of the library -/

theorem rbf_steady (lb ub : Pt d) (hb : ∀ i, lb i < ub i) (eta : ℝ) (heta : 0 < eta)
    (trans : List ℝ → List ℝ) (htr : OrderFree trans) (lu : ℕ → Surrogate.Mat → Surrogate.LuOut)
    (chol : ℕ → Surrogate.Mat → Option Surrogate.Mat) (hlu : Surrogate.LuSpec lu) (hchol : Surrogate.CholSpec chol) :
    Steady OnHyperplane (rbfObj ⟨lb, ub, Surrogate.cubicKernel, Surrogate.linearTail d, eta, trans, lu, chol⟩) := by
  obtain ⟨p, hp⟩ : ∃ p : Surrogate.Par d, p = ⟨lb, ub, Surrogate.cubicKernel, Surrogate.linearTail d, eta, trans, lu, chol⟩ := ⟨_, rfl⟩
  intro c c' A B hc hc' hperm hne hb1 hf hf'
  have noFail : ∀ c : List (Surrogate.Op d), NoMultiColumn c → dataOf d c ≠ [] → ¬ OnHyperplane ((dataOf d c).map Prod.fst) →
      ¬ Failed OnHyperplane c → ¬ FailedFit p c := by
    intro c hc hne hb1 hf hff
    have h1 := (C77_cubic lb ub hb eta heta.le trans lu chol hlu hchol c hc lb (.inl heta))
    rw [← hp] at h1
    have h2 := (C48_scratch_partial p (by rw [hp]; exact hlu) (by rw [hp]; exact hchol) c hc lb).2 hff
    have := h1.mp h2
    tauto
  have hne' : dataOf d c' ≠ [] := by
    intro h0
    rw [h0] at hperm
    exact hne hperm.eq_nil
  have hb1' : ¬ OnHyperplane ((dataOf d c').map Prod.fst) := fun hh =>
    hb1 (Hereditary.mono (hperm.map Prod.fst).subset hh)
  have key : ∀ x, (Surrogate.predict p (Surrogate.rrun p c) x).2 = (Surrogate.predict p (Surrogate.rrun p c') x).2 := fun x =>
    C87_order p (by rw [hp]; exact hlu) (by rw [hp]; exact hchol) (by rw [hp]; exact htr) c' c hc' hc hperm
      (iff_of_false (noFail c hc hne hb1 hf) (noFail c' hc' hne' hb1' hf')) x
  rw [← hp]
  refine ⟨?_, rfl⟩
  by_cases h : ∀ x, (Surrogate.predict p (Surrogate.rrun p c) x).2.isSome = true
  · have h' : ∀ x, (Surrogate.predict p (Surrogate.rrun p c') x).2.isSome = true := fun x => by rw [← key x]; exact h x
    simp only [rbfObj, dif_pos h, dif_pos h', key]
  · have h' : ¬ ∀ x, (Surrogate.predict p (Surrogate.rrun p c') x).2.isSome = true := fun hh => h fun x => by rw [key x]; exact hh x
    simp only [rbfObj, dif_neg h, dif_neg h']

theorem gp_steady {lb ub : Pt d} {trans : List ℝ → List ℝ} (htr : OrderFree trans) {hyp : List (List (Pt d) × List ℝ) → Surrogate.Hyper d} (hh : OrderFreeHyp hyp) :
    Steady (fun P => P = []) (gpObj lb ub trans hyp) := by
  intro c c' A B hc hc' hperm hne _ _ _
  obtain ⟨g, hg⟩ := htr
  have ht : ∀ f, (trans f).length = f.length := fun f => by rw [hg]; simp
  have hz : ∀ D : List (Pt d × ℝ), unitData lb ub trans D =
      D.map fun q => (toUnitBox q.1 lb ub, g ((D.map Prod.snd : List ℝ) : Multiset ℝ) q.2) := by
    intro D
    unfold unitData
    rw [hg, List.map_map]
    exact List.zip_map'
  have hud : (unitData lb ub trans (dataOf d c)).Perm (unitData lb ub trans (dataOf d c')) := by
    rw [hz, hz, Multiset.coe_eq_coe.mpr (hperm.map Prod.snd)]
    exact hperm.map _
  have h1 := fun x => (C115_determined hh ht ht c c' hc hc' hud x x rfl).1
  have h2 := fun x => (C115_determined hh ht ht c c' hc hc' hud x x rfl).2
  have hXu : ∀ c : List (Surrogate.Op d), NoMultiColumn c → dataOf d c ≠ [] → (Surrogate.gpRun lb ub trans hyp c).Xu ≠ [] := by
    intro c hcol hne
    have := C46_history lb ub id (Surrogate.extFit trans (Surrogate.gpFit hyp)) (extFit_keepsData _ _) ⟨none, []⟩ c hcol
    show (Surrogate.run lb ub id _ _ c).Xu ≠ []
    rw [show (Surrogate.run lb ub id (Surrogate.extFit trans (Surrogate.gpFit hyp)) (Surrogate.extInit d _) c).Xu = _ from this.Xu]
    simpa using hne
  have hne' : dataOf d c' ≠ [] := by
    intro h0
    rw [h0] at hperm
    exact hne hperm.eq_nil
  have e1 : (Surrogate.gpRun lb ub trans hyp c).Xu ≠ [] := hXu c hc hne
  have e2 : (Surrogate.gpRun lb ub trans hyp c').Xu ≠ [] := hXu c' hc' hne'
  constructor
  · by_cases h : ∀ x, (Surrogate.gpPredict lb ub trans hyp c x).isSome = true
    · have h' : ∀ x, (Surrogate.gpPredict lb ub trans hyp c' x).isSome = true := fun x => by rw [← h1 x]; exact h x
      simp only [gpObj, dif_pos (And.intro e1 h), dif_pos (And.intro e2 h'), h1]
    · have h' : ¬ ∀ x, (Surrogate.gpPredict lb ub trans hyp c' x).isSome = true := fun hh => h fun x => by rw [h1 x]; exact hh x
      simp only [gpObj, dif_neg (fun hh : _ ∧ _ => h hh.2), dif_neg (fun hh : _ ∧ _ => h' hh.2)]
  · by_cases h : ∀ x, (Surrogate.gpPredictStd lb ub trans hyp c x).isSome = true
    · have h' : ∀ x, (Surrogate.gpPredictStd lb ub trans hyp c' x).isSome = true := fun x => by rw [← h2 x]; exact h x
      simp only [gpObj, dif_pos (And.intro e1 h), dif_pos (And.intro e2 h'), h2]
    · have h' : ¬ ∀ x, (Surrogate.gpPredictStd lb ub trans hyp c' x).isSome = true := fun hh => h fun x => by rw [h2 x]; exact hh x
      simp only [gpObj, dif_neg (fun hh : _ ∧ _ => h hh.2), dif_neg (fun hh : _ ∧ _ => h' hh.2)]

end Verif.Props
