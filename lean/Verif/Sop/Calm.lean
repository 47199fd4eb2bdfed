import Verif.Sop.Live

/-! # Loss-free runs of SOP (C56) -/

set_option linter.unusedSectionVars false

namespace Verif.Sop

open Verif.Num Verif.Utils Verif.Strategy Verif.Spec
open List (Perm Sublist)

variable {d : ℕ} {c : Cfg d}

/-- What a loss-free environment does.  A new generation is only asked for when no initial evaluation is outstanding, two
evaluated points differ, there are enough centers for the points in flight and the new ones, and the new points are
different from each other and from those in flight.  Rejections are only allowed for initial points in the initial phase
and for batches, aborts only in the initial phase. -/
def Allowed (c : Cfg d) (w : SopSys d) : Strategy.Op (Pt d) → Prop
  | .propose o => w.sys.st.batchQueue = [] → Going c.base w.sys.st →
      (c.base.asynchronous = true ∨ w.sys.st.pendingEvals = 0) →
      (∀ p ∈ w.sys.props, p.kind = .adapt) ∧ (∀ r ∈ w.sys.recs, r.kind = .adapt) ∧
      (∃ p ∈ completions w.sys.st.log, ∃ q ∈ completions w.sys.st.log,
        toUnitBox p.1 c.lb c.ub ≠ toUnitBox q.1 c.lb c.ub) ∧
      w.sys.inflight.length + genCount c.base ≤ c.ncenters ∧
      ((List.range (genCount c.base)).map o.pts ++ w.sys.inflight).Nodup
  | .reject i => ∀ p, w.sys.props[i]? = some p →
      (p.kind = .init → w.sys.st.phase = .initial) ∧ (p.kind = .adapt → c.base.asynchronous = false)
  | .abort i => ∀ r, w.sys.recs[i]? = some r → r.kind = .init ∧ w.sys.st.phase = .initial
  | _ => True

/-- Loss-free runs. -/
inductive Calm (c : Cfg d) : SopSys d → Prop
  | create (o : Oracle (Pt d)) : Calm c (SopSys.create c o)
  | step {w w' : SopSys d} (op : Strategy.Op (Pt d)) : Calm c w → Allowed c w op → w.step c op = some w' → Calm c w'

theorem Calm.reach {w : SopSys d} (h : Calm c w) : Reach c w := by
  induction h with
  | create o => exact .create o
  | step op _ _ hs ih => exact ih.step op hs

/-- Before the first generation. -/
structure Pre (w : SopSys d) : Prop where
  F : w.sop.F = none
  centers : w.sop.centers = []
  props : ∀ p ∈ w.sys.props, p.kind = .init
  recs : ∀ r ∈ w.sys.recs, r.kind = .init
  phase : w.sys.st.phase = .adaptive → w.sys.st.batchQueue = []

/-- After the first generation. -/
structure Post (c : Cfg d) (w : SopSys d) : Prop where
  F : ∃ F, w.sop.F = some F ∧
    (c.base.asynchronous = true ∨ w.sys.st.batchQueue = [] ∧ w.sys.inflight = [] → F.length = w.sop.evals.length)
  phase : w.sys.st.phase = .adaptive
  props : ∀ p ∈ w.sys.props, p.kind = .adapt
  recs : ∀ r ∈ w.sys.recs, r.kind = .adapt
  perm : Perm (busyPts w.sop.centers) (w.sys.st.batchQueue ++ w.sys.inflight)
  nodup : (newPts w.sop.centers).Nodup
  two : TwoPoints c w.sop.evals
  async : c.base.asynchronous = true → w.sys.st.batchQueue = []
  sync : c.base.asynchronous = false → ∀ ce ∈ w.sop.centers, ce.newPoint ≠ none
  len : w.sop.centers.length = c.ncenters

theorem pending_zero {w : SopSys d} (h : Reach c w) : w.sys.st.pendingEvals = 0 ↔ w.sys.inflight = [] := by
  have := h.base.book.pending
  unfold Sys.inflight
  rw [this]
  constructor
  · intro h0
    have h1 : w.sys.props = [] := List.length_eq_zero_iff.mp (by omega)
    have h2 : w.sys.recs = [] := List.length_eq_zero_iff.mp (by omega)
    simp [h1, h2]
  · intro h0
    simp only [List.append_eq_nil_iff, List.map_eq_nil_iff] at h0
    simp [h0.1, h0.2]

theorem inflight_proposeLast (w : Sys (Pt d)) (s : State (Pt d)) (q : List (Pt d)) (x : Pt d) (k : Kind) :
    Perm (proposeLast w s q x k).inflight (x :: w.inflight) := by
  unfold proposeLast Sys.inflight
  simp only [List.map_append, List.map_cons, List.map_nil, List.append_assoc]
  exact List.perm_middle

theorem two_of_completions {w : SopSys d} (h : Inv w)
    (h2 : ∃ p ∈ completions w.sys.st.log, ∃ q ∈ completions w.sys.st.log,
        toUnitBox p.1 c.lb c.ub ≠ toUnitBox q.1 c.lb c.ub) : TwoPoints c w.sop.evals := by
  obtain ⟨p, hp, q, hq, hne⟩ := h2
  rw [← h.arch] at hp hq
  obtain ⟨r1, h1, rfl⟩ := List.mem_map.mp hp
  obtain ⟨r2, h2, rfl⟩ := List.mem_map.mp hq
  exact ⟨r1, h1, r2, h2, hne⟩

/-- What holds at a generation. -/
theorem Post.gen {w : SopSys d} (hr : Reach c w) (hs : c.base.srbf = none) (hi : Pre w ∨ Post c w)
    (hq : w.sys.st.batchQueue = []) (ha : c.base.asynchronous = true ∨ w.sys.st.pendingEvals = 0)
    (hp : ∀ p ∈ w.sys.props, p.kind = .adapt) (hrec : ∀ r ∈ w.sys.recs, r.kind = .adapt) :
    Perm (busyPts w.sop.centers) w.sys.inflight ∧ (∀ F, w.sop.F = some F → F.length = w.sop.evals.length) := by
  rcases hi with hi | hi
  · refine ⟨?_, by rw [hi.F]; simp⟩
    have h1 : w.sys.props = [] := by
      rw [List.eq_nil_iff_forall_not_mem]
      intro p h
      have := hp p h; rw [hi.props p h] at this; simp at this
    have h2 : w.sys.recs = [] := by
      rw [List.eq_nil_iff_forall_not_mem]
      intro p h
      have := hrec p h; rw [hi.recs p h] at this; simp at this
    rw [hi.centers]
    simp [Sys.inflight, h1, h2, busyPts]
  · refine ⟨by simpa [hq] using hi.perm, ?_⟩
    intro F hF
    obtain ⟨F', hF', hl⟩ := hi.F
    rw [hF] at hF'
    simp only [Option.some.injEq] at hF'
    subst hF'
    apply hl
    rcases ha with h | h
    · exact Or.inl h
    · exact Or.inr ⟨hq, (pending_zero hr).mp h⟩

theorem rankRows_full {n : ℕ} {pts : List (Pt d)} {z z' : Sop d} (h : z.generate c n pts = some z')
    (hF : ∀ F, z.F = some F → F.length = z.evals.length) : ∃ F, z'.F = some F ∧ F.length = z'.evals.length := by
  obtain ⟨z1, z2, h1, h2, _, h4⟩ := generate_spec h
  obtain ⟨k1, k2⟩ := updateCenterList_keeps h2
  rw [h4]
  simp only
  rw [k1, k2]
  rcases h1 with ⟨_, h1⟩ | ⟨hne, rfl⟩
  · obtain ⟨hl, ds, hds, rfl⟩ := updateRanks_spec h1
    refine ⟨_, rfl, ?_⟩
    have := (distCol_spec hds).1
    rw [rankRows_length (by simpa using this)]
    simp
  · obtain ⟨F, hF'⟩ := Option.ne_none_iff_exists'.mp hne
    exact ⟨F, hF', hF F hF'⟩

theorem mem_eraseIdx_of {α : Type} {l : List α} {i : ℕ} {a : α} (h : a ∈ l.eraseIdx i) : a ∈ l :=
  List.mem_of_mem_eraseIdx h

theorem evals_completed {w w' : SopSys d} (hr : Reach c w) (hs : c.base.srbf = none) {i : ℕ} {v : Val} {r : Rec (Pt d)}
    (hrec : w.sys.recs[i]? = some r)
    (hsys : w'.sys = { w.sys with
        st := (w.sys.st.note (.completed r.x r.kind v r.accAt)).recordCompleted r.x v r.evId
        recs := w.sys.recs.eraseIdx i }) :
    w'.sys.st.numEvals.toNat = w.sop.evals.length + 1 ∧ w'.sys.st.batchQueue = w.sys.st.batchQueue ∧
      w'.sys.st.phase = w.sys.st.phase ∧ w'.sys.st.evLast = 0 ∧
      Perm w.sys.inflight (r.x :: w'.sys.inflight) ∧ w'.sys.st.pendingEvals = w.sys.st.pendingEvals - 1 := by
  have h1 := hr.count hs
  have h2 : w'.sys.st.numEvals = w.sys.st.numEvals + 1 := by
    rw [hsys]; simp only [recordCompleted_eq]; rfl
  refine ⟨by omega, ?_, ?_, ?_, ?_, ?_⟩
  · rw [hsys]; simp only [recordCompleted_eq]; rfl
  · rw [hsys]; simp only [recordCompleted_eq]; rfl
  · rw [hsys]; simp only [recordCompleted_eq]; exact (hr.inv hs).evLast
  · rw [hsys]
    unfold Sys.inflight
    simp only
    have := (perm_eraseIdx hrec).map Rec.x
    rw [List.map_cons] at this
    exact (this.append_left _).trans List.perm_middle
  · rw [hsys]; simp only [recordCompleted_eq]; rfl

/-- A completed adaptive evaluation does not raise. -/
theorem adapt_isSome {w : SopSys d} (hr : Reach c w) (hs : c.base.srbf = none) (hi : Post c w)
    (st : State (Pt d)) (x : Pt d) (v : Val) (evId : ℕ)
    (hev : st.evLast = 0) (hn : st.numEvals.toNat = w.sop.evals.length + 1) (hx : x ∈ busyPts w.sop.centers)
    (hlast : st.batchQueue = [] → st.pendingEvals = 0 → busyPts w.sop.centers = [x]) :
    ∃ z', w.sop.onAdaptCompleted c st x v evId = some z' := by
  obtain ⟨l, ce, r, e1, e2, e3, _, e5⟩ := mark_pts (st.numEvals.toNat - 1) hx hi.nodup
  have h1 := append_cinv (SopRec.new x v) (hr.cinv hs)
  have hni : (archive { w.sop with evals := w.sop.evals ++ [SopRec.new x v] })[st.numEvals.toNat - 1]? = some (x, v) := by
    rw [hn]
    simp [archive, SopRec.new]
  have h2 := markCenter_cinv hni h1
  have two : TwoPoints c (w.sop.evals ++ [SopRec.new x v]) := hi.two.append _
  unfold Sop.onAdaptCompleted
  rw [hev, if_pos (Nat.zero_le _)]
  simp only
  by_cases ha : c.base.asynchronous = true
  · rw [if_pos ha]
    refine adjustMemory_isSome h2 (by simp [hn]) two ?_
    intro i hi'
    simp only [e3, processed, List.mem_singleton] at hi'
    subst hi'
    simp only [e3]
    exact ⟨{ ce with newIndex := some (st.numEvals.toNat - 1) }, _, by simp, rfl⟩
  · rw [if_neg ha]
    simp only [Bool.not_eq_true] at ha
    by_cases hb : (st.batchQueue.isEmpty && st.pendingEvals == 0) = true
    · rw [if_pos hb]
      simp only [Bool.and_eq_true, List.isEmpty_iff, beq_iff_eq] at hb
      have hb1 := hlast hb.1 hb.2
      have hempty : busyPts (markCenter w.sop.centers x (st.numEvals.toNat - 1)).1 = [] := by
        rw [hb1] at e5
        have := e5.length_eq
        simp only [List.length_cons, List.length_nil] at this
        exact List.length_eq_zero_iff.mp (by omega)
      refine adjustMemory_isSome h2 (by simp [hn]) two ?_
      intro i hi'
      simp only [processed, List.mem_range] at hi'
      simp only
      have hlen : (markCenter w.sop.centers x (st.numEvals.toNat - 1)).1.length = c.ncenters := by
        rw [e3, ← hi.len, e1]; simp
      rw [← hlen] at hi'
      refine ⟨(markCenter w.sop.centers x (st.numEvals.toNat - 1)).1[i], ?_⟩
      rw [List.getElem?_eq_getElem hi']
      have hm := List.getElem_mem hi'
      set ce' := (markCenter w.sop.centers x (st.numEvals.toNat - 1)).1[i] with hce'
      have hnp : ce'.newPoint ≠ none := by
        rw [e3] at hm
        simp only [List.mem_append, List.mem_cons] at hm
        rcases hm with h | h | h
        · exact hi.sync ha ce' (by rw [e1]; simp [h])
        · rw [h]; simp [e2]
        · exact hi.sync ha ce' (by rw [e1]; simp [h])
      cases hni' : ce'.newIndex with
      | some ni => exact ⟨ni, rfl, rfl⟩
      | none =>
        exfalso
        obtain ⟨y, hy⟩ := Option.ne_none_iff_exists'.mp hnp
        have : y ∈ busyPts (markCenter w.sop.centers x (st.numEvals.toNat - 1)).1 :=
          List.mem_filterMap.mpr ⟨ce', hm, by rw [hni', hy]; simp⟩
        rw [hempty] at this
        simp at this
    · rw [if_neg hb]
      exact ⟨_, rfl⟩

theorem Calm.inv (hs : c.base.srbf = none) (hb : c.base.asynchronous = true ∨ c.base.batchSize = c.ncenters)
    {w : SopSys d} (h : Calm c w) : Pre w ∨ Post c w := by
  induction h with
  | create o =>
    left
    refine ⟨rfl, rfl, by simp [SopSys.create, Sys.create], by simp [SopSys.create, Sys.create], ?_⟩
    intro hph
    simp [SopSys.create, Sys.create, create_eq, State.blank] at hph
  | @step w w' op hc hal hstep ih =>
    have hr := hc.reach
    have hr' : Reach c w' := hr.step op hstep
    cases op with
    | propose o =>
      cases step_propose hs (hr.inv hs).conv hstep with
      | term ht =>
        have key : (termState w.sys.st).batchQueue = w.sys.st.batchQueue ∧ (termState w.sys.st).phase = w.sys.st.phase := by
          unfold termState
          split <;> exact ⟨rfl, rfl⟩
        obtain ⟨k1, k2⟩ := key
        rcases ih with ih | ih
        · left
          exact ⟨ih.F, ih.centers, ih.props, ih.recs, by simp only [k1, k2]; exact ih.phase⟩
        · right
          exact ⟨by rw [show (SopSys.sys _).st.batchQueue = _ from k1]; exact ih.F, by simp only [k2]; exact ih.phase, ih.props, ih.recs,
            by rw [show (SopSys.sys _).st.batchQueue = _ from k1]; exact ih.perm, ih.nodup, ih.two, by simpa only [k1] using ih.async, ih.sync, ih.len⟩
      | queue x q hq hg =>
        rcases ih with ih | ih
        · left
          have hph : w.sys.st.phase = .initial := by
            cases hp : w.sys.st.phase with
            | initial => rfl
            | adaptive => rw [ih.phase hp] at hq; simp at hq
          refine ⟨ih.F, ih.centers, ?_, ih.recs, ?_⟩
          · intro p hp
            simp only [proposeLast, List.mem_append, List.mem_singleton] at hp
            rcases hp with h | h
            · exact ih.props p h
            · rw [h, hph]; rfl
          · intro hph'
            have : w.sys.st.phase = .adaptive := hph'
            rw [hph] at this; simp at this
        · right
          refine ⟨?_, ih.phase, ?_, ih.recs, ?_, ih.nodup, ih.two, ?_, ih.sync, ih.len⟩
          · obtain ⟨F, hF, hl⟩ := ih.F
            refine ⟨F, hF, fun hor => hl ?_⟩
            rcases hor with h | ⟨_, h⟩
            · exact Or.inl h
            · have := (inflight_proposeLast w.sys w.sys.st q x (kindOf w.sys.st.phase)).length_eq
              rw [h] at this; simp at this
          · intro p hp
            simp only [proposeLast, List.mem_append, List.mem_singleton] at hp
            rcases hp with h | h
            · exact ih.props p h
            · rw [h, ih.phase]; rfl
          · have h1 := ih.perm
            rw [hq] at h1
            refine h1.trans ?_
            rw [List.append_assoc]
            exact ((inflight_proposeLast w.sys w.sys.st q x (kindOf w.sys.st.phase)).symm.append_left q)
          · intro ha
            have := ih.async ha
            rw [this] at hq; simp at hq
      | gen x q z hpts hq hg ha hz =>
        obtain ⟨a1, a2, a3, a4, a5⟩ := hal hq hg ha
        rw [hpts] at a5
        obtain ⟨g1, g2⟩ := Post.gen hr hs ih hq ha a1 a2
        obtain ⟨p1, p2⟩ := generate_pts hz
        obtain ⟨F, hF, hlF⟩ := rankRows_full hz g2
        have two := two_of_completions (hr.inv hs) a3
        have hk := generate_keeps hz
        have hlen := (generate_cinv hz (hr.cinv hs)).2
        right
        refine ⟨⟨F, hF, fun _ => hlF⟩, rfl, ?_, a2, ?_, ?_, by rw [show (SopSys.sop _) = z from rfl, hk]; exact two, ?_, ?_, hlen⟩
        · intro p hp
          simp only [proposeLast, List.mem_append, List.mem_singleton] at hp
          rcases hp with h | h
          · exact a1 p h
          · rw [h]
        · refine p2.trans ?_
          refine (g1.append_left _).trans ?_
          rw [List.append_assoc]
          exact ((inflight_proposeLast w.sys _ q x .adapt).symm.append_left q)
        · exact (p1.trans (g1.append_left _)).nodup_iff.mpr a5
        · intro has
          have : genCount c.base = 1 := by unfold genCount; rw [if_pos has]
          have hl := congrArg List.length hpts
          rw [this] at hl
          simp only [List.length_map, List.length_range, List.length_append, List.length_cons, List.length_nil] at hl
          have hq0 : q = [] := List.length_eq_zero_iff.mp (by omega)
          exact hq0
        · intro has ce hce
          have hbs := hb.resolve_left (by simp [has])
          have hgc : genCount c.base = c.ncenters := by unfold genCount; rw [has]; simpa using hbs
          have hl := congrArg List.length hpts
          rw [hgc] at hl
          simp only [List.length_map, List.length_range] at hl
          have hl2 := p1.length_eq
          rw [List.length_append, ← hl] at hl2
          have hle := newPts_length_le z.centers
          intro hnone
          have hlt : (newPts z.centers).length < z.centers.length := by
            refine lt_of_le_of_ne hle fun heq => ?_
            unfold newPts at heq
            rw [List.filterMap_length_eq_length] at heq
            have := heq ce hce
            rw [hnone] at this; simp at this
          omega
      | genNone z hn hq hg ha hz =>
        obtain ⟨a1, a2, a3, a4, a5⟩ := hal hq hg ha
        obtain ⟨g1, g2⟩ := Post.gen hr hs ih hq ha a1 a2
        obtain ⟨p1, p2⟩ := generate_pts hz
        obtain ⟨F, hF, hlF⟩ := rankRows_full hz g2
        have two := two_of_completions (hr.inv hs) a3
        have hk := generate_keeps hz
        have hlen := (generate_cinv hz (hr.cinv hs)).2
        right
        refine ⟨⟨F, hF, fun _ => hlF⟩, rfl, a1, a2, ?_, ?_, by rw [show (SopSys.sop _) = z from rfl, hk]; exact two, fun _ => rfl, ?_, hlen⟩
        · exact p2.trans g1
        · rw [hn] at a5
          exact (p1.trans (g1.append_left _)).nodup_iff.mpr a5
        · intro has ce hce
          have hbs := hb.resolve_left (by simp [has])
          have hgc : genCount c.base = c.ncenters := by unfold genCount; rw [has]; simpa using hbs
          rw [hn] at hgc
          rw [← hgc] at hlen
          have := List.length_eq_zero_iff.mp hlen
          have hce' : ce ∈ z.centers := hce
          rw [this] at hce'; simp at hce'
      | wait hq hg ha hp =>
        rcases ih with ih | ih
        · left
          exact ⟨ih.F, ih.centers, ih.props, ih.recs, fun _ => hq⟩
        · right
          exact ⟨ih.F, rfl, ih.props, ih.recs, ih.perm, ih.nodup, ih.two, ih.async, ih.sync, ih.len⟩
    | complete i v =>
      obtain ⟨r, hrec, hsys, hsop⟩ := step_complete hs hstep
      obtain ⟨hn, hbq, hph, hev, hin, _⟩ := evals_completed hr hs hrec hsys
      have hmem := mem_of_getElem? hrec
      have hprops : w'.sys.props = w.sys.props := by rw [hsys]
      have hrecs : ∀ r' ∈ w'.sys.recs, r' ∈ w.sys.recs := by rw [hsys]; intro r' h; exact List.mem_of_mem_eraseIdx h
      rcases ih with ih | ih
      · have hk := ih.recs r hmem
        rw [hk] at hsop
        simp only at hsop
        have hsop' : w'.sop = { w.sop with evals := w.sop.evals ++ [.new r.x v] } := by
          rw [hsop]; unfold Sop.onInitialCompleted; rw [hev, if_pos (Nat.zero_le _)]
        left
        refine ⟨by rw [hsop']; exact ih.F, by rw [hsop']; exact ih.centers, by rw [hprops]; exact ih.props,
          fun r' h => ih.recs r' (hrecs r' h), by rw [hph, hbq]; exact ih.phase⟩
      · have hk := ih.recs r hmem
        rw [hk] at hsop
        simp only at hsop
        have hx : r.x ∈ busyPts w.sop.centers := by
          rw [ih.perm.mem_iff]
          exact List.mem_append_right _ (hin.mem_iff.mpr (List.mem_cons_self ..))
        obtain ⟨l, ce, rr, e1, e2, e3, e4, e5⟩ := mark_pts (w'.sys.st.numEvals.toNat - 1) hx ih.nodup
        have hperm : Perm (busyPts (markCenter w.sop.centers r.x (w'.sys.st.numEvals.toNat - 1)).1)
            (w'.sys.st.batchQueue ++ w'.sys.inflight) := by
          have h1 := e5.trans ih.perm
          have h2 : Perm (w.sys.st.batchQueue ++ w.sys.inflight) (r.x :: (w'.sys.st.batchQueue ++ w'.sys.inflight)) := by
            rw [hbq]
            exact (hin.append_left _).trans List.perm_middle
          exact (List.perm_cons _).mp (h1.trans h2)
        have hlen : (markCenter w.sop.centers r.x (w'.sys.st.numEvals.toNat - 1)).1.length = c.ncenters := by
          rw [e3, ← ih.len, e1]; simp
        have hsync : c.base.asynchronous = false →
            ∀ ce ∈ (markCenter w.sop.centers r.x (w'.sys.st.numEvals.toNat - 1)).1, ce.newPoint ≠ none := by
          intro has a hm
          rw [e3] at hm
          simp only [List.mem_append, List.mem_cons] at hm
          rcases hm with h | h | h
          · exact ih.sync has a (by rw [e1]; simp [h])
          · rw [h]; simp [e2]
          · exact ih.sync has a (by rw [e1]; simp [h])
        right
        have common : ∀ (hcen : w'.sop.centers = (markCenter w.sop.centers r.x (w'.sys.st.numEvals.toNat - 1)).1)
            (harch : archive w'.sop = archive { w.sop with evals := w.sop.evals ++ [SopRec.new r.x v] })
            (hF : ∃ F, w'.sop.F = some F ∧ (c.base.asynchronous = true ∨ w'.sys.st.batchQueue = [] ∧ w'.sys.inflight = [] →
              F.length = w'.sop.evals.length)), Post c w' := by
          intro hcen harch hF
          refine ⟨hF, by rw [hph]; exact ih.phase, by rw [hprops]; exact ih.props, fun r' h => ih.recs r' (hrecs r' h),
            by rw [hcen]; exact hperm, by rw [hcen, e4]; exact ih.nodup,
            TwoPoints.of_archive harch (ih.two.append _), by rw [hbq]; exact ih.async, by rw [hcen]; exact hsync,
            by rw [hcen]; exact hlen⟩
        rcases onAdaptCompleted_spec hev hsop with ⟨ha, h3⟩ | ⟨ha, hb1, hb2, h3⟩ | ⟨ha, hb1, h3⟩
        · have hsp := adjustMemory_spec h3
          obtain ⟨_, _, _, _, _, _, hc', hF', _⟩ := hsp
          exact common hc' ((adjustMemory_archive h3).trans rfl) ⟨_, hF', fun _ => by simp⟩
        · have hsp := adjustMemory_spec h3
          obtain ⟨_, _, _, _, _, _, hc', hF', _⟩ := hsp
          exact common hc' ((adjustMemory_archive h3).trans rfl) ⟨_, hF', fun _ => by simp⟩
        · refine common (by rw [h3]) (by rw [h3]; rfl) ?_
          obtain ⟨F, hF, _⟩ := ih.F
          refine ⟨F, by rw [h3]; exact hF, fun hor => ?_⟩
          rcases hor with h | ⟨h, h'⟩
          · rw [ha] at h; simp at h
          · exact absurd ⟨h, (pending_zero hr').mpr h'⟩ hb1
    | accept i =>
      obtain ⟨h1, h2⟩ := step_other hstep (by simp) (by simp)
      unfold Sys.step at h2
      simp only at h2
      split at h2
      · simp at h2
      · rename_i p hp
        simp only [Option.some.injEq] at h2
        have hin : Perm w'.sys.inflight w.sys.inflight := by
          rw [← h2]
          unfold Sys.inflight
          simp only [List.map_append, List.map_cons, List.map_nil]
          have h3 := (perm_eraseIdx hp).map Proposal.x
          rw [List.map_cons] at h3
          refine Perm.trans ?_ (h3.append_right _).symm
          rw [← List.append_assoc]
          simp only [List.cons_append]
          exact List.perm_append_singleton _ _
        have hm := mem_of_getElem? hp
        have hbq : w'.sys.st.batchQueue = w.sys.st.batchQueue := by rw [← h2]; rfl
        have hph : w'.sys.st.phase = w.sys.st.phase := by rw [← h2]; rfl
        have hpr : ∀ p' ∈ w'.sys.props, p' ∈ w.sys.props := by rw [← h2]; intro p' h; exact List.mem_of_mem_eraseIdx h
        have hre : ∀ r' ∈ w'.sys.recs, r' ∈ w.sys.recs ∨ r'.kind = p.kind := by
          rw [← h2]; intro r' h
          simp only [List.mem_append, List.mem_singleton] at h
          rcases h with h | h
          · exact Or.inl h
          · right; rw [h]
        rcases ih with ih | ih
        · left
          refine ⟨by rw [h1]; exact ih.F, by rw [h1]; exact ih.centers, fun p' h => ih.props p' (hpr p' h), ?_,
            by rw [hph, hbq]; exact ih.phase⟩
          intro r' hr'
          rcases hre r' hr' with h | h
          · exact ih.recs r' h
          · rw [h]; exact ih.props p hm
        · right
          refine ⟨?_, by rw [hph]; exact ih.phase, fun p' h => ih.props p' (hpr p' h), ?_, ?_, by rw [h1]; exact ih.nodup,
            by rw [h1]; exact ih.two, by rw [hbq]; exact ih.async, by rw [h1]; exact ih.sync, by rw [h1]; exact ih.len⟩
          · rw [h1, hbq]
            obtain ⟨F, hF, hl⟩ := ih.F
            refine ⟨F, hF, fun hor => hl ?_⟩
            rcases hor with h | ⟨h, h'⟩
            · exact Or.inl h
            · rw [h'] at hin
              exact Or.inr ⟨h, (List.nil_perm.mp hin)⟩
          · intro r' hr'
            rcases hre r' hr' with h | h
            · exact ih.recs r' h
            · rw [h]; exact ih.props p hm
          · rw [h1, hbq]
            exact ih.perm.trans (hin.symm.append_left _)
    | reject i =>
      obtain ⟨h1, h2⟩ := step_other hstep (by simp) (by simp)
      unfold Sys.step at h2
      simp only at h2
      split at h2
      · simp at h2
      · rename_i p hp
        simp only [Option.some.injEq] at h2
        obtain ⟨al1, al2⟩ := hal p hp
        have hm := mem_of_getElem? hp
        have hin : Perm w.sys.inflight (p.x :: w'.sys.inflight) := by
          rw [← h2]
          unfold Sys.inflight
          have h3 := (perm_eraseIdx hp).map Proposal.x
          rw [List.map_cons] at h3
          exact h3.append_right _
        have hpr : ∀ p' ∈ w'.sys.props, p' ∈ w.sys.props := by rw [← h2]; intro p' h; exact List.mem_of_mem_eraseIdx h
        have hre : w'.sys.recs = w.sys.recs := by rw [← h2]
        rcases ih with ih | ih
        · have hk := ih.props p hm
          have hph0 := al1 hk
          rw [hk] at h2
          simp only [onInitialRejected_eq] at h2
          left
          refine ⟨by rw [h1]; exact ih.F, by rw [h1]; exact ih.centers, fun p' h => ih.props p' (hpr p' h),
            by rw [hre]; exact ih.recs, ?_⟩
          intro hph
          rw [← h2] at hph
          have : w.sys.st.phase = .adaptive := hph
          rw [hph0] at this; simp at this
        · have hk := ih.props p hm
          have has := al2 hk
          rw [hk] at h2
          simp only [onAdaptReject_eq, has] at h2
          have hbq : w'.sys.st.batchQueue = w.sys.st.batchQueue ++ [p.x] := by rw [← h2]; rfl
          right
          refine ⟨?_, by rw [← h2]; exact ih.phase, fun p' h => ih.props p' (hpr p' h), by rw [hre]; exact ih.recs, ?_,
            by rw [h1]; exact ih.nodup, by rw [h1]; exact ih.two, by simp [has], by rw [h1]; exact ih.sync,
            by rw [h1]; exact ih.len⟩
          · rw [h1, hbq]
            obtain ⟨F, hF, _⟩ := ih.F
            refine ⟨F, hF, ?_⟩
            rintro (h | ⟨h, _⟩)
            · rw [has] at h; simp at h
            · simp at h
          · rw [h1, hbq]
            refine ih.perm.trans ((hin.append_left _).trans ?_)
            simp only [List.append_assoc, List.cons_append, List.nil_append]
            exact Perm.refl _
    | abort i =>
      obtain ⟨h1, h2⟩ := step_other hstep (by simp) (by simp)
      unfold Sys.step at h2
      simp only at h2
      split at h2
      · simp at h2
      · rename_i r hrec
        obtain ⟨al1, al2⟩ := hal r hrec
        simp only [Option.some.injEq, onAborted_eq] at h2
        have hm := mem_of_getElem? hrec
        rcases ih with ih | ih
        · left
          refine ⟨by rw [h1]; exact ih.F, by rw [h1]; exact ih.centers, by rw [← h2]; exact ih.props, ?_, ?_⟩
          · rw [← h2]; intro r' h; exact ih.recs r' (List.mem_of_mem_eraseIdx h)
          · intro hph
            rw [← h2] at hph
            have : w.sys.st.phase = .adaptive := hph
            rw [al2] at this; simp at this
        · have := ih.recs r hm
          rw [al1] at this; simp at this
    | update i =>
      obtain ⟨h1, h2⟩ := step_other hstep (by simp) (by simp)
      unfold Sys.step at h2
      simp only at h2
      split at h2
      · simp at h2
      · simp only [Option.some.injEq] at h2
        have : w' = w := by cases w; cases w'; simp_all
        rw [this]; exact ih

/-- A loss-free run never gets stuck; for the next generation it does not matter whether the new points differ. -/
theorem Calm.live' (hs : c.base.srbf = none) (hb : c.base.asynchronous = true ∨ c.base.batchSize = c.ncenters)
    (hm : c.base.maxEvals ≠ c.base.numPts) {w : SopSys d} (h : Calm c w) :
    (∀ o, (w.sys.st.batchQueue = [] → Going c.base w.sys.st → (c.base.asynchronous = true ∨ w.sys.st.pendingEvals = 0) →
      (∀ p ∈ w.sys.props, p.kind = .adapt) ∧ (∀ r ∈ w.sys.recs, r.kind = .adapt) ∧
      (∃ p ∈ completions w.sys.st.log, ∃ q ∈ completions w.sys.st.log,
        toUnitBox p.1 c.lb c.ub ≠ toUnitBox q.1 c.lb c.ub) ∧
      w.sys.inflight.length + genCount c.base ≤ c.ncenters) → ∃ w', w.step c (.propose o) = some w') ∧
    (∀ i v, i < w.sys.recs.length → ∃ w', w.step c (.complete i v) = some w') := by
  have hr := h.reach
  have hi := h.inv hs hb
  constructor
  · intro o hal
    unfold SopSys.step
    simp only [base_propose c.base hs w.sys (hr.inv hs).conv { o with giveUp := false } rfl]
    by_cases ht : w.sys.st.terminate = true ∨ c.base.maxEvals ≤ w.sys.st.numEvals + w.sys.st.pendingEvals
    · simp only [if_pos ht]
      have hn : generatedNow w.sys.st.log (termState w.sys.st).log = none := by
        unfold termState
        by_cases hp : w.sys.st.pendingEvals = 0
        · rw [if_pos hp]
          exact generatedNow_append _ _ []
        · rw [if_neg hp]; exact generatedNow_same _
      simp only [hn]
      exact ⟨_, rfl⟩
    · simp only [if_neg ht]
      have hg : Going c.base w.sys.st := by
        simp only [not_or, not_le, Bool.not_eq_true] at ht
        exact ⟨ht.1, ht.2⟩
      by_cases hq : w.sys.st.batchQueue = []
      · simp only [if_pos hq]
        by_cases ha : c.base.asynchronous = true ∨ w.sys.st.pendingEvals = 0
        · simp only [if_pos ha]
          obtain ⟨a1, a2, a3, a4⟩ := hal hq hg ha
          obtain ⟨g1, g2⟩ := Post.gen hr hs hi hq ha a1 a2
          have two := two_of_completions (hr.inv hs) a3
          have hcount : w.sop.evals.length = w.sys.st.numEvals.toNat := by have := hr.count hs; omega
          have hgen : ∀ pts : List (Pt d), pts.length = genCount c.base →
              ∃ z, w.sop.generate c w.sys.st.numEvals.toNat pts = some z := by
            intro pts hl
            refine generate_isSome (hr.cinv hs) hcount two (fun F hF => by rw [g2 F hF, hcount]) hm ?_
            rw [g1.length_eq, hl]; exact a4
          rcases hpop : popLast ((List.range (genCount c.base)).map o.pts) with _ | ⟨x, q⟩
          · have hnil := popLast_none hpop
            simp only [hpop]
            rw [hnil]
            have hn : generatedNow w.sys.st.log (genState w.sys.st []).log = some [] :=
              generatedNow_append _ _ []
            simp only [hn]
            obtain ⟨z, hz⟩ := hgen [] (by rw [← congrArg List.length hnil]; simp)
            rw [hz]
            exact ⟨_, rfl⟩
          · have hx := popLast_some hpop
            simp only [hpop]
            rw [hx]
            have hn : generatedNow w.sys.st.log (proposeLast w.sys (genState w.sys.st (q ++ [x])) q x .adapt).st.log =
                some (q ++ [x]) := by
              have : (proposeLast w.sys (genState w.sys.st (q ++ [x])) q x .adapt).st.log =
                  w.sys.st.log ++ .generated (q ++ [x]) [] :: [.proposed x .adapt] := by
                simp [proposeLast, genState, State.note, State.makeProposal]
              rw [this]
              exact generatedNow_append _ _ _
            simp only [hn]
            obtain ⟨z, hz⟩ := hgen (q ++ [x]) (by rw [← congrArg List.length hx]; simp)
            rw [hz]
            exact ⟨_, rfl⟩
        · simp only [if_neg ha]
          have hn := generatedNow_same w.sys.st.log
          simp only [hn]
          exact ⟨_, rfl⟩
      · simp only [if_neg hq]
        rcases hpop : popLast w.sys.st.batchQueue with _ | ⟨x, q⟩
        · exact absurd (popLast_none hpop) hq
        · simp only [hpop]
          have hn : generatedNow w.sys.st.log (proposeLast w.sys w.sys.st q x (kindOf w.sys.st.phase)).st.log = none :=
            generatedNow_append _ _ []
          simp only [hn]
          exact ⟨_, rfl⟩
  · intro i v hi'
    have hrec : w.sys.recs[i]? = some w.sys.recs[i] := List.getElem?_eq_getElem hi'
    set r := w.sys.recs[i] with hrdef
    have hc : (w.sys.st.note (.completed r.x r.kind v r.accAt)).onCompleted c.base r.x r.kind v r.evId =
        (w.sys.st.note (.completed r.x r.kind v r.accAt)).recordCompleted r.x v r.evId := by
      unfold State.onCompleted
      rw [hs]
      cases r.kind <;> rfl
    unfold SopSys.step Sys.step
    simp only [hrec]
    rw [hc]
    cases hk : r.kind with
    | init => exact ⟨_, rfl⟩
    | adapt =>
      simp only
      have hpost : Post c w := by
        rcases hi with hi | hi
        · have := hi.recs r (List.getElem_mem hi')
          rw [hk] at this; simp at this
        · exact hi
      let w1 : SopSys d := ⟨{ w.sys with
        st := (w.sys.st.note (.completed r.x r.kind v r.accAt)).recordCompleted r.x v r.evId
        recs := w.sys.recs.eraseIdx i }, w.sop⟩
      obtain ⟨hn, hbq, hph, hev, hin, hpe⟩ := evals_completed (w' := w1) hr hs hrec rfl
      have hx : r.x ∈ busyPts w.sop.centers := by
        rw [hpost.perm.mem_iff]
        exact List.mem_append_right _ (hin.mem_iff.mpr (List.mem_cons_self ..))
      have hlast : w1.sys.st.batchQueue = [] → w1.sys.st.pendingEvals = 0 → busyPts w.sop.centers = [r.x] := by
        intro h1 h2
        have h3 := hr.base.book.pending
        have h4 : w.sys.inflight.length = 1 := by
          unfold Sys.inflight
          simp only [List.length_append, List.length_map]
          omega
        have h5 : w1.sys.inflight = [] := by
          have := hin.length_eq
          simp only [List.length_cons] at this
          exact List.length_eq_zero_iff.mp (by omega)
        have h6 := hpost.perm
        rw [← hbq, h1, List.nil_append] at h6
        rw [h5] at hin
        exact List.perm_singleton.mp (h6.trans hin)
      obtain ⟨z', hz'⟩ := adapt_isSome hr hs hpost w1.sys.st r.x v r.evId hev hn hx hlast
      have hz'' := hz'
      simp only [w1, hk] at hz''
      rw [hz'']
      exact ⟨_, rfl⟩

/-- A loss-free run never gets stuck. -/
theorem Calm.live (hs : c.base.srbf = none) (hb : c.base.asynchronous = true ∨ c.base.batchSize = c.ncenters)
    (hm : c.base.maxEvals ≠ c.base.numPts) {w : SopSys d} (h : Calm c w) :
    (∀ o, Allowed c w (.propose o) → ∃ w', w.step c (.propose o) = some w') ∧
    (∀ i v, i < w.sys.recs.length → ∃ w', w.step c (.complete i v) = some w') := by
  refine ⟨fun o hal => (h.live' hs hb hm).1 o fun hq hg ha => ?_, (h.live' hs hb hm).2⟩
  obtain ⟨a1, a2, a3, a4, _⟩ := hal hq hg ha
  exact ⟨a1, a2, a3, a4⟩

end Verif.Sop
