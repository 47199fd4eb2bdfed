import Verif.Loop.Order
import Verif.Strategy.Propose
import Verif.Strategy.Fields
import Verif.Strategy.Inv5

/-!
# Runs in synchronous mode without losses

Used for C122: such a run consists of batches (the initial design, the generated batches, the designs of restarts), and the
points of a batch are a function of the data of the earlier batches.
-/

namespace Verif.Loop

open Verif.Num Verif.Utils Verif.Cand Verif.Design Verif.Strategy Verif.Spec

section
variable {P : Type}

/-- The callbacks of the proposals of a batch. -/
def kindOf : Phase → Kind
  | .initial => .init
  | .adaptive => .adapt

/-- The state after the points of the next batch are queued, before the first is proposed. -/
def nextBase (cfg : Config P) (o : Oracle P) (s : State P) : Option (State P) :=
  if s.converged then (if cfg.useRestarts then some (s.sampleRestart cfg o) else none)
  else match ({ s with phase := .adaptive } : State P).generateEvals cfg o cfg.batchSize with
    | none => none
    | some s' =>
      if s'.converged then (if cfg.useRestarts then some (s'.sampleRestart cfg o) else none) else some s'

theorem initProposal_some {s s' : State P} {a : Action P} (h : s.initProposal = some (a, s')) :
    ∃ x q, a = .eval x .init ∧ s.batchQueue = q ++ [x] ∧ s' = State.makeProposal { s with batchQueue := q } x := by
  unfold State.initProposal at h
  split at h
  · cases h
  · rename_i x q hq
    simp only [Option.some.injEq, Prod.mk.injEq] at h
    exact ⟨x, q, h.1.symm, popLast_some hq, h.2.symm⟩

theorem adaptProposal_cases {s s' : State P} {a : Action P} (h : s.adaptProposal = (a, s')) :
    (s.batchQueue = [] ∧ a = .nothing ∧ s' = s) ∨
    ∃ x q, a = .eval x .adapt ∧ s.batchQueue = q ++ [x] ∧ s' = State.makeProposal { s with batchQueue := q } x := by
  unfold State.adaptProposal at h
  split at h
  · rename_i hq
    simp only [Prod.mk.injEq] at h
    refine .inl ⟨?_, h.1.symm, h.2.symm⟩
    cases hb : s.batchQueue using List.reverseRecOn with
    | nil => rfl
    | append_singleton l a => rw [hb, popLast_append] at hq; cases hq
  · rename_i x q hq
    simp only [Prod.mk.injEq] at h
    exact .inr ⟨x, q, h.1.symm, popLast_some hq, h.2.symm⟩

theorem sampleRestart_phase (cfg : Config P) (o : Oracle P) (s : State P) : (s.sampleRestart cfg o).phase = .initial := by
  rw [sampleRestart_eq]

theorem generate_phase [DecidableEq P] {cfg : Config P} {o : Oracle P} {n : ℕ} {s s' : State P} (h : s.generateEvals cfg o n = some s') :
    s'.phase = s.phase ∧ s'.pendingEvals = s.pendingEvals := by
  rcases generateEvals_cases h with ⟨ws, z, rfl, _⟩ | ⟨_, rfl, _⟩ <;> exact ⟨rfl, rfl⟩

/-- `propose_action` in synchronous mode: nothing is proposed, or the last queued point, or the last point of a new batch. -/
theorem propose_sync [DecidableEq P] {cfg : Config P} (ha : cfg.asynchronous = false) (hb : 0 < cfg.batchSize) {o : Oracle P} {s s' : State P}
    {a : Action P} (h : s.proposeAction cfg o = some (a, s')) :
    ((∀ x k, a ≠ .eval x k) ∧ ∃ t p c, s' = { s with terminate := t, phase := p, converged := c } ∧
      (p = s.phase ∨ s.batchQueue = [] ∧ p = .adaptive) ∧
      (c = s.converged ∨ c = true ∧ (cfg.srbf = none ∨ s.srbf = none) ∧ cfg.useRestarts = false)) ∨
    (s.converged = false ∧ ∃ x q, a = .eval x (kindOf s.phase) ∧ s.batchQueue = q ++ [x] ∧
      s' = State.makeProposal { s with batchQueue := q } x) ∨
    (s.pendingEvals = 0 ∧ s.terminate = false ∧ s.numEvals + s.pendingEvals < cfg.maxEvals ∧
      (s.converged = true ∨ s.batchQueue = []) ∧ ∃ b x q, nextBase cfg o s = some b ∧
      a = .eval x (kindOf b.phase) ∧ b.batchQueue = q ++ [x] ∧ s' = State.makeProposal { b with batchQueue := q } x) := by
  by_cases hg : s.terminate = true ∨ cfg.maxEvals ≤ s.numEvals + s.pendingEvals
  · rw [proposeAction_terminate hg] at h
    simp only [Option.some.injEq, Prod.mk.injEq] at h
    refine .inl ⟨?_, true, s.phase, s.converged, h.2.symm, .inl rfl, .inl rfl⟩
    intro x k
    rw [← h.1]
    split_ifs <;> simp
  simp only [not_or, not_le, Bool.not_eq_true] at hg
  rw [proposeAction_going hg.1 hg.2] at h
  have none_case : ∀ {a : Action P} {s' : State P}, some (Action.nothing, s) = some (a, s') → _ := fun {a s'} h => by
    simp only [Option.some.injEq, Prod.mk.injEq] at h
    exact (show (∀ x k, a ≠ .eval x k) ∧ ∃ t p c, s' = { s with terminate := t, phase := p, converged := c } ∧
      (p = s.phase ∨ s.batchQueue = [] ∧ p = .adaptive) ∧
      (c = s.converged ∨ c = true ∧ (cfg.srbf = none ∨ s.srbf = none) ∧ cfg.useRestarts = false) from
        ⟨by intro x k; rw [← h.1]; simp, s.terminate, s.phase, s.converged, h.2.symm, .inl rfl, .inl rfl⟩)
  by_cases hc : s.converged = true
  · rw [if_pos hc] at h
    by_cases hr : cfg.useRestarts = true
    · rw [if_pos hr, ha, Bool.false_or] at h
      by_cases hp : s.pendingEvals = 0
      · rw [if_pos (by simpa using hp)] at h
        obtain ⟨x, q, rfl, hq, rfl⟩ := initProposal_some h
        refine .inr (.inr ⟨hp, hg.1, hg.2, .inl hc, s.sampleRestart cfg o, x, q, ?_, ?_, hq, rfl⟩)
        · simp [nextBase, hc, hr]
        · rw [sampleRestart_phase]; rfl
      · rw [if_neg (by simpa using hp)] at h
        exact .inl (none_case h)
    · rw [if_neg hr] at h
      exact .inl (none_case h)
  rw [if_neg hc] at h
  have hcf : s.converged = false := by simpa using hc
  by_cases hq : s.batchQueue = []
  · rw [if_pos (by simp [hq])] at h
    unfold State.adaptBranch at h
    rw [if_neg (by simp [ha])] at h
    by_cases hp : s.pendingEvals = 0
    · rw [if_pos (by simpa using hp)] at h
      cases hge : ({ s with phase := .adaptive } : State P).generateEvals cfg o cfg.batchSize with
      | none => rw [hge] at h; cases h
      | some s1 =>
        rw [hge] at h
        simp only at h
        have hph := (generate_phase hge).1
        have hpe := (generate_phase hge).2
        unfold State.afterGenerate at h
        by_cases hc1 : s1.converged = true
        · by_cases hr : cfg.useRestarts = true
          · rw [if_pos (by simp [hc1, hr]), ha, Bool.false_or, if_pos (by rw [hpe]; simpa using hp)] at h
            obtain ⟨x, q, rfl, hq', rfl⟩ := initProposal_some h
            refine .inr (.inr ⟨hp, hg.1, hg.2, .inr hq, s1.sampleRestart cfg o, x, q, ?_, ?_, hq', rfl⟩)
            · unfold nextBase; rw [if_neg hc, hge]; simp only [hc1, hr, if_true]
            · rw [sampleRestart_phase]; rfl
          · rw [if_neg (by simp [hr])] at h
            rcases generateEvals_cases hge with ⟨ws, z, rfl, _⟩ | ⟨hgu, rfl, hz⟩
            · exact absurd hc1 (by simpa using hcf)
            · simp only [Option.some.injEq] at h
              rcases adaptProposal_cases h with ⟨_, rfl, rfl⟩ | ⟨x, q, _, hq', _⟩
              · exact .inl ⟨by simp, s.terminate, .adaptive, true, rfl, .inr ⟨hq, rfl⟩, .inr ⟨rfl, hz, by simpa using hr⟩⟩
              · exfalso; simp only [hq] at hq'; cases q <;> cases hq'
        · rw [if_neg (by simp [hc1])] at h
          simp only [Option.some.injEq] at h
          rcases adaptProposal_cases h with ⟨hq', _, _⟩ | ⟨x, q, rfl, hq', rfl⟩
          · exfalso
            rcases generateEvals_cases hge with ⟨ws, z, rfl, _⟩ | ⟨hgu, rfl, hz⟩
            · simp only [hq, List.nil_append, List.map_eq_nil_iff, List.range_eq_nil] at hq'
              omega
            · exact hc1 rfl
          · refine .inr (.inr ⟨hp, hg.1, hg.2, .inr hq, s1, x, q, ?_, ?_, hq', rfl⟩)
            · unfold nextBase; rw [if_neg hc, hge]; simp only [hc1]; rfl
            · rw [hph]; rfl
    · rw [if_neg (by simpa using hp)] at h
      unfold State.afterGenerate at h
      rw [if_neg (by simp [hcf])] at h
      simp only [Option.some.injEq] at h
      rcases adaptProposal_cases h with ⟨_, rfl, rfl⟩ | ⟨x, q, _, hq', _⟩
      · exact .inl ⟨by simp, s.terminate, .adaptive, s.converged, rfl, .inr ⟨hq, rfl⟩, .inl rfl⟩
      · exfalso; simp only [hq] at hq'; cases q <;> cases hq'
  · rw [if_neg (by simpa using hq)] at h
    right; left
    refine ⟨hcf, ?_⟩
    rcases (by cases s.phase <;> simp : s.phase = .initial ∨ s.phase = .adaptive) with hph | hph
    · have hk : kindOf s.phase = .init := by rw [hph]; rfl
      rw [hk]
      rw [hph] at h
      exact initProposal_some h
    · have hk : kindOf s.phase = .adapt := by rw [hph]; rfl
      rw [hk]
      rw [hph] at h
      simp only [Option.some.injEq] at h
      rcases adaptProposal_cases h with ⟨hq', _, _⟩ | h
      · exact absurd hq' hq
      · exact h

theorem adjust_queue (ft mft : ℤ) (z : Srbf) (q : List Val) (v : Val) :
    ({ z with recordQueue := q } : Srbf).adjust ft mft v = z.adjust ft mft v := by
  unfold Srbf.adjust Srbf.isImprovement
  simp only
  cases z.fbest <;> simp only
  · split_ifs <;> simp_all
  · split_ifs <;> simp_all

theorem minValue_spec (q : List Val) (v : Val) : minValue q v ∈ q ++ [v] ∧ ∀ u ∈ q ++ [v], minValue q v ≤ u := by
  unfold minValue
  induction q generalizing v with
  | nil => simp
  | cons y q ih =>
    obtain ⟨h1, h2⟩ := ih (min v y)
    simp only [List.foldl_cons]
    constructor
    · rcases List.mem_append.mp h1 with h | h
      · simp [h]
      · simp only [List.mem_singleton] at h
        rw [h]
        rcases min_choice v y with h | h <;> simp [h]
    · intro u hu
      have h3 := h2 (min v y) (by simp)
      simp only [List.cons_append, List.mem_cons, List.mem_append, List.mem_singleton, List.not_mem_nil, or_false] at hu
      rcases hu with rfl | hu | rfl
      · exact h3.trans (min_le_right _ _)
      · exact h2 u (by simp [hu])
      · exact h3.trans (min_le_left _ _)

end


variable {d : ℕ}

/-- Facts about the state at the beginning of a batch. -/
structure IsBase (cfg : Config (Pt d)) (b : State (Pt d)) : Prop where
  queue : b.batchQueue ≠ []
  conv : b.converged = false
  pend : b.pendingEvals = 0
  xpend : b.Xpend = []
  ev : b.evLast < b.evNext
  some : ∀ sc, cfg.srbf = some sc → ∃ z, b.srbf = some z ∧ z.recordQueue = []
  none : cfg.srbf = none → b.srbf = none

/-- The system within the batch that began in state `b`: `popped` are the points proposed, `done` the points completed since,
with objective function `f`. -/
structure Within (cfg : Config (Pt d)) (f : Pt d → Val) (b : State (Pt d)) (w : Sys (Pt d)) (popped done : List (Pt d)) : Prop where
  queue : b.batchQueue = w.st.batchQueue ++ popped.reverse
  perm : popped.Perm (done ++ w.inflight)
  X : w.st.X = b.X ++ done
  fX : w.st.fX = b.fX ++ done.map f
  curX : w.st.curX = b.curX ++ done
  curFX : w.st.curFX = b.curFX ++ done.map f
  surr : w.st.surr = b.surr ++ done.map fun x => (x, f x)
  pend : w.st.pendingEvals = w.inflight.length
  xpend : ∀ x ∈ w.st.Xpend, x ∈ w.inflight
  phase : w.st.phase = b.phase ∨ w.st.batchQueue = []
  kp : ∀ p ∈ w.props, p.kind = kindOf b.phase
  kr : ∀ r ∈ w.recs, r.kind = kindOf b.phase
  ev : w.st.evLast < w.st.evNext
  ids : ∀ r ∈ w.recs, w.st.evLast < r.evId
  plain : cfg.srbf = none ∨ b.phase = .initial →
    w.st.srbf = b.srbf ∧ (w.st.converged = true → cfg.srbf = none ∧ cfg.useRestarts = false)
  going : ∀ sc z, cfg.srbf = some sc → b.phase = .adaptive → b.srbf = some z → done.length < b.batchQueue.length →
    w.st.srbf = some { z with recordQueue := done.map f } ∧ w.st.converged = false
  over : ∀ sc z, cfg.srbf = some sc → b.phase = .adaptive → b.srbf = some z → done.length = b.batchQueue.length →
    ∃ v ∈ done.map f, (∀ u ∈ done.map f, v ≤ u) ∧ w.st.srbf = some (z.adjust (failtol cfg sc) (maxfailtol cfg sc) v).1 ∧
      w.st.converged = (z.adjust (failtol cfg sc) (maxfailtol cfg sc) v).2.2

namespace Within

variable {cfg : Config (Pt d)} {f : Pt d → Val} {b : State (Pt d)} {w : Sys (Pt d)} {popped done : List (Pt d)}

theorem count (h : Within cfg f b w popped done) :
    b.batchQueue.length = w.st.batchQueue.length + done.length + w.inflight.length := by
  rw [h.queue, List.length_append, List.length_reverse, h.perm.length_eq, List.length_append]
  omega

/-- The beginning of a batch. -/
theorem start (hb : IsBase cfg b) : Within cfg f b ⟨b, [], []⟩ [] [] where
  queue := by simp
  perm := by simp [Sys.inflight]
  X := by simp
  fX := by simp
  curX := by simp
  curFX := by simp
  surr := by simp
  pend := by simp [Sys.inflight, hb.pend]
  xpend := by simp [hb.xpend]
  phase := .inl rfl
  kp := by simp
  kr := by simp
  ev := hb.ev
  ids := by simp
  plain := fun _ => ⟨rfl, fun h => by rw [hb.conv] at h; cases h⟩
  going := by
    intro sc z hsc _ hz _
    obtain ⟨z', hz', hq⟩ := hb.some sc hsc
    rw [hz] at hz'
    cases hz'
    refine ⟨?_, hb.conv⟩
    rw [hz]
    simp [← hq]
  over := by
    intro sc z _ _ _ hl
    exact absurd (List.length_eq_zero_iff.mp hl.symm) hb.queue

theorem silent (h : Within cfg f b w popped done) (hz : ∀ sc, cfg.srbf = some sc → w.st.srbf ≠ none) {t : Bool} {p : Phase} {c : Bool}
    (hp : p = w.st.phase ∨ w.st.batchQueue = [] ∧ p = .adaptive)
    (hc : c = w.st.converged ∨ c = true ∧ (cfg.srbf = none ∨ w.st.srbf = none) ∧ cfg.useRestarts = false) (l : List (Event (Pt d))) :
    Within cfg f b ⟨{ w.st with terminate := t, phase := p, converged := c, log := l }, w.props, w.recs⟩ popped done := by
  have hcn : cfg.srbf ≠ none → c = w.st.converged := by
    intro hn
    rcases hc with hc | ⟨_, hs | hs, _⟩
    · exact hc
    · exact absurd hs hn
    · obtain ⟨sc, hsc⟩ := Option.ne_none_iff_exists'.mp hn
      exact absurd hs (hz sc hsc)
  exact
  { queue := h.queue, perm := h.perm, X := h.X, fX := h.fX, curX := h.curX, curFX := h.curFX, surr := h.surr, pend := h.pend
    xpend := h.xpend
    phase := by
      rcases hp with rfl | ⟨hq, _⟩
      · exact h.phase
      · exact .inr hq
    kp := h.kp, kr := h.kr, ev := h.ev, ids := h.ids
    plain := by
      intro hh
      refine ⟨(h.plain hh).1, ?_⟩
      intro hct
      by_cases hn : cfg.srbf = none
      · rcases hc with rfl | ⟨_, _, hr⟩
        · exact (h.plain hh).2 hct
        · exact ⟨hn, hr⟩
      · rw [hcn hn] at hct
        exact (h.plain hh).2 hct
    going := by
      intro sc z hsc hph hbz hl
      have := h.going sc z hsc hph hbz hl
      exact ⟨this.1, by rw [hcn (by simp [hsc])]; exact this.2⟩
    over := by
      intro sc z hsc hph hbz hl
      obtain ⟨v, hv, hm, hs, hcv⟩ := h.over sc z hsc hph hbz hl
      exact ⟨v, hv, hm, hs, by rw [hcn (by simp [hsc])]; exact hcv⟩ }

theorem pop (h : Within cfg f b w popped done) {x : Pt d} {q : List (Pt d)} (hq : w.st.batchQueue = q ++ [x])
    (l : List (Event (Pt d))) :
    Within cfg f b ⟨{ State.makeProposal { w.st with batchQueue := q } x with log := l }, w.props ++ [⟨x, kindOf w.st.phase⟩], w.recs⟩
      (popped ++ [x]) done := by
  have hph : w.st.phase = b.phase := by
    rcases h.phase with h | h
    · exact h
    · rw [h] at hq; cases q <;> cases hq
  have hin : (⟨{ State.makeProposal { w.st with batchQueue := q } x with log := l }, w.props ++ [⟨x, kindOf w.st.phase⟩], w.recs⟩ :
      Sys (Pt d)).inflight.Perm (x :: w.inflight) := by
    simp only [Sys.inflight, List.map_append, List.map_cons, List.map_nil, List.append_assoc, List.singleton_append]
    exact List.perm_middle
  refine ⟨?_, ?_, h.X, h.fX, h.curX, h.curFX, h.surr, ?_, ?_, .inl hph, ?_, h.kr, h.ev, h.ids, h.plain, h.going, h.over⟩
  · rw [h.queue, hq]; simp [State.makeProposal]
  · have h1 := h.perm
    have : (popped ++ [x]).Perm (x :: (done ++ w.inflight)) :=
      (List.perm_append_singleton x popped).trans (h1.cons x)
    refine this.trans ?_
    refine List.perm_middle.symm.trans ?_
    exact List.Perm.append_left done hin.symm
  · rw [hin.length_eq]
    simp [State.makeProposal, h.pend]
  · intro y hy
    rw [hin.mem_iff]
    simp only [State.makeProposal, List.mem_append, List.mem_singleton] at hy
    rcases hy with hy | rfl
    · exact List.mem_cons_of_mem _ (h.xpend y hy)
    · simp
  · intro p hp
    rcases List.mem_append.mp hp with hp | hp
    · exact h.kp p hp
    · rw [List.mem_singleton] at hp; rw [hp, ← hph]

theorem accept (h : Within cfg f b w popped done) {i : ℕ} {p : Proposal (Pt d)} (hi : w.props[i]? = some p) (l : List (Event (Pt d))) :
    Within cfg f b ⟨{ w.st.onAccept with log := l }, w.props.eraseIdx i,
      w.recs ++ [{ x := p.x, kind := p.kind, evId := w.st.evNext, accAt := w.st.log.length }]⟩ popped done := by
  obtain ⟨hlt, hpe⟩ := List.getElem?_eq_some_iff.mp hi
  have hpm : p ∈ w.props := hpe ▸ List.getElem_mem hlt
  have hperm : w.props.Perm (p :: w.props.eraseIdx i) := by
    have := List.getElem_cons_eraseIdx_perm hlt
    rw [hpe] at this
    exact this.symm
  have hin : w.inflight.Perm (⟨{ w.st.onAccept with log := l }, w.props.eraseIdx i,
      w.recs ++ [{ x := p.x, kind := p.kind, evId := w.st.evNext, accAt := w.st.log.length }]⟩ : Sys (Pt d)).inflight := by
    simp only [Sys.inflight, List.map_append, List.map_cons, List.map_nil]
    refine ((hperm.map Proposal.x).append_right _).trans ?_
    simp only [List.map_cons, List.cons_append]
    rw [← List.append_assoc]
    exact (List.perm_append_singleton _ _).symm
  refine ⟨h.queue, h.perm.trans (hin.append_left _), h.X, h.fX, h.curX, h.curFX, h.surr, ?_, ?_, h.phase, ?_, ?_, ?_, ?_, h.plain, h.going, h.over⟩
  · rw [← hin.length_eq]; exact h.pend
  · intro y hy; exact hin.subset (h.xpend y hy)
  · intro q hq; exact h.kp q (List.mem_of_mem_eraseIdx hq)
  · intro r hr
    rcases List.mem_append.mp hr with hr | hr
    · exact h.kr r hr
    · rw [List.mem_singleton] at hr; rw [hr]; exact h.kp p hpm
  · exact Nat.lt_succ_of_lt h.ev
  · intro r hr
    rcases List.mem_append.mp hr with hr | hr
    · exact h.ids r hr
    · rw [List.mem_singleton] at hr; rw [hr]; exact h.ev

theorem complete (h : Within cfg f b w popped done) (hb : IsBase cfg b) (ha : cfg.asynchronous = false) {i : ℕ} {r : Rec (Pt d)}
    (hi : w.recs[i]? = some r) (e : Event (Pt d)) :
    Within cfg f b ⟨(w.st.note e).onCompleted cfg r.x r.kind (f r.x) r.evId, w.props, w.recs.eraseIdx i⟩ popped (done ++ [r.x]) := by
  obtain ⟨hlt, hre⟩ := List.getElem?_eq_some_iff.mp hi
  have hrm : r ∈ w.recs := hre ▸ List.getElem_mem hlt
  have hperm : w.recs.Perm (r :: w.recs.eraseIdx i) := by
    have := List.getElem_cons_eraseIdx_perm hlt
    rw [hre] at this
    exact this.symm
  obtain ⟨fl, hfl⟩ : ∃ fl, fl = w.props.map Proposal.x ++ (w.recs.eraseIdx i).map Rec.x := ⟨_, rfl⟩
  have hin : w.inflight.Perm (r.x :: fl) := by
    rw [hfl]
    exact ((hperm.map Rec.x).append_left _).trans List.perm_middle
  have hcnt := h.count
  rw [hin.length_eq, List.length_cons] at hcnt
  have hid := h.ids r hrm
  have hkind := h.kr r hrm
  -- the part common to all strategies
  obtain ⟨s, hs⟩ : ∃ s, s = (w.st.note e).recordCompleted r.x (f r.x) r.evId := ⟨_, rfl⟩
  have hs' := hs
  rw [recordCompleted_eq] at hs'
  simp only [State.note, gt_iff_lt, if_pos hid] at hs'
  have base : ∀ (z : Option Srbf) (c : Bool) (el en : ℕ) (l : List (Event (Pt d))), el < en → (fl ≠ [] → el = w.st.evLast) →
      (cfg.srbf = none ∨ b.phase = .initial → z = b.srbf ∧ (c = true → cfg.srbf = none ∧ cfg.useRestarts = false)) →
      (∀ sc z', cfg.srbf = some sc → b.phase = .adaptive → b.srbf = some z' → (done ++ [r.x]).length < b.batchQueue.length →
        z = some { z' with recordQueue := (done ++ [r.x]).map f } ∧ c = false) →
      (∀ sc z', cfg.srbf = some sc → b.phase = .adaptive → b.srbf = some z' → (done ++ [r.x]).length = b.batchQueue.length →
        ∃ v ∈ (done ++ [r.x]).map f, (∀ u ∈ (done ++ [r.x]).map f, v ≤ u) ∧
          z = some (z'.adjust (failtol cfg sc) (maxfailtol cfg sc) v).1 ∧
          c = (z'.adjust (failtol cfg sc) (maxfailtol cfg sc) v).2.2) →
      Within cfg f b ⟨{ s with srbf := z, converged := c, evLast := el, evNext := en, log := l }, w.props, w.recs.eraseIdx i⟩ popped
        (done ++ [r.x]) := by
    intro z c el en l hel hfe h1 h2 h3
    have hin' : (⟨{ s with srbf := z, converged := c, evLast := el, evNext := en, log := l }, w.props, w.recs.eraseIdx i⟩ :
      Sys (Pt d)).inflight = fl := hfl.symm
    have q1 : s.batchQueue = w.st.batchQueue := by rw [hs']
    have q2 : s.phase = w.st.phase := by rw [hs']
    refine ⟨?_, ?_, ?_, ?_, ?_, ?_, ?_, ?_, ?_, ?_, h.kp, ?_, hel, ?_, h1, h2, h3⟩
    · show b.batchQueue = s.batchQueue ++ _; rw [q1]; exact h.queue
    · rw [hin']
      refine h.perm.trans ((hin.append_left done).trans ?_)
      simp
    · show s.X = _; rw [hs', ← List.append_assoc, ← h.X]
    · show s.fX = _; rw [hs', List.map_append, ← List.append_assoc, ← h.fX]; rfl
    · show s.curX = _; rw [hs', ← List.append_assoc, ← h.curX]
    · show s.curFX = _; rw [hs', List.map_append, ← List.append_assoc, ← h.curFX]; rfl
    · show s.surr = _; rw [hs', List.map_append, ← List.append_assoc, ← h.surr]; rfl
    · rw [hin']
      show s.pendingEvals = _
      rw [hs']
      show w.st.pendingEvals - 1 = _
      rw [h.pend, hin.length_eq, List.length_cons]
      push_cast; ring
    · rw [hin']
      intro y hy
      have hy' : y ∈ s.Xpend := hy
      rw [hs'] at hy'
      simp only [List.mem_filter, decide_eq_true_eq] at hy'
      have := hin.subset (h.xpend y hy'.1)
      rcases List.mem_cons.mp this with h | h
      · exact absurd h hy'.2
      · exact h
    · show s.phase = _ ∨ s.batchQueue = []
      rw [q1, q2]; exact h.phase
    · intro q hq; exact h.kr q (List.mem_of_mem_eraseIdx hq)
    · intro q hq
      have hne : fl ≠ [] := by
        rw [hfl]
        intro h0
        have := (List.append_eq_nil_iff.mp h0).2
        rw [List.map_eq_nil_iff] at this
        have hq' : q ∈ w.recs.eraseIdx i := hq
        rw [this] at hq'; cases hq'
      show el < q.evId
      rw [hfe hne]
      exact h.ids q (List.mem_of_mem_eraseIdx hq)
  have hsz : s.srbf = w.st.srbf := by rw [hs']
  have hsc : s.converged = w.st.converged := by rw [hs']
  have hsl : s.evLast = w.st.evLast := by rw [hs']
  have hsn : s.evNext = w.st.evNext := by rw [hs']
  have hsp : s.pendingEvals = fl.length := by
    rw [hs']
    show w.st.pendingEvals - 1 = _
    rw [h.pend, hin.length_eq, List.length_cons]
    push_cast; ring
  have hsq : s.batchQueue = w.st.batchQueue := by rw [hs']
  -- without the step control
  have plain_case : (cfg.srbf = none ∨ b.phase = .initial) → Within cfg f b ⟨s, w.props, w.recs.eraseIdx i⟩ popped (done ++ [r.x]) := by
    intro hh
    refine base s.srbf s.converged s.evLast s.evNext s.log ?_ (fun _ => hsl) ?_ ?_ ?_
    · rw [hsl, hsn]; exact h.ev
    · intro _; rw [hsz, hsc]; exact h.plain hh
    · intro sc z hsc' hph
      rcases hh with hh | hh
      · rw [hsc'] at hh; cases hh
      · rw [hph] at hh; cases hh
    · intro sc z hsc' hph
      rcases hh with hh | hh
      · rw [hsc'] at hh; cases hh
      · rw [hph] at hh; cases hh
  unfold State.onCompleted
  rw [← hs]
  rw [hkind]
  rcases (by cases b.phase <;> simp : b.phase = .initial ∨ b.phase = .adaptive) with hph | hph
  · rw [hph]
    exact plain_case (.inr hph)
  rw [hph]
  simp only [kindOf]
  cases hcs : cfg.srbf with
  | none => exact plain_case (.inl hcs)
  | some sc =>
    obtain ⟨z, hbz, hbq⟩ := hb.some sc hcs
    obtain ⟨hwz, hwc⟩ := h.going sc z hcs hph hbz (by omega)
    rw [hsz, hwz]
    simp only [State.srbfCompleted]
    rw [if_pos (show r.evId > s.evLast by rw [hsl]; exact hid), ha, Bool.false_or]
    have hdl : (done ++ [r.x]).length = done.length + 1 := by simp
    by_cases hend : w.st.batchQueue = [] ∧ fl = []
    · rw [if_pos (by rw [hsq, hsp, hend.1, hend.2]; simp), adjustStep_eq]
      simp only [adjust_queue]
      obtain ⟨hv1, hv2⟩ := minValue_spec (done.map f) (f r.x)
      obtain ⟨v, hv⟩ : ∃ v, v = minValue (done.map f) (f r.x) := ⟨_, rfl⟩
      rw [← hv] at hv1 hv2 ⊢
      refine base _ _ _ _ _ ?_ ?_ ?_ ?_ ?_
      · rw [hsn, hsl]
        have := h.ev
        split_ifs <;> omega
      · intro hne; exact absurd hend.2 hne
      · intro hh
        rcases hh with hh | hh
        · rw [hcs] at hh; cases hh
        · rw [hph] at hh; cases hh
      · intro sc' z' _ _ _ hl
        rw [hdl] at hl
        rw [hend.1, hend.2] at hcnt
        simp only [List.length_nil] at hcnt
        omega
      · intro sc' z' hsc' _ hbz' _
        rw [hcs] at hsc'; cases hsc'
        rw [hbz] at hbz'; cases hbz'
        refine ⟨v, by simpa using hv1, by simpa using hv2, rfl, ?_⟩
        rw [hsc, hwc, Bool.false_or]
    · have hne : ¬ ((w.st.batchQueue.isEmpty && (fl.length : ℤ) == 0) = true) := by
        intro hh
        simp only [Bool.and_eq_true, List.isEmpty_iff, beq_iff_eq, Int.natCast_eq_zero, List.length_eq_zero_iff] at hh
        exact hend hh
      rw [← hsq, ← hsp] at hne
      rw [if_neg hne]
      refine base _ s.converged s.evLast s.evNext s.log ?_ (fun _ => hsl) ?_ ?_ ?_
      · rw [hsl, hsn]; exact h.ev
      · intro hh
        rcases hh with hh | hh
        · rw [hcs] at hh; cases hh
        · rw [hph] at hh; cases hh
      · intro sc' z' hsc' _ hbz' _
        rw [hbz] at hbz'; cases hbz'
        refine ⟨by simp, ?_⟩
        rw [hsc, hwc]
      · intro sc' z' _ _ _ hl
        exfalso
        rw [hdl] at hl
        apply hend
        have : w.st.batchQueue.length = 0 ∧ fl.length = 0 := by omega
        exact ⟨List.length_eq_zero_iff.mp this.1, List.length_eq_zero_iff.mp this.2⟩

end Within

/-- The states at which batches begin agree up to the order of the data. -/
structure BaseEq (b b' : State (Pt d)) : Prop where
  data : SameData b b'
  queue : b.batchQueue = b'.batchQueue
  phase : b.phase = b'.phase

theorem SameData.congr {s s' : State (Pt d)} (h : SameData s s') (p p' : Phase) (c c' : Bool) (q q' : List (Pt d))
    (z : Option Srbf) (l l' : List (Event (Pt d))) :
    SameData { s with phase := p, converged := c, batchQueue := q, srbf := z, log := l }
      { s' with phase := p', converged := c', batchQueue := q', srbf := z, log := l' } :=
  ⟨h.cur, h.fX, h.X, h.surr, h.Xpend, rfl⟩

/-- At the end of the batch the data agree up to their order. -/
theorem Within.sameData {cfg : Config (Pt d)} {f : Pt d → Val} {b b' : State (Pt d)} {w w' : Sys (Pt d)}
    {popped done popped' done' : List (Pt d)} (hb : IsBase cfg b) (hbb : BaseEq b b')
    (h : Within cfg f b w popped done) (h' : Within cfg f b' w' popped' done') (hq : w.st.batchQueue = []) (hq' : w'.st.batchQueue = [])
    (hi : w.inflight = []) (hi' : w'.inflight = []) :
    popped = popped' ∧ SameData w.st w'.st ∧
      (w.st.converged = w'.st.converged ∨ cfg.useRestarts = false ∧ (w.st.converged = true ∨ w'.st.converged = true)) := by
  have e1 : b.batchQueue = popped.reverse := by rw [h.queue, hq, List.nil_append]
  have e2 : b'.batchQueue = popped'.reverse := by rw [h'.queue, hq', List.nil_append]
  have hpop : popped = popped' := by
    have := hbb.queue
    rw [e1, e2] at this
    exact List.reverse_injective this
  have hd : done.Perm done' := by
    have p1 := h.perm
    have p2 := h'.perm
    rw [hi, List.append_nil] at p1
    rw [hi', List.append_nil, ← hpop] at p2
    exact p1.symm.trans p2
  have hlen : done.length = b.batchQueue.length := by
    have := h.count
    rw [hq, hi] at this
    simpa using this.symm
  have hlen' : done'.length = b'.batchQueue.length := by
    have := h'.count
    rw [hq', hi'] at this
    simpa using this.symm
  have hx : w.st.Xpend = [] := List.eq_nil_iff_forall_not_mem.mpr fun y hy => by have := h.xpend y hy; rw [hi] at this; cases this
  have hx' : w'.st.Xpend = [] := List.eq_nil_iff_forall_not_mem.mpr fun y hy => by have := h'.xpend y hy; rw [hi'] at this; cases this
  have hctl : w.st.srbf = w'.st.srbf ∧
      (w.st.converged = w'.st.converged ∨ cfg.useRestarts = false ∧ (w.st.converged = true ∨ w'.st.converged = true)) := by
    by_cases hpl : cfg.srbf = none ∨ b.phase = .initial
    · have a := h.plain hpl
      have a' := h'.plain (by rw [← hbb.phase]; exact hpl)
      refine ⟨by rw [a.1, a'.1, hbb.data.srbf], ?_⟩
      by_cases hc : w.st.converged = true
      · exact .inr ⟨(a.2 hc).2, .inl hc⟩
      · by_cases hc' : w'.st.converged = true
        · exact .inr ⟨(a'.2 hc').2, .inr hc'⟩
        · left; simp only [Bool.not_eq_true] at hc hc'; rw [hc, hc']
    · rw [not_or] at hpl
      obtain ⟨sc, hsc⟩ := Option.ne_none_iff_exists'.mp hpl.1
      have hph : b.phase = .adaptive := by
        cases hbp : b.phase with
        | initial => exact absurd hbp hpl.2
        | adaptive => rfl
      obtain ⟨z, hz, _⟩ := hb.some sc hsc
      obtain ⟨v, hv, hm, hs, hc⟩ := h.over sc z hsc hph hz hlen
      obtain ⟨v', hv', hm', hs', hc'⟩ := h'.over sc z hsc (by rw [← hbb.phase]; exact hph) (by rw [← hbb.data.srbf]; exact hz) hlen'
      have hvv : v = v' := le_antisymm (hm v' ((hd.map f).mem_iff.mpr hv')) (hm' v ((hd.map f).mem_iff.mp hv))
      subst hvv
      exact ⟨by rw [hs, hs'], .inl (by rw [hc, hc'])⟩
  refine ⟨hpop, ?_, hctl.2⟩
  obtain ⟨c, c', hc, hX, hF, hX', hF'⟩ := hbb.data.cur
  refine ⟨⟨c ++ done.map fun x => (x, f x), c' ++ done'.map fun x => (x, f x), hc.append (hd.map _), ?_, ?_, ?_, ?_⟩, ?_, ?_, ?_, ?_, hctl.1⟩
  · rw [h.curX, hX, List.map_append, List.map_map]; simp [Function.comp_def]
  · rw [h.curFX, hF, List.map_append, List.map_map]; simp [Function.comp_def]
  · rw [h'.curX, hX', List.map_append, List.map_map]; simp [Function.comp_def]
  · rw [h'.curFX, hF', List.map_append, List.map_map]; simp [Function.comp_def]
  · rw [h.fX, h'.fX]; exact hbb.data.fX.append (hd.map f)
  · rw [h.X, h'.X, List.length_append, List.length_append, hbb.data.X, hd.length_eq]
  · rw [h.surr, h'.surr]; exact hbb.data.surr.append (hd.map _)
  · rw [hx, hx']

theorem restart_sameData {cfg : Config (Pt d)} {o : Oracle (Pt d)} {s s' : State (Pt d)} (h : SameData s s')
    (hq : s.batchQueue = s'.batchQueue) : BaseEq (s.sampleRestart cfg o) (s'.sampleRestart cfg o) := by
  have hXX : s.X = [] ↔ s'.X = [] := by
    rw [← List.length_eq_zero_iff, ← List.length_eq_zero_iff, h.X]
  rw [sampleRestart_eq, sampleRestart_eq]
  by_cases hX : s.X = []
  · have hX' := hXX.mp hX
    refine ⟨⟨⟨[], [], .nil, rfl, rfl, rfl, rfl⟩, ?_, ?_, ?_, h.Xpend, ?_⟩, ?_, rfl⟩
    · simp only [if_pos hX, if_pos hX']; exact h.fX.append_right _
    · simp [hX, hX']
    · simp [hX, hX']
    · simp [h.srbf]
    · simp [hX, hX', hq]
  · have hX' := mt hXX.mpr hX
    refine ⟨⟨⟨[], [], .nil, rfl, rfl, rfl, rfl⟩, ?_, ?_, ?_, h.Xpend, ?_⟩, ?_, rfl⟩
    · simp only [if_neg hX, if_neg hX', List.append_nil]; exact h.fX
    · simpa [hX, hX'] using h.X
    · simp [hX, hX']
    · simp [h.srbf]
    · simp [hX, hX', hq]

/-- The next batch is the same, up to the order of the data. -/
theorem nextBase_sameData {cfg : Config (Pt d)} {o : Oracle (Pt d)} {s s' b b' : State (Pt d)} (h : SameData s s')
    (hq : s.batchQueue = s'.batchQueue) (hc : s.converged = s'.converged) (hb : nextBase cfg o s = some b)
    (hb' : nextBase cfg o s' = some b') : BaseEq b b' := by
  unfold nextBase at hb hb'
  by_cases hcs : s.converged = true
  · rw [if_pos hcs] at hb
    rw [if_pos (hc ▸ hcs)] at hb'
    by_cases hr : cfg.useRestarts = true
    · rw [if_pos hr] at hb hb'
      cases hb; cases hb'
      exact restart_sameData h hq
    · rw [if_neg hr] at hb; cases hb
  · rw [if_neg hcs] at hb
    rw [if_neg (hc ▸ hcs)] at hb'
    have hcf : s.converged = false := by simpa using hcs
    have hcf' : s'.converged = false := by rw [← hc]; exact hcf
    cases hg : ({ s with phase := .adaptive } : State (Pt d)).generateEvals cfg o cfg.batchSize with
    | none => rw [hg] at hb; cases hb
    | some s1 =>
      cases hg' : ({ s' with phase := .adaptive } : State (Pt d)).generateEvals cfg o cfg.batchSize with
      | none => rw [hg'] at hb'; cases hb'
      | some s1' =>
        rw [hg] at hb
        rw [hg'] at hb'
        simp only at hb hb'
        have hS : SameData s1 s1' ∧ s1.batchQueue = s1'.batchQueue ∧ s1.converged = s1'.converged ∧ s1.phase = s1'.phase := by
          unfold State.generateEvals at hg hg'
          simp only at hg hg'
          have other : ∀ t t' : State (Pt d), (if o.giveUp = true then some ({ s with phase := .adaptive, converged := true } : State (Pt d))
                else some { s with phase := .adaptive, batchQueue := s.batchQueue ++ (List.range cfg.batchSize).map o.pts, log := s.log ++ [.generated ((List.range cfg.batchSize).map o.pts) []] }) = some t →
              (if o.giveUp = true then some ({ s' with phase := .adaptive, converged := true } : State (Pt d))
                else some { s' with phase := .adaptive, batchQueue := s'.batchQueue ++ (List.range cfg.batchSize).map o.pts, log := s'.log ++ [.generated ((List.range cfg.batchSize).map o.pts) []] }) = some t' →
              SameData t t' ∧ t.batchQueue = t'.batchQueue ∧ t.converged = t'.converged ∧ t.phase = t'.phase := by
            intro t t' ht ht'
            by_cases hgu : o.giveUp = true
            · rw [if_pos hgu] at ht ht'
              simp only [Option.some.injEq] at ht ht'
              subst ht; subst ht'
              exact ⟨⟨h.cur, h.fX, h.X, h.surr, h.Xpend, h.srbf⟩, hq, rfl, rfl⟩
            · rw [if_neg hgu] at ht ht'
              simp only [Option.some.injEq] at ht ht'
              subst ht; subst ht'
              exact ⟨⟨h.cur, h.fX, h.X, h.surr, h.Xpend, h.srbf⟩, by simp [hq], hc, rfl⟩
          cases hA : cfg.srbf with
          | none =>
            rw [hA] at hg hg'
            exact other _ _ hg hg'
          | some sc =>
            cases hB : s.srbf with
            | none =>
              have hB' : s'.srbf = none := by rw [← h.srbf, hB]
              rw [hA] at hg hg'
              split at hg
              · rename_i h2; rw [hB] at h2; cases h2
              split at hg'
              · rename_i h2; rw [hB'] at h2; cases h2
              exact other _ _ hg hg'
            | some z =>
              have hB' : s'.srbf = some z := by rw [← h.srbf, hB]
              rw [hA] at hg hg'
              rw [hB] at hg
              rw [hB'] at hg'
              simp only at hg hg'
              cases hw : getWeights sc.weights z.nextWeight cfg.batchSize with
              | none => rw [hw] at hg; cases hg
              | some p =>
                obtain ⟨ws, next'⟩ := p
                rw [hw] at hg hg'
                simp only [Option.some.injEq] at hg hg'
                subst hg; subst hg'
                exact ⟨⟨h.cur, h.fX, h.X, h.surr, h.Xpend, rfl⟩, by simp [hq], hc, rfl⟩
        obtain ⟨hS1, hS2, hS3, hS4⟩ := hS
        rw [← hS3] at hb'
        by_cases hc1 : s1.converged = true
        · rw [if_pos hc1] at hb hb'
          by_cases hr : cfg.useRestarts = true
          · rw [if_pos hr] at hb hb'
            cases hb; cases hb'
            exact restart_sameData hS1 hS2
          · rw [if_neg hr] at hb; cases hb
        · rw [if_neg hc1] at hb hb'
          cases hb; cases hb'
          exact ⟨hS1, hS2, hS4⟩

/-- The auxiliary problem sees of the surrogate only its predictions for the present data. -/
theorem gen_agree (L : Setup d) {S S' : Surr d} {s : State (Pt d)} (h1 : S'.mean (surrData s) = S.mean (surrData s))
    (h2 : S'.std (surrData s) = S.std (surrData s)) (n : ℕ) (r : Rnd d) : gen L S' s n r = gen L S s n r := by
  unfold gen genWith
  rw [h1, h2]

theorem create_isBase {cfg : Config (Pt d)} (hn : 0 < cfg.numPts) (o : Oracle (Pt d)) : IsBase cfg (State.create cfg o) := by
  rw [create_eq]
  refine ⟨?_, rfl, rfl, rfl, by simp [State.blank], ?_, ?_⟩
  · intro h
    simp only [List.append_eq_nil_iff, List.map_eq_nil_iff, List.range_eq_nil] at h
    omega
  · intro sc hsc
    exact ⟨⟨0, 0, 2 / 10, .none, [], 0⟩, by simp only [State.blank, hsc, Option.map_some], rfl⟩
  · intro hn
    simp [State.blank, hn]

theorem restart_isBase {cfg : Config (Pt d)} (hn : 0 < cfg.numPts) (o : Oracle (Pt d)) {s : State (Pt d)} (hp : s.pendingEvals = 0)
    (hx : s.Xpend = []) (h1 : ∀ sc, cfg.srbf = some sc → ∃ z, s.srbf = some z ∧ z.recordQueue = [])
    (h2 : cfg.srbf = none → s.srbf = none) : IsBase cfg (s.sampleRestart cfg o) := by
  rw [sampleRestart_eq]
  refine ⟨?_, rfl, hp, hx, Nat.lt_succ_self _, ?_, ?_⟩
  · intro h
    simp only [List.append_eq_nil_iff, List.map_eq_nil_iff, List.range_eq_nil] at h
    omega
  · intro sc hsc
    obtain ⟨z, hz, hq⟩ := h1 sc hsc
    exact ⟨z.sampleInitial, by simp [hz], by simpa [Srbf.sampleInitial] using hq⟩
  · intro hn
    simp [h2 hn]

theorem nextBase_isBase {cfg : Config (Pt d)} (hn : 0 < cfg.numPts) (hbs : 0 < cfg.batchSize) {o : Oracle (Pt d)} {s b : State (Pt d)}
    (hb : nextBase cfg o s = some b) (hp : s.pendingEvals = 0) (hx : s.Xpend = []) (hev : s.evLast < s.evNext)
    (h1 : ∀ sc, cfg.srbf = some sc → ∃ z, s.srbf = some z ∧ z.recordQueue = []) (h2 : cfg.srbf = none → s.srbf = none) :
    IsBase cfg b := by
  unfold nextBase at hb
  by_cases hcs : s.converged = true
  · rw [if_pos hcs] at hb
    by_cases hr : cfg.useRestarts = true
    · rw [if_pos hr] at hb
      cases hb
      exact restart_isBase hn o hp hx h1 h2
    · rw [if_neg hr] at hb; cases hb
  · rw [if_neg hcs] at hb
    cases hg : ({ s with phase := .adaptive } : State (Pt d)).generateEvals cfg o cfg.batchSize with
    | none => rw [hg] at hb; cases hb
    | some s1 =>
      rw [hg] at hb
      simp only at hb
      have key : s1.pendingEvals = 0 ∧ s1.Xpend = [] ∧ s1.evLast < s1.evNext ∧
          (∀ sc, cfg.srbf = some sc → ∃ z, s1.srbf = some z ∧ z.recordQueue = []) ∧ (cfg.srbf = none → s1.srbf = none) ∧
          (s1.converged = false → s1.batchQueue ≠ []) := by
        rcases generateEvals_cases hg with ⟨ws, z, rfl, hz⟩ | ⟨_, rfl, hz⟩
        · refine ⟨hp, hx, hev, ?_, ?_, ?_⟩
          · intro sc hsc
            obtain ⟨z1, hz1, hq1⟩ := h1 sc hsc
            rcases hz with ⟨sc', z0, next', _, hz0, _, rfl⟩ | ⟨_, hz | hz, _⟩
            · refine ⟨_, rfl, ?_⟩
              simp only at hz0
              rw [hz1] at hz0; cases hz0
              exact hq1
            · rw [hsc] at hz; cases hz
            · simp only at hz; rw [hz1] at hz; cases hz
          · intro hnone
            rcases hz with ⟨sc', z0, next', hsc, _⟩ | ⟨rfl, _⟩
            · rw [hsc] at hnone; cases hnone
            · exact h2 hnone
          · intro _ h
            simp only [List.append_eq_nil_iff, List.map_eq_nil_iff, List.range_eq_nil] at h
            omega
        · exact ⟨hp, hx, hev, h1, h2, fun h => by cases h⟩
      obtain ⟨k1, k2, k3, k4, k5, k6⟩ := key
      by_cases hc1 : s1.converged = true
      · rw [if_pos hc1] at hb
        by_cases hr : cfg.useRestarts = true
        · rw [if_pos hr] at hb
          cases hb
          exact restart_isBase hn o k1 k2 k4 k5
        · rw [if_neg hr] at hb; cases hb
      · rw [if_neg hc1] at hb
        cases hb
        exact ⟨k6 (by simpa using hc1), by simpa using hc1, k1, k2, k3, k4, k5⟩

/-- The facts needed at the end of a batch. -/
theorem Within.ended {cfg : Config (Pt d)} {f : Pt d → Val} {b : State (Pt d)} {w : Sys (Pt d)} {popped done : List (Pt d)}
    (hb : IsBase cfg b) (h : Within cfg f b w popped done) (hq : w.st.batchQueue = []) (hi : w.inflight = []) :
    w.st.pendingEvals = 0 ∧ w.st.Xpend = [] ∧ (∀ sc, cfg.srbf = some sc → ∃ z, w.st.srbf = some z ∧ z.recordQueue = []) ∧
      (cfg.srbf = none → w.st.srbf = none) := by
  refine ⟨by rw [h.pend, hi]; rfl, ?_, ?_, ?_⟩
  · exact List.eq_nil_iff_forall_not_mem.mpr fun y hy => by have := h.xpend y hy; rw [hi] at this; cases this
  · intro sc hsc
    obtain ⟨z, hz, hq0⟩ := hb.some sc hsc
    rcases (by cases b.phase <;> simp : b.phase = .initial ∨ b.phase = .adaptive) with hph | hph
    · exact ⟨z, by rw [(h.plain (.inr hph)).1]; exact hz, hq0⟩
    · have hlen : done.length = b.batchQueue.length := by
        have := h.count
        rw [hq, hi] at this
        simpa using this.symm
      obtain ⟨v, _, _, hs, _⟩ := h.over sc z hsc hph hz hlen
      exact ⟨_, hs, rfl⟩
  · intro hn
    rw [(h.plain (.inl hn)).1]
    exact hb.none hn

/-- The beginnings of the batches of a run: `Chain … k b ps`: batch number `k` begins in state `b`, after the points `ps` were
proposed. -/
inductive Chain (L : Setup d) (S : Surr d) (f : Pt d → Val) (D : List (Pt d)) (rs : ℕ → Rnd d) : ℕ → State (Pt d) → List (Pt d) → Prop
  | start : Chain L S f D rs 0 (State.create L.cfg (oracleOf L D none)) []
  | next {k : ℕ} {b b' : State (Pt d)} {ps popped done : List (Pt d)} {w : Sys (Pt d)} {g : Option (List (Pt d))} :
      Chain L S f D rs k b ps → Within L.cfg f b w popped done → w.st.batchQueue = [] → w.inflight = [] →
      (L.method = .srbf ∨ L.method = .dycors → w.st.converged = false → UniqueBest w.st) →
      (w.st.converged = false → gen L S w.st L.cfg.batchSize (rs (ps ++ popped).length) = some g) → (w.st.converged = true → g = none) →
      nextBase L.cfg (oracleOf L (rs (ps ++ popped).length).design g) w.st = some b' → Chain L S f D rs (k + 1) b' (ps ++ popped)

section chain
variable {L : Setup d} {S : Surr d} {f : Pt d → Val} {D : List (Pt d)} {rs : ℕ → Rnd d}

theorem Chain.isBase (hn : 0 < L.cfg.numPts) (hbs : 0 < L.cfg.batchSize) {k : ℕ} {b : State (Pt d)} {ps : List (Pt d)}
    (h : Chain L S f D rs k b ps) : IsBase L.cfg b := by
  induction h with
  | start => exact create_isBase hn _
  | next _ hw hq hi _ _ _ hb ih =>
    obtain ⟨e1, e2, e3, e4⟩ := hw.ended ih hq hi
    exact nextBase_isBase hn hbs hb e1 e2 hw.ev e3 e4

/-- The batches are determined, up to the order of the data. -/
theorem Chain.determined (hS : OrderFreeSurr S) (hn : 0 < L.cfg.numPts) (hbs : 0 < L.cfg.batchSize) {k : ℕ} {b b' : State (Pt d)}
    {ps ps' : List (Pt d)} (h : Chain L S f D rs k b ps) (h' : Chain L S f D rs k b' ps') : ps = ps' ∧ BaseEq b b' := by
  induction h generalizing b' ps' with
  | start =>
    cases h'
    refine ⟨rfl, ⟨?_, rfl, rfl⟩⟩
    rw [create_eq]
    exact ⟨⟨[], [], .nil, rfl, rfl, rfl, rfl⟩, .rfl, rfl, .rfl, .rfl, rfl⟩
  | @next k b b1 ps popped done w g hc hw hq hi hu hg hg0 hb ih =>
    cases h' with
    | next hc' hw' hq' hi' hu' hg' hg0' hb' =>
      obtain ⟨rfl, hbe⟩ := ih hc'
      obtain ⟨rfl, hsd, hcv⟩ := hw.sameData (hc.isBase hn hbs) hbe hw' hq hq' hi hi'
      refine ⟨rfl, ?_⟩
      have hconv : ∀ {o : Oracle (Pt d)} {s c : State (Pt d)}, nextBase L.cfg o s = some c → s.converged = true → L.cfg.useRestarts = true := by
        intro o s c hnb hst
        unfold nextBase at hnb
        rw [if_pos hst] at hnb
        by_contra hr
        rw [if_neg hr] at hnb
        cases hnb
      rcases hcv with hcv | ⟨hr, hcc | hcc⟩
      · by_cases hct : w.st.converged = true
        · rw [hg0 hct] at hb
          rw [hg0' (hcv ▸ hct)] at hb'
          exact nextBase_sameData hsd (hq.trans hq'.symm) hcv hb hb'
        · have e1 := hg (by simpa using hct)
          have e2 := hg' (by rw [← hcv]; simpa using hct)
          rw [gen_order hS hsd (fun hm => hu hm (by simpa using hct))] at e1
          rw [e1] at e2
          cases e2
          exact nextBase_sameData hsd (hq.trans hq'.symm) hcv hb hb'
      · have := hconv hb hcc; rw [hr] at this; cases this
      · have := hconv hb' hcc; rw [hr] at this; cases this

theorem Chain.before {k : ℕ} {b : State (Pt d)} {ps : List (Pt d)} (h : Chain L S f D rs k b ps) :
    ∀ j < k, ∃ b' ps', Chain L S f D rs j b' ps' ∧ ps' ++ b'.batchQueue.reverse <+: ps := by
  induction h with
  | start => intro j hj; omega
  | @next k b b1 ps popped done w g hc hw hq hi hu hg hg0 hb ih =>
    intro j hj
    have hrev : b.batchQueue.reverse = popped := by rw [hw.queue, hq]; simp
    rcases Nat.lt_succ_iff_lt_or_eq.mp hj with h | rfl
    · obtain ⟨b', ps', h1, h2⟩ := ih j h
      exact ⟨b', ps', h1, h2.trans (List.prefix_append _ _)⟩
    · exact ⟨b, ps, hc, by rw [hrev]⟩

/-- States of a run in which nothing is rejected, killed or lost: the design `D`, then proposals, acceptances and completions
with the values of `f` in any order.  `rs n` are the random draws of a generation of points after `n` proposals; `Q` is a
condition on the states in which a proposal is asked for and the draws.  `S` says what
the surrogate predicts for the present data; the object may be another one in each call as long as it predicts the same. -/
inductive SyncRun (Q : State (Pt d) → Rnd d → Prop) (L : Setup d) (S : Surr d) (f : Pt d → Val) (D : List (Pt d)) (rs : ℕ → Rnd d) :
    Sys (Pt d) → Prop
  | create : SyncRun Q L S f D rs (Sys.create L.cfg (oracleOf L D none))
  | ask {w w' : Sys (Pt d)} (S' : Surr d) : SyncRun Q L S f D rs w → Q w.st (rs (proposals w.st.log).length) →
      (wantsPoints L.cfg w.st → S'.mean (surrData w.st) = S.mean (surrData w.st) ∧ S'.std (surrData w.st) = S.std (surrData w.st)) →
      loopStep L S' f w (.propose (rs (proposals w.st.log).length)) = some w' → SyncRun Q L S f D rs w'
  | accept {w w' : Sys (Pt d)} (i : ℕ) : SyncRun Q L S f D rs w → loopStep L S f w (.accept i) = some w' → SyncRun Q L S f D rs w'
  | complete {w w' : Sys (Pt d)} (i : ℕ) : SyncRun Q L S f D rs w → loopStep L S f w (.complete i) = some w' → SyncRun Q L S f D rs w'

/-- Whenever points are generated by SRBF or DYCORS, the best value of the current run is attained at one point only. -/
def NoTie (L : Setup d) (s : State (Pt d)) : Prop :=
  wantsPoints L.cfg s → L.method = .srbf ∨ L.method = .dycors → UniqueBest s

theorem nextBase_proposals {P : Type} [DecidableEq P] {cfg : Config P} {o : Oracle P} {s b : State P}
    (hb : nextBase cfg o s = some b) : proposals b.log = proposals s.log := by
  unfold nextBase at hb
  by_cases hcs : s.converged = true
  · rw [if_pos hcs] at hb
    by_cases hr : cfg.useRestarts = true
    · rw [if_pos hr] at hb
      cases hb
      rw [sampleRestart_eq]; simp [proposals_append, proposals]
    · rw [if_neg hr] at hb; cases hb
  · rw [if_neg hcs] at hb
    cases hg : ({ s with phase := .adaptive } : State P).generateEvals cfg o cfg.batchSize with
    | none => rw [hg] at hb; cases hb
    | some s1 =>
      rw [hg] at hb
      simp only at hb
      have key : proposals s1.log = proposals s.log := by
        rcases generateEvals_cases hg with ⟨ws, z, rfl, hz⟩ | ⟨_, rfl, hz⟩
        · simp [proposals_append, proposals]
        · rfl
      by_cases hc1 : s1.converged = true
      · rw [if_pos hc1] at hb
        by_cases hr : cfg.useRestarts = true
        · rw [if_pos hr] at hb
          cases hb
          rw [← key, sampleRestart_eq]; simp [proposals_append, proposals]
        · rw [if_neg hr] at hb; cases hb
      · rw [if_neg hc1] at hb
        cases hb
        exact key

theorem onCompleted_proposals {P : Type} [DecidableEq P] (cfg : Config P) (s : State P) (x : P) (k : Kind) (v : Val) (e : ℕ) :
    proposals (s.onCompleted cfg x k v e).log = proposals s.log := by
  have h0 : (s.recordCompleted x v e).log = s.log := by rw [recordCompleted_eq]
  unfold State.onCompleted
  cases k with
  | init => exact congrArg _ h0
  | adapt =>
    simp only
    split
    · unfold State.srbfCompleted
      split_ifs
      · rw [adjustStep_eq]
        simp only [h0, proposals_append]
        split_ifs <;> simp [proposals]
      · exact congrArg _ h0
      · exact congrArg _ h0
    · exact congrArg _ h0

/-- Every state of such a run lies within a batch of the chain. -/
theorem SyncRun.within (ha : L.cfg.asynchronous = false) (hn : 0 < L.cfg.numPts) (hbs : 0 < L.cfg.batchSize)
    {Q : State (Pt d) → Rnd d → Prop} (hub : ∀ s r, Q s r → NoTie L s)
    {w : Sys (Pt d)} (h : SyncRun Q L S f D rs w) :
    ∃ k b ps popped done, Chain L S f D rs k b ps ∧ Within L.cfg f b w popped done ∧ proposals w.st.log = ps ++ popped := by
  induction h with
  | create =>
    refine ⟨0, _, [], [], [], .start, Within.start (create_isBase hn _), ?_⟩
    simp [Sys.create, create_eq, proposals]
  | @ask w w' S' hr hQ hagree hstep ih =>
    obtain ⟨k, b, ps, popped, done, hch, hw, hps⟩ := ih
    have hbase := hch.isBase hn hbs
    simp only [loopStep, Option.bind_eq_some_iff] at hstep
    obtain ⟨g, hans, hstep⟩ := hstep
    obtain ⟨o, ho⟩ : ∃ o, o = oracleOf L (rs (proposals w.st.log).length).design g := ⟨_, rfl⟩
    rw [← ho] at hstep
    have hzn : ∀ sc, L.cfg.srbf = some sc → w.st.srbf ≠ none := by
      intro sc hsc
      obtain ⟨z, hz, _⟩ := hbase.some sc hsc
      rcases (by cases b.phase <;> simp : b.phase = .initial ∨ b.phase = .adaptive) with hph | hph
      · rw [(hw.plain (.inr hph)).1, hz]; simp
      · rcases Nat.lt_or_ge done.length b.batchQueue.length with hl | hl
        · rw [(hw.going sc z hsc hph hz hl).1]; simp
        · have := hw.count
          obtain ⟨v, _, _, hs, _⟩ := hw.over sc z hsc hph hz (by omega)
          rw [hs]; simp
    cases hpa : w.st.proposeAction L.cfg o with
    | none => simp only [Sys.step, hpa] at hstep; cases hstep
    | some as =>
      obtain ⟨a, s⟩ := as
      rcases propose_sync ha hbs hpa with ⟨hne, t, p, c, hs, hp, hc⟩ | ⟨hcf, x, q, rfl, hq, rfl⟩ | ⟨hpe, htf, hbud, hcq, b', x, q, hnb, rfl, hq, rfl⟩
      · refine ⟨k, b, ps, popped, done, hch, ?_⟩
        cases a with
        | eval x kd => exact absurd rfl (hne x kd)
        | nothing =>
          simp only [Sys.step, hpa, Option.some.injEq] at hstep
          rw [← hstep, hs]
          exact ⟨hw.silent hzn hp hc w.st.log, hps⟩
        | terminate =>
          simp only [Sys.step, hpa, Option.some.injEq] at hstep
          rw [← hstep, hs]
          refine ⟨hw.silent hzn hp hc (w.st.log ++ [Event.terminated]), ?_⟩
          show proposals (w.st.log ++ [Event.terminated]) = _
          rw [proposals_append, hps]; simp [proposals]
      · simp only [Sys.step, hpa, Option.some.injEq] at hstep
        refine ⟨k, b, ps, popped ++ [x], done, hch, ?_⟩
        rw [← hstep]
        refine ⟨hw.pop hq (w.st.log ++ [Event.proposed x (kindOf w.st.phase)]), ?_⟩
        show proposals (w.st.log ++ [Event.proposed x (kindOf w.st.phase)]) = _
        rw [proposals_append, hps]; simp [proposals]
      · have hidle : w.st.batchQueue = [] ∧ w.inflight = [] := by
          have hin : w.inflight = [] := by
            have := hw.pend
            rw [hpe] at this
            exact List.length_eq_zero_iff.mp (by omega)
          refine ⟨?_, hin⟩
          rcases hcq with hct | hq0
          · have hrst : L.cfg.useRestarts = true := by
              unfold nextBase at hnb
              rw [if_pos hct] at hnb
              by_contra hr
              rw [if_neg hr] at hnb
              cases hnb
            by_cases hpl : L.cfg.srbf = none ∨ b.phase = .initial
            · have := ((hw.plain hpl).2 hct).2
              rw [hrst] at this; cases this
            · rw [not_or] at hpl
              obtain ⟨sc, hsc⟩ := Option.ne_none_iff_exists'.mp hpl.1
              obtain ⟨z, hz, _⟩ := hbase.some sc hsc
              have hph : b.phase = .adaptive := by
                cases hbp : b.phase with
                | initial => exact absurd hbp hpl.2
                | adaptive => rfl
              rcases Nat.lt_or_ge done.length b.batchQueue.length with hl | hl
              · have := (hw.going sc z hsc hph hz hl).2
                rw [hct] at this; cases this
              · have := hw.count
                exact List.length_eq_zero_iff.mp (by omega)
          · exact hq0
        have hwant : w.st.converged = false → wantsPoints L.cfg w.st := fun hcf => ⟨htf, hbud, hcf, hidle.1, .inr hpe⟩
        have hch' : Chain L S f D rs (k + 1) b' (ps ++ popped) := by
          rw [hps] at ho hans
          refine .next (g := g) hch hw hidle.1 hidle.2 (fun hm hcf => hub _ _ hQ (hwant hcf) hm) ?_ ?_ (by rw [← ho]; exact hnb)
          · intro hcf
            have hwp := hwant hcf
            simp only [answer, if_pos hwp, wanted, ha] at hans
            rw [← hans]
            obtain ⟨h1, h2⟩ := hagree hwp
            exact (gen_agree L h1 h2 _ _).symm
          · intro hct
            have hnw : ¬ wantsPoints L.cfg w.st := by
              intro hwp
              have := hwp.2.2.1
              rw [hct] at this; cases this
            simp only [answer, if_neg hnw, Option.some.injEq] at hans
            exact hans.symm
        have hb' := hch'.isBase hn hbs
        have hprops : w.props = [] ∧ w.recs = [] := by
          have := hidle.2
          simp only [Sys.inflight, List.append_eq_nil_iff, List.map_eq_nil_iff] at this
          exact this
        simp only [Sys.step, hpa, Option.some.injEq] at hstep
        refine ⟨k + 1, b', ps ++ popped, [x], [], hch', ?_, ?_⟩
        · rw [← hstep, hprops.1, hprops.2]
          exact (Within.start (f := f) hb').pop hq (b'.log ++ [Event.proposed x (kindOf b'.phase)])
        · rw [← hstep]
          show proposals (b'.log ++ [Event.proposed x (kindOf b'.phase)]) = _
          rw [proposals_append, nextBase_proposals hnb, hps]; simp [proposals]
  | @accept w w' i hr hstep ih =>
    obtain ⟨k, b, ps, popped, done, hch, hw, hps⟩ := ih
    refine ⟨k, b, ps, popped, done, hch, ?_⟩
    simp only [loopStep, Sys.step] at hstep
    cases hi : w.props[i]? with
    | none => rw [hi] at hstep; cases hstep
    | some p =>
      rw [hi] at hstep
      simp only [Option.some.injEq] at hstep
      rw [← hstep]
      refine ⟨hw.accept hi (w.st.log ++ [Event.accepted p.x p.kind w.st.evNext]), ?_⟩
      show proposals (w.st.log ++ [Event.accepted p.x p.kind w.st.evNext]) = _
      rw [proposals_append, hps]; simp [proposals]
  | @complete w w' i hr hstep ih =>
    obtain ⟨k, b, ps, popped, done, hch, hw, hps⟩ := ih
    simp only [loopStep, Sys.step] at hstep
    cases hi : w.recs[i]? with
    | none => rw [hi] at hstep; cases hstep
    | some r =>
      rw [hi] at hstep
      simp only [Option.bind_some, Option.some.injEq] at hstep
      refine ⟨k, b, ps, popped, done ++ [r.x], hch, ?_⟩
      rw [← hstep]
      refine ⟨hw.complete (hch.isBase hn hbs) ha hi _, ?_⟩
      show proposals (State.onCompleted _ _ _ _ _ _).log = _
      rw [onCompleted_proposals]
      show proposals (w.st.log ++ [_]) = _
      rw [proposals_append, hps]; simp [proposals]

/-- Two such runs propose the same points in the same order; only how far they are may differ. -/
theorem syncRun_prefix (hS : OrderFreeSurr S) (ha : L.cfg.asynchronous = false) (hn : 0 < L.cfg.numPts) (hbs : 0 < L.cfg.batchSize)
    {Q : State (Pt d) → Rnd d → Prop} (hub : ∀ s r, Q s r → NoTie L s)
    {w w' : Sys (Pt d)} (h : SyncRun Q L S f D rs w) (h' : SyncRun Q L S f D rs w') :
    proposals w.st.log <+: proposals w'.st.log ∨ proposals w'.st.log <+: proposals w.st.log := by
  obtain ⟨k, b, ps, popped, done, hch, hw, hps⟩ := h.within ha hn hbs hub
  obtain ⟨k', b', ps', popped', done', hch', hw', hps'⟩ := h'.within ha hn hbs hub
  have hpre : ∀ {b : State (Pt d)} {w : Sys (Pt d)} {popped done : List (Pt d)}, Within L.cfg f b w popped done → popped <+: b.batchQueue.reverse := by
    intro b w popped done h
    rw [h.queue, List.reverse_append, List.reverse_reverse]
    exact List.prefix_append _ _
  rw [hps, hps']
  rcases Nat.lt_trichotomy k k' with hlt | rfl | hlt
  · left
    obtain ⟨b1, ps1, hc1, hp1⟩ := hch'.before k hlt
    obtain ⟨rfl, hbe⟩ := hch.determined hS hn hbs hc1
    refine ((List.prefix_append_right_inj ps).mpr (hpre hw)).trans ?_
    rw [hbe.queue]
    exact hp1.trans (List.prefix_append _ _)
  · obtain ⟨rfl, hbe⟩ := hch.determined hS hn hbs hch'
    have h1 := hpre hw
    have h2 := hpre hw'
    rw [hbe.queue] at h1
    rcases List.prefix_or_prefix_of_prefix h1 h2 with h | h
    · exact .inl ((List.prefix_append_right_inj ps).mpr h)
    · exact .inr ((List.prefix_append_right_inj ps).mpr h)
  · right
    obtain ⟨b1, ps1, hc1, hp1⟩ := hch.before k' hlt
    obtain ⟨rfl, hbe⟩ := hch'.determined hS hn hbs hc1
    refine ((List.prefix_append_right_inj ps').mpr (hpre hw')).trans ?_
    rw [hbe.queue]
    exact hp1.trans (List.prefix_append _ _)

end chain

end Verif.Loop
