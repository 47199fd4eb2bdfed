import Verif.Strategy.Inv4
import Mathlib.Algebra.Order.Ring.Pow
import Mathlib.Tactic.Linarith
import Mathlib.Tactic.NormNum
import Mathlib.Tactic.FieldSimp
import Mathlib.Tactic.Ring

/-! # Invariants of the strategy: SRBF step control and weights -/

set_option linter.unusedSectionVars false
set_option linter.unusedSimpArgs false

namespace Verif.Strategy

open Verif.Spec

variable {P : Type} [DecidableEq P] {cfg : Config P}

theorem progress_concat (l : List (Event P)) (e : Event P) :
    progress (l ++ [e]) = match e with
      | .start _ => (none, 0)
      | .restart _ => (none, 0)
      | .adjusted f => if significant (progress l).1 f then (some f, 0) else ((progress l).1, (progress l).2 + 1)
      | _ => progress l := by
  simp only [progress, List.foldl_append, List.foldl_cons, List.foldl_nil]
  cases e <;> rfl

theorem minValue_mem (q : List Val) (v : Val) : minValue q v = v ∨ minValue q v ∈ q := by
  unfold minValue
  induction q generalizing v with
  | nil => simp
  | cons a q ih =>
    simp only [List.foldl_cons, List.mem_cons]
    rcases ih (min v a) with h | h
    · rw [h]
      rcases min_choice v a with h' | h' <;> rw [h'] <;> simp
    · right; right; exact h

theorem minValue_le (q : List Val) (v : Val) : ∀ u ∈ v :: q, minValue q v ≤ u := by
  unfold minValue
  induction q generalizing v with
  | nil => simp
  | cons a q ih =>
    intro u hu
    rw [List.foldl_cons]
    have h1 := ih (min v a)
    rcases List.mem_cons.1 hu with rfl | hu
    · exact (h1 _ (List.mem_cons_self ..)).trans (min_le_left _ _)
    · rcases List.mem_cons.1 hu with rfl | hu
      · exact (h1 _ (List.mem_cons_self ..)).trans (min_le_right _ _)
      · exact h1 u (List.mem_cons_of_mem _ hu)

theorem failtol_pos (sc : SrbfCfg) (h : cfg.asynchronous = true ∨ 0 < cfg.batchSize) :
    1 ≤ failtol cfg sc := by
  unfold failtol
  split
  · omega
  · rename_i ha
    have hb : 0 < cfg.batchSize := h.resolve_left (by simpa using ha)
    have : (0 : Int) < ⌈(4 : ℚ) / (cfg.batchSize : ℚ)⌉ := by
      rw [Int.ceil_pos]
      have : (0 : ℚ) < cfg.batchSize := by exact_mod_cast hb
      positivity
    omega

/-- A radius reached from 0.2 by halving `k` times. -/
def radiusAt (k : Nat) : ℚ := (2 / 10) / 2 ^ k

theorem radiusAt_succ (k : Nat) : radiusAt k / 2 = radiusAt (k + 1) := by
  unfold radiusAt; rw [pow_succ]; field_simp

theorem radiusAt_pos (k : Nat) : 0 < radiusAt k := by unfold radiusAt; positivity

theorem radiusAt_double (k : Nat) : min (2 * radiusAt k) radiusMax = radiusAt (k - 1) := by
  cases k with
  | zero => simp [radiusAt, radiusMax]
  | succ k =>
    simp only [Nat.add_sub_cancel]
    have h1 : 2 * radiusAt (k + 1) = radiusAt k := by
      rw [← radiusAt_succ]; ring
    rw [h1]
    apply min_eq_left
    unfold radiusAt radiusMax
    apply div_le_self (by norm_num)
    exact one_le_pow₀ (by norm_num)

theorem radiusAt_le_min_iff (k : Nat) : radiusAt k ≤ radiusMin ↔ 6 ≤ k := by
  have hm : radiusMin = radiusAt 6 := by unfold radiusMin radiusAt; norm_num
  rw [hm]
  unfold radiusAt
  constructor
  · intro h
    by_contra hk
    have hk : k < 6 := by omega
    have : (2 : ℚ) ^ k < 2 ^ 6 := pow_lt_pow_right₀ (by norm_num) hk
    have h2 : (2 / 10 : ℚ) / 2 ^ 6 < (2 / 10) / 2 ^ k := by
      apply div_lt_div_of_pos_left (by norm_num) (by positivity) this
    linarith
  · intro h
    apply div_le_div_of_nonneg_left (by norm_num) (by positivity)
    exact pow_le_pow_right₀ (by norm_num) h

/-- What one call of `adjust_step` does. -/
structure AdjustSpec (ftol mftol : Int) (z z' : Srbf) (f : Val) (moved conv : Bool) : Prop where
  improved : significant z.fbest f → z'.fbest = some f ∧ z'.failcount = 0
  failed : ¬ significant z.fbest f → z'.fbest = z.fbest ∧ z'.failcount = z.failcount + 1
  status : 1 ≤ ftol → -ftol < z.status → z.status < succtol → -ftol < z'.status ∧ z'.status < succtol
  radius : ∀ k, z.radius = radiusAt k → ∃ k', z'.radius = radiusAt k' ∧ k' ≤ k + 1
  conv : conv = true ↔ mftol ≤ z'.failcount ∨ z'.radius ≤ radiusMin
  queue : z'.recordQueue = []
  weight : z'.nextWeight = z.nextWeight
  moved : moved = false → z'.radius = z.radius

theorem adjust_spec (ftol mftol : Int) (z : Srbf) (f : Val) :
    AdjustSpec ftol mftol z (z.adjust ftol mftol f).1 f (z.adjust ftol mftol f).2.1
      (z.adjust ftol mftol f).2.2 := by
  have himp : z.isImprovement f = decide (significant z.fbest f) := by
    unfold Srbf.isImprovement
    cases z.fbest <;> rfl
  unfold Srbf.adjust
  simp only [himp]
  by_cases hs : significant z.fbest f
  · simp only [hs, decide_true, if_true]
    constructor
    · intro _; split <;> split <;> simp_all
    · intro h; exact absurd hs h
    · intro h1 h2 h3; split <;> split <;> simp_all [succtol] <;> omega
    · intro k hk
      split <;> split <;> simp only [hk]
      · rw [radiusAt_succ, radiusAt_double]; exact ⟨_, rfl, by omega⟩
      · rw [radiusAt_succ]; exact ⟨_, rfl, by omega⟩
      · rw [radiusAt_double]; exact ⟨_, rfl, by omega⟩
      · exact ⟨_, rfl, by omega⟩
    · split <;> split <;> simp
    · split <;> split <;> simp
    · split <;> split <;> simp
    · split <;> split <;> simp
  · simp only [hs, decide_false, Bool.false_eq_true, if_false]
    constructor
    · intro h; exact absurd h hs
    · intro _; split <;> split <;> simp_all
    · intro h1 h2 h3; split <;> split <;> simp_all [succtol] <;> omega
    · intro k hk
      split <;> split <;> simp only [hk]
      · rw [radiusAt_succ, radiusAt_double]; exact ⟨_, rfl, by omega⟩
      · rw [radiusAt_succ]; exact ⟨_, rfl, by omega⟩
      · rw [radiusAt_double]; exact ⟨_, rfl, by omega⟩
      · exact ⟨_, rfl, by omega⟩
    · split <;> split <;> simp
    · split <;> split <;> simp
    · split <;> split <;> simp
    · split <;> split <;> simp

/-- `adjust_step` on the strategy, field by field. -/
theorem adjustStep_eq (sc : SrbfCfg) (z : Srbf) (f : Val) (s : State P) :
    s.adjustStep cfg sc z f =
      let r := z.adjust (failtol cfg sc) (maxfailtol cfg sc) f
      { s with
        srbf := some r.1
        converged := s.converged || r.2.2
        evLast := if r.2.1 then s.evNext else s.evLast
        evNext := if r.2.1 then s.evNext + 1 else s.evNext
        log := s.log ++ ([.adjusted f] ++ if r.2.1 then [.stepChange] else []) } := by
  unfold State.adjustStep
  simp only
  generalize z.adjust (failtol cfg sc) (maxfailtol cfg sc) f = r
  obtain ⟨z', b, c⟩ := r
  cases b <;> cases c <;> simp [State.moveEvLast]

/-- Invariant of the step control. -/
structure Step (cfg : Config P) (sc : SrbfCfg) (w : Sys P) : Prop where
  book : Book cfg w
  src : Sourced w
  z : ∃ z, w.st.srbf = some z ∧
    (∃ k, z.radius = radiusAt k ∧ (w.st.converged = false → k ≤ 5)) ∧
    (-failtol cfg sc < z.status ∧ z.status < succtol) ∧
    z.fbest = (progress w.st.log).1 ∧ z.failcount = (progress w.st.log).2 ∧
    (w.st.converged = false → z.failcount < maxfailtol cfg sc) ∧
    (∀ b, z.fbest = some b → b ∈ w.st.curFX) ∧
    (∀ v ∈ z.recordQueue, v ∈ w.st.curFX) ∧
    (w.st.converged = true → z.recordQueue = []) ∧
    (cfg.asynchronous = true → z.recordQueue = [])
  sync : cfg.asynchronous = false → w.st.converged = true → w.st.batchQueue = [] ∧ w.st.pendingEvals = 0

theorem Step.of_same {sc : SrbfCfg} {w w' : Sys P} (h : Step cfg sc w) (hb : Book cfg w') (hsr : Sourced w')
    (hz : w'.st.srbf = w.st.srbf) (hc : w'.st.converged = w.st.converged)
    (hp : progress w'.st.log = progress w.st.log)
    (hcur : ∀ v ∈ w.st.curFX, v ∈ w'.st.curFX)
    (hs : cfg.asynchronous = false → w.st.converged = true → w.st.batchQueue = [] → w.st.pendingEvals = 0 →
      w'.st.batchQueue = [] ∧ w'.st.pendingEvals = 0) : Step cfg sc w' := by
  obtain ⟨z, h1, h2, h3, h4, h5, h6, h7, h8, h9, h10⟩ := h.z
  refine ⟨hb, hsr, ⟨z, by rw [hz, h1], by rw [hc]; exact h2, h3, by rw [hp]; exact h4, by rw [hp]; exact h5,
    by rw [hc]; exact h6, fun b hb => hcur b (h7 b hb), fun v hv => hcur v (h8 v hv), by rw [hc]; exact h9, h10⟩,
    ?_⟩
  intro ha hcv
  rw [hc] at hcv
  obtain ⟨a, b⟩ := h.sync ha hcv
  exact hs ha hcv a b

theorem step_preserved (cfg : Config P) (sc : SrbfCfg) (hsc : cfg.srbf = some sc)
    (hbs : cfg.asynchronous = true ∨ 0 < cfg.batchSize) : Preserved cfg (Step cfg sc) where
  create o := by
    refine ⟨(book_preserved cfg).create o, (sourced_preserved cfg).create o,
      ⟨{ status := 0, failcount := 0, radius := 2 / 10, fbest := none, recordQueue := [], nextWeight := 0 },
        ?_, ?_⟩, ?_⟩
    · simp [Sys.create, create_eq, State.blank, hsc]
    · have := failtol_pos sc hbs
      simp only [Sys.create, create_eq, State.blank]
      refine ⟨⟨0, by simp [radiusAt], by simp⟩, ⟨by simp; omega, by simp [succtol]⟩, rfl, rfl, ?_, by simp,
        by simp, by simp, by simp⟩
      intro _; simp [maxfailtol]; omega
    · simp [Sys.create, create_eq, State.blank]
  setTerm w h hb := h.of_same ((book_preserved cfg).setTerm w h.book hb)
    ((sourced_preserved cfg).setTerm w h.src hb) rfl rfl rfl (fun _ => id) (fun _ _ a b => ⟨a, b⟩)
  setPhase w h a b c := h.of_same ((book_preserved cfg).setPhase w h.book a b c)
    ((sourced_preserved cfg).setPhase w h.src a b c) rfl rfl rfl (fun _ => id) (fun _ _ a b => ⟨a, b⟩)
  gen w o n s' h a b c d e hg := by
    have hB := (book_preserved cfg).gen w o n s' h.book a b c d e hg
    have hS := (sourced_preserved cfg).gen w o n s' h.src a b c d e hg
    obtain ⟨z, h1, h2, h3, h4, h5, h6, h7, h8, h9, h10⟩ := h.z
    rcases generateEvals_cases hg with ⟨ws, z', rfl, hz⟩ | ⟨_, rfl, hno⟩
    · rcases hz with ⟨sc', z0, nx, _, hz0, _, rfl⟩ | ⟨_, hno, _⟩
      · rw [h1] at hz0
        cases hz0
        refine ⟨hB, hS, ⟨_, rfl, h2, h3, ?_, ?_, h6, h7, h8, h9, h10⟩, ?_⟩
        · simp only [progress_concat]; exact h4
        · simp only [progress_concat]; exact h5
        · intro _ hcv; simp only at hcv; rw [b] at hcv; cases hcv
      · rw [hsc, h1] at hno; simp at hno
    · rw [hsc, h1] at hno; simp at hno
  restart w o h a b c d := by
    have hB := (book_preserved cfg).restart w o h.book a b c d
    have hS := (sourced_preserved cfg).restart w o h.src a b c d
    obtain ⟨z, h1, h2, h3, h4, h5, h6, h7, h8, h9, h10⟩ := h.z
    have := failtol_pos sc hbs
    refine ⟨hB, hS, ⟨z.sampleInitial, ?_, ?_⟩, ?_⟩
    · simp [sampleRestart_eq, h1]
    · simp only [sampleRestart_eq, progress_concat]
      refine ⟨⟨0, by simp [Srbf.sampleInitial, radiusAt], by simp⟩,
        ⟨by simp [Srbf.sampleInitial]; omega, by simp [Srbf.sampleInitial, succtol]⟩, rfl, rfl, ?_, ?_, ?_, ?_, ?_⟩
      · intro _; simp [Srbf.sampleInitial, maxfailtol]; omega
      · simp [Srbf.sampleInitial]
      · simp [Srbf.sampleInitial, h9 b]
      · simp
      · intro _; simp [Srbf.sampleInitial, h9 b]
    · intro _ hcv
      simp [sampleRestart_eq] at hcv
  term w h a b := h.of_same ((book_preserved cfg).term w h.book a b)
    ((sourced_preserved cfg).term w h.src a b) rfl rfl (by simp only [State.note, progress_concat])
    (fun _ => id) (fun _ _ a b => ⟨a, b⟩)
  pop w x q k h hg hcv hq hk := h.of_same ((book_preserved cfg).pop w x q k h.book hg hcv hq hk)
    ((sourced_preserved cfg).pop w x q k h.src hg hcv hq hk) rfl rfl
    (by simp only [State.note, State.makeProposal, progress_concat])
    (fun _ => id) (fun _ a => by rw [hcv] at a; cases a)
  accept w i p h hp := h.of_same ((book_preserved cfg).accept w i p h.book hp)
    ((sourced_preserved cfg).accept w i p h.src hp) rfl rfl
    (by simp only [State.note, State.onAccept, progress_concat])
    (fun _ => id) (fun _ _ a b => ⟨a, b⟩)
  rejectInit w i p h hp hk := by
    refine h.of_same ((book_preserved cfg).rejectInit w i p h.book hp hk)
      ((sourced_preserved cfg).rejectInit w i p h.src hp hk) ?_ ?_ ?_ ?_ ?_ <;>
      simp [onInitialRejected_eq, State.note, progress_concat]
    intro _ _ _ hpd
    have := h.book.pending
    have := length_eraseIdx' hp
    omega
  rejectAdapt w i p h hp hk := by
    refine h.of_same ((book_preserved cfg).rejectAdapt w i p h.book hp hk)
      ((sourced_preserved cfg).rejectAdapt w i p h.src hp hk) ?_ ?_ ?_ ?_ ?_ <;>
      simp [onAdaptReject_eq, State.note, progress_concat]
    intro _ _ _ hpd
    have := h.book.pending
    have := length_eraseIdx' hp
    omega
  completed w i r v h hr := by
    refine h.of_same ((book_preserved cfg).completed w i r v h.book hr)
      ((sourced_preserved cfg).completed w i r v h.src hr) ?_ ?_ ?_ ?_ ?_ <;>
      simp only [recordCompleted_eq, State.note, progress_concat]
    · intro u hu; split <;> simp [hu]
    · intro _ _ _ hpd
      have := h.book.pending
      have := length_eraseIdx' hr
      omega
  adjusted w sc' z v h hsc' hz hc hv := by
    have hB := (book_preserved cfg).adjusted w sc' z v h.book hsc' hz hc hv
    have hS := (sourced_preserved cfg).adjusted w sc' z v h.src hsc' hz hc hv
    rw [hsc] at hsc'
    cases hsc'
    obtain ⟨z0, h1, ⟨k, hk, hk5⟩, h3, h4, h5, h6, h7, h8, h9, h10⟩ := h.z
    rw [hz] at h1
    cases h1
    have hsp := adjust_spec (failtol cfg sc) (maxfailtol cfg sc) z (minValue z.recordQueue v)
    have hpr : ∀ b : Bool, progress (w.st.log ++ ([.adjusted (minValue z.recordQueue v)] ++
        if b then [.stepChange] else [])) = if significant (progress w.st.log).1 (minValue z.recordQueue v)
          then (some (minValue z.recordQueue v), 0) else ((progress w.st.log).1, (progress w.st.log).2 + 1) := by
      intro b
      cases b
      · simp [progress_concat]
      · rw [if_pos rfl, ← List.append_assoc, progress_concat, progress_concat]
    have hfm : minValue z.recordQueue v ∈ w.st.curFX := by
      rcases minValue_mem z.recordQueue v with hh | hh
      · rw [hh]; exact hv
      · exact h8 _ hh
    refine ⟨hB, hS, ?_, ?_⟩
    · rw [adjustStep_eq]
      simp only
      generalize z.adjust (failtol cfg sc) (maxfailtol cfg sc) (minValue z.recordQueue v) = a at hsp ⊢
      refine ⟨a.1, rfl, ?_, ?_, ?_, ?_, ?_, ?_, ?_, ?_, ?_⟩
      · obtain ⟨k', hk', _⟩ := hsp.radius k hk
        refine ⟨k', hk', ?_⟩
        intro hcv
        simp only [Bool.or_eq_false_iff] at hcv
        by_contra hgt
        have : a.2.2 = true := hsp.conv.2 (.inr (by rw [hk', radiusAt_le_min_iff]; omega))
        rw [this] at hcv; simp at hcv
      · exact hsp.status (failtol_pos sc hbs) h3.1 h3.2
      · rw [hpr]
        split
        · rename_i hs; rw [← h4] at hs; exact (hsp.improved hs).1
        · rename_i hs; rw [← h4] at hs; rw [(hsp.failed hs).1, h4]
      · rw [hpr]
        split
        · rename_i hs; rw [← h4] at hs; rw [(hsp.improved hs).2]; simp
        · rename_i hs; rw [← h4] at hs; rw [(hsp.failed hs).2, h5]; simp
      · intro hcv
        simp only [Bool.or_eq_false_iff] at hcv
        by_contra hgt
        have : a.2.2 = true := hsp.conv.2 (.inl (by omega))
        rw [this] at hcv; simp at hcv
      · intro b hb
        by_cases hs : significant z.fbest (minValue z.recordQueue v)
        · rw [(hsp.improved hs).1] at hb; cases hb; exact hfm
        · rw [(hsp.failed hs).1] at hb; exact h7 b hb
      · rw [hsp.queue]; simp
      · intro _; exact hsp.queue
      · intro _; exact hsp.queue
    · intro ha _
      rw [adjustStep_eq]
      rcases hc with hc | hc
      · rw [ha] at hc; cases hc
      · exact hc
  queued w z v h hz hns hv := by
    have hB := (book_preserved cfg).queued w z v h.book hz hns hv
    have hS := (sourced_preserved cfg).queued w z v h.src hz hns hv
    obtain ⟨z0, h1, h2, h3, h4, h5, h6, h7, h8, h9, h10⟩ := h.z
    rw [hz] at h1
    cases h1
    refine ⟨hB, hS, ⟨_, rfl, h2, h3, h4, h5, h6, h7, ?_, ?_, ?_⟩, h.sync⟩
    · intro u hu
      simp only [List.mem_append, List.mem_singleton] at hu
      rcases hu with hu | rfl
      · exact h8 u hu
      · exact hv
    · intro hcv; exact absurd (h.sync hns.1 hcv) hns.2
    · intro ha; rw [hns.1] at ha; cases ha
  aborted w i r h hr := by
    refine h.of_same ((book_preserved cfg).aborted w i r h.book hr)
      ((sourced_preserved cfg).aborted w i r h.src hr) ?_ ?_ ?_ ?_ ?_ <;>
      simp [onAborted_eq, State.note, progress_concat]
    intro _ _ _ hpd
    have := h.book.pending
    have := length_eraseIdx' hr
    omega
  resume w h := by
    refine h.of_same ((book_preserved cfg).resume w h.book)
      ((sourced_preserved cfg).resume w h.src) ?_ ?_ ?_ ?_ ?_ <;>
      simp [Sys.resumed, resume_eq, State.note]
    · have hm : w.st.log ++ [.crashed w.inflight, .resumed (if w.st.phase = .initial then w.st.Xpend else [])] =
        (w.st.log ++ [.crashed w.inflight]) ++ [.resumed (if w.st.phase = .initial then w.st.Xpend else [])] := by
        simp
      rw [hm, progress_concat, progress_concat]
    · intro _ _ hq hpd
      refine ⟨hq, fun _ => ?_⟩
      have hp := h.book.pending
      have h1 : w.props = [] := List.length_eq_zero_iff.1 (by omega)
      have h2 : w.recs = [] := List.length_eq_zero_iff.1 (by omega)
      rw [List.eq_nil_iff_forall_not_mem]
      intro x hx
      have := h.src.xpend x hx
      simp [Sys.inflight, h1, h2] at this

theorem Reach.stepInv {sc : SrbfCfg} {w : Sys P} (h : Reach cfg w) (hsc : cfg.srbf = some sc)
    (hbs : cfg.asynchronous = true ∨ 0 < cfg.batchSize) : Step cfg sc w :=
  (step_preserved cfg sc hsc hbs).reach h

/-! ### Weights -/

theorem getWeights_length {ws : List ℚ} {next n : Nat} {l : List ℚ} {next' : Nat}
    (h : getWeights ws next n = some (l, next')) : l.length = n := by
  induction n generalizing next l with
  | zero => simp [getWeights] at h; simp [h.1]
  | succ n ih =>
    simp only [getWeights] at h
    split at h
    · simp at h
    · split at h
      · simp at h
      · rename_i _ _ _ l' nx he
        simp only [Option.some.injEq, Prod.mk.injEq] at h
        obtain ⟨rfl, rfl⟩ := h
        simp [ih he]

theorem getWeights_spec {ws : List ℚ} {next n : Nat} {l : List ℚ} {next' : Nat} (m : Nat)
    (hm : next = m % ws.length)
    (h : getWeights ws next n = some (l, next')) :
    next' = (m + n) % ws.length ∧ ∀ i (_ : i < n), l[i]? = ws[(m + i) % ws.length]? := by
  induction n generalizing next l m with
  | zero => simp [getWeights] at h; simp [← h.2, hm]
  | succ n ih =>
    simp only [getWeights] at h
    split at h
    · simp at h
    · rename_i u hu
      split at h
      · simp at h
      · rename_i l' nx he
        simp only [Option.some.injEq, Prod.mk.injEq] at h
        obtain ⟨rfl, rfl⟩ := h
        have hm' : (next + 1) % ws.length = (m + 1) % ws.length := by rw [hm]; simp
        obtain ⟨a, b⟩ := ih (m + 1) hm' he
        refine ⟨by rw [a]; congr 1; omega, ?_⟩
        intro i hi
        cases i with
        | zero => simp only [List.getElem?_cons_zero, Nat.add_zero, ← hm]; exact hu.symm
        | succ i =>
          rw [List.getElem?_cons_succ, b i (by omega)]
          congr 2; omega

/-- Weights are used cyclically. -/
def Weights (sc : SrbfCfg) (w : Sys P) : Prop :=
  (∃ z, w.st.srbf = some z ∧ z.nextWeight = (usedWeights w.st.log).length % sc.weights.length) ∧
  (usedWeights w.st.log).length = (adaptivePoints w.st.log).length ∧
  ∀ k < (usedWeights w.st.log).length, (usedWeights w.st.log)[k]? = sc.weights[k % sc.weights.length]?

theorem usedWeights_append (l m : List (Event P)) :
    usedWeights (l ++ m) = usedWeights l ++ usedWeights m := by simp [usedWeights]
theorem adaptivePoints_append (l m : List (Event P)) :
    adaptivePoints (l ++ m) = adaptivePoints l ++ adaptivePoints m := by simp [adaptivePoints]

theorem Weights.of_same {sc : SrbfCfg} {w w' : Sys P} (h : Weights sc w)
    (hl : usedWeights w'.st.log = usedWeights w.st.log)
    (ha : adaptivePoints w'.st.log = adaptivePoints w.st.log)
    (hz : ∀ z, w.st.srbf = some z → ∃ z', w'.st.srbf = some z' ∧ z'.nextWeight = z.nextWeight) :
    Weights sc w' := by
  obtain ⟨⟨z, h1, h2⟩, h3, h4⟩ := h
  obtain ⟨z', h5, h6⟩ := hz z h1
  refine ⟨⟨z', h5, by rw [h6, hl, h2]⟩, by rw [hl, ha, h3], by rw [hl]; exact h4⟩

theorem weights_preserved (cfg : Config P) (sc : SrbfCfg) (hsc : cfg.srbf = some sc) :
    Preserved cfg (Weights sc) where
  create o := by
    simp [Weights, Sys.create, create_eq, State.blank, usedWeights, adaptivePoints, hsc]
  setTerm w h _ := h
  setPhase w h _ _ _ := h
  gen w o n s' h a b c d e hg := by
    obtain ⟨⟨z, h1, h2⟩, h3, h4⟩ := h
    rcases generateEvals_cases hg with ⟨ws, z', rfl, hz⟩ | ⟨_, rfl, hno⟩
    · rcases hz with ⟨sc', z0, nx, hsc', hz0, hw, rfl⟩ | ⟨_, hno, _⟩
      · rw [hsc] at hsc'; cases hsc'
        rw [h1] at hz0; cases hz0
        obtain ⟨hn, hg'⟩ := getWeights_spec _ h2 hw
        have hlen := getWeights_length hw
        have hu : ∀ q : List P, usedWeights [Event.generated q ws] = ws := by intro q; simp [usedWeights]
        refine ⟨⟨_, rfl, ?_⟩, ?_, ?_⟩ <;> simp only [usedWeights_append, adaptivePoints_append, hu,
          List.length_append]
        · rw [hlen]; exact hn
        · rw [h3, hlen]; simp [adaptivePoints]
        · intro k hk
          by_cases hk' : k < (usedWeights w.st.log).length
          · rw [List.getElem?_append_left hk']; exact h4 k hk'
          · have hk' := Nat.le_of_not_lt hk'
            rw [List.getElem?_append_right hk', hg' _ (by omega)]
            congr 2; omega
      · rw [hsc, h1] at hno; simp at hno
    · rw [hsc, h1] at hno; simp at hno
  restart w o h a b c d := by
    refine h.of_same ?_ ?_ ?_ <;> simp only [sampleRestart_eq, usedWeights_append, adaptivePoints_append]
    · simp [usedWeights]
    · simp [adaptivePoints]
    · intro z hz; exact ⟨z.sampleInitial, by rw [hz]; rfl, rfl⟩
  term w h _ _ := h.of_same (by simp [State.note, usedWeights]) (by simp [State.note, adaptivePoints])
    (fun z hz => ⟨z, hz, rfl⟩)
  pop w x q k h _ _ _ _ := h.of_same (by simp [State.note, State.makeProposal, usedWeights])
    (by simp [State.note, State.makeProposal, adaptivePoints]) (fun z hz => ⟨z, hz, rfl⟩)
  accept w i p h hp := h.of_same (by simp [State.note, State.onAccept, usedWeights])
    (by simp [State.note, State.onAccept, adaptivePoints]) (fun z hz => ⟨z, hz, rfl⟩)
  rejectInit w i p h hp hk := h.of_same (by simp [onInitialRejected_eq, State.note, usedWeights])
    (by simp [onInitialRejected_eq, State.note, adaptivePoints])
    (fun z hz => ⟨z, by simpa [onInitialRejected_eq, State.note] using hz, rfl⟩)
  rejectAdapt w i p h hp hk := h.of_same (by simp [onAdaptReject_eq, State.note, usedWeights])
    (by simp [onAdaptReject_eq, State.note, adaptivePoints])
    (fun z hz => ⟨z, by simpa [onAdaptReject_eq, State.note] using hz, rfl⟩)
  completed w i r v h hr := h.of_same (by simp [recordCompleted_eq, State.note, usedWeights])
    (by simp [recordCompleted_eq, State.note, adaptivePoints])
    (fun z hz => ⟨z, by simpa [recordCompleted_eq, State.note] using hz, rfl⟩)
  adjusted w sc' z v h hsc' hz hc hv := by
    refine h.of_same ?_ ?_ ?_ <;> rw [adjustStep_eq] <;>
      simp only [usedWeights_append, adaptivePoints_append]
    · split <;> simp [usedWeights]
    · split <;> simp [adaptivePoints]
    · intro z0 hz0
      rw [hz] at hz0; cases hz0
      exact ⟨_, rfl, (adjust_spec _ _ _ _).weight⟩
  queued w z v h hz _ _ := h.of_same rfl rfl (fun z0 hz0 => by
    rw [hz] at hz0; cases hz0; exact ⟨_, rfl, rfl⟩)
  aborted w i r h hr := h.of_same (by simp [onAborted_eq, State.note, usedWeights])
    (by simp [onAborted_eq, State.note, adaptivePoints])
    (fun z hz => ⟨z, by simpa [onAborted_eq, State.note] using hz, rfl⟩)
  resume w h := h.of_same (by simp [Sys.resumed, resume_eq, State.note, usedWeights])
    (by simp [Sys.resumed, resume_eq, State.note, adaptivePoints])
    (fun z hz => ⟨z, by simpa [Sys.resumed, resume_eq, State.note] using hz, rfl⟩)

theorem Reach.weights {sc : SrbfCfg} {w : Sys P} (h : Reach cfg w) (hsc : cfg.srbf = some sc) :
    Weights sc w := (weights_preserved cfg sc hsc).reach h

end Verif.Strategy
