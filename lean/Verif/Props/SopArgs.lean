import Verif.Sop.Fewer
import Verif.Props.SopSerial
import Verif.Props.Args

/-! # Property C117: number of centers and batch size of SOP -/

namespace Verif.Props

open Verif.Num Verif.Utils Verif.Strategy Verif.Sop Verif.Spec Verif.Validate

variable {d : ℕ} {c : Cfg d}

/-! ## What the constructor accepts -/

theorem sopCheck_iff (asynchronous : Bool) (nc b : PyArg) : sopCheck asynchronous nc b = .ok () ↔
    ∃ v, nc = .num v ∧ (v.isInt ∨ ¬ v.gt 3) ∧ (asynchronous = true ∨ ∃ u, b = .num u ∧ v.atLeast u) := by
  rcases nc with _ | v | _
  · simp [sopCheck]
  · simp only [sopCheck, PyArg.num.injEq, exists_eq_left']
    split_ifs with h1 h2
    · simp only [reduceCtorEq, false_iff]
      rintro ⟨h | h, _⟩
      · exact h1.1 h
      · exact h h1.2
    · simp only [true_iff]
      exact ⟨by tauto, .inl h2⟩
    · rcases b with _ | u | _
      · simp [h2]
      · simp only [h2, PyArg.num.injEq, exists_eq_left', Bool.false_eq_true, false_or]
        split_ifs with h3
        · simp only [true_iff]; exact ⟨by tauto, h3⟩
        · simp [h3]
      · simp [h2]
  · simp [sopCheck]

/-- Full statement: the constructor accepts `ncenters` and the batch size only if the strategy can work with them.  Proved:
exactly what is accepted. -/
theorem C117_exact_partial (asynchronous : Bool) (nc b : PyArg) (m : PyNum) (n : ℕ) :
    sopCreate asynchronous nc b m n = .ok () ↔ ¬ surrogateRefuses m n ∧
      ∃ v, nc = .num v ∧ (v.isInt ∨ ¬ v.gt 3) ∧ (asynchronous = true ∨ ∃ u, b = .num u ∧ v.atLeast u) := by
  have h2 := sopCheck_iff asynchronous nc b
  have h1 := baseCheck_iff asynchronous b m n
  unfold sopCreate
  cases hb : baseCheck asynchronous b m n with
  | error e =>
    rw [hb] at h1
    simp only [reduceCtorEq, false_iff, not_and] at h1
    simp only [bind, Except.bind, reduceCtorEq, false_iff]
    rintro ⟨hm, v, _, _, ha⟩
    refine h1 ?_ hm
    rcases ha with ha | ⟨u, ha, _⟩
    · exact .inl ha
    · exact .inr (by rw [ha]; simp)
  | ok u =>
    rw [hb] at h1
    have h1 := h1.mp rfl
    simp only [bind, Except.bind]
    rw [h2]
    exact ⟨fun h => ⟨h1.2, h⟩, fun h => h.2⟩

/-! ## What works -/

theorem firstCenters_int {k : ℕ} (hk : 0 < k) : firstCenters (.num (.int k)) = .ok k := by
  have h : (PyNum.int (k : ℤ)).gt 0 := by show (0 : ℤ) < k; omega
  simp only [firstCenters, if_pos h, Int.toNat_natCast]

/-- The model's configuration belongs to these arguments. -/
structure SopArgs (c : Cfg d) (asynchronous : Bool) (nc b : PyArg) (m : PyNum) : Prop where
  plain : c.base.srbf = none
  mode : c.base.asynchronous = asynchronous
  centers : firstCenters nc = .ok c.ncenters
  batch : asynchronous = false → generationSize b = .ok c.base.batchSize
  budget : m = .int c.base.maxEvals

/-- Positive integers, in synchronous mode a batch size equal to `ncenters`: the arguments are accepted and a serial run with
them evaluates exactly `max_evals` points and ends (as in C111). -/
theorem C117_valid_partial {asynchronous : Bool} {k : ℕ} (hk : 0 < k) {b : PyArg} {m : PyNum}
    (hb : asynchronous = true ∨ b = .num (.int k)) (hm : ValidBudget m c.base.numPts)
    (hc : SopArgs c asynchronous (.num (.int k)) b m) (hn : 0 < c.base.numPts) (hne : c.base.maxEvals ≠ c.base.numPts) :
    sopCreate asynchronous (.num (.int k)) b m c.base.numPts = .ok () ∧
    ∀ {M : ℕ}, c.base.maxEvals = M → ∀ (f : Pt d → Val) (o : Oracle (Pt d)), (∃ i < c.base.numPts, ∃ j < c.base.numPts,
      toUnitBox (o.design i) c.lb c.ub ≠ toUnitBox (o.design j) c.lb c.ub) → ∀ (os : List (Oracle (Pt d))),
      (asynchronous = false → ∀ o ∈ os, ((List.range k).map o.pts).Nodup) →
      ∃ w e, sopSerial c f os (SopSys.create c o) = some (w, e) ∧ (completions w.sys.st.log).length = min os.length M ∧
        (e = true ↔ M < os.length) := by
  have hcen : c.ncenters = k := by
    have := hc.centers
    rw [firstCenters_int hk] at this
    exact (Except.ok.inj this).symm
  have hbat : asynchronous = false → c.base.batchSize = k := by
    intro ha
    have h1 := hc.batch ha
    rcases hb with hb | hb
    · rw [ha] at hb; cases hb
    · rw [hb] at h1
      simp only [generationSize, Int.toNat_natCast] at h1
      rw [if_neg (by omega)] at h1
      exact (Except.ok.inj h1).symm
  refine ⟨(C117_exact_partial _ _ _ _ _).mpr ⟨(C61_exact_partial m _).1 hm, _, rfl, .inl trivial, ?_⟩, ?_⟩
  · exact hb.imp id fun h => ⟨_, h, by simp [PyNum.atLeast, PyNum.ge]⟩
  · intro M hM f o ht os ho
    have ok : SerialOk c := by
      refine ⟨hc.plain, hn, by omega, ?_, hne⟩
      cases asynchronous with
      | true => exact .inl hc.mode
      | false => exact .inr (by rw [hbat rfl, hcen])
    obtain ⟨w, e, h1, _, _, h2, _, h3⟩ := C111_serial_run_partial ok hM f o ht os (by
      intro ha
      rw [hc.mode] at ha
      rw [hbat ha]
      exact ho ha)
    exact ⟨w, e, h1, h2, h3⟩

/-! ## What is accepted and does not work -/

/-- Between two rounds of a serial run, with `k` points of the batch left. -/
structure FewRound (c : Cfg d) (k : ℕ) (w : SopSys d) : Prop where
  reach : Sop.Reach c w
  props : w.sys.props = []
  recs : w.sys.recs = []
  queue : w.sys.st.batchQueue.length = k
  phase : w.sys.st.phase = .adaptive
  notTerm : w.sys.st.terminate = false

/-- The evaluation of a proposed adaptive point: it raises if it is the last one of the batch. -/
theorem few_finish (hs : c.base.srbf = none) (ha : c.base.asynchronous = false) (hb : c.base.batchSize < c.ncenters)
    {w1 : SopSys d} (h1 : Sop.Reach c w1) {x : Pt d} (hp : w1.sys.props = [⟨x, .adapt⟩]) (hr : w1.sys.recs = [])
    (hph : w1.sys.st.phase = .adaptive) (ht : w1.sys.st.terminate = false) (v : Val) {w3 : SopSys d}
    (h : ((w1.step c (.accept 0)).bind fun w2 => w2.step c (.complete 0 v)) = some w3) :
    ∃ k, w1.sys.st.batchQueue.length = k + 1 ∧ FewRound c (k + 1) w3 ∧ w3.sys.st.numEvals = w1.sys.st.numEvals + 1 := by
  have hacc : ∃ w2, w1.step c (.accept 0) = some w2 ∧ w2.sys =
      { st := (w1.sys.st.note (.accepted x .adapt w1.sys.st.evNext)).onAccept
        props := []
        recs := [{ x := x, kind := .adapt, evId := w1.sys.st.evNext, accAt := w1.sys.st.log.length }] } := by
    unfold SopSys.step
    simp only [Sys.step, hp, hr, List.getElem?_cons_zero, List.eraseIdx_cons_zero, List.nil_append, Option.map_some]
    exact ⟨_, rfl, rfl⟩
  obtain ⟨w2, hw2, hs2⟩ := hacc
  rw [hw2, Option.bind_some] at h
  have hr2 : Sop.Reach c w2 := h1.step _ hw2
  have hpend : w2.sys.st.pendingEvals = 1 := by
    rw [C02_pending_exact hr2.base, hs2]; rfl
  have hq2 : w2.sys.st.batchQueue = w1.sys.st.batchQueue := by rw [hs2]; rfl
  have hne : w1.sys.st.batchQueue ≠ [] := by
    intro hq
    have := complete_few hs ha hb hr2 (i := 0) (r := { x := x, kind := .adapt, evId := w1.sys.st.evNext, accAt := w1.sys.st.log.length })
      (by rw [hs2]; rfl) rfl (by rw [hq2, hq]) hpend v
    rw [this] at h
    cases h
  obtain ⟨k, hk⟩ : ∃ k, w1.sys.st.batchQueue.length = k + 1 :=
    ⟨w1.sys.st.batchQueue.length - 1, by have := List.length_pos_iff.mpr hne; omega⟩
  obtain ⟨r, hrr, hs3, _⟩ := step_complete hs h
  rw [hs2] at hrr hs3
  simp only [List.getElem?_cons_zero, Option.some.injEq] at hrr
  subst hrr
  simp only [recordCompleted_eq, List.eraseIdx_cons_zero, State.note, State.onAccept] at hs3
  refine ⟨k, hk, ⟨hr2.step _ h, by rw [hs3], by rw [hs3], by rw [hs3]; exact hk, by rw [hs3]; exact hph,
    by rw [hs3]; exact ht⟩, by rw [hs3]⟩

/-- With points of a batch left and enough rounds, the run raises. -/
theorem few_rounds (hs : c.base.srbf = none) (ha : c.base.asynchronous = false) (hb : c.base.batchSize < c.ncenters)
    (f : Pt d → Val) {k : ℕ} {w : SopSys d} (h : FewRound c (k + 1) w) (os : List (Oracle (Pt d))) (hl : k < os.length)
    (hM : w.sys.st.numEvals + k < c.base.maxEvals) : sopSerial c f os w = none := by
  induction os generalizing k w with
  | nil => simp at hl
  | cons o os ih =>
    rw [sopSerial]
    have hpend : w.sys.st.pendingEvals = 0 := by
      rw [C02_pending_exact h.reach.base]; simp [Sys.inflight, h.props, h.recs]
    cases hw1 : w.step c (.propose o) with
    | none => rfl
    | some w1 =>
      rw [Option.bind_some]
      have hr1 := h.reach.step _ hw1
      have hne : w.sys.st.batchQueue ≠ [] := by
        intro he
        have := h.queue
        rw [he] at this
        simp at this
      cases step_propose hs (h.reach.inv hs).conv hw1 with
      | term htt =>
        rw [h.notTerm, hpend] at htt
        simp only [Bool.false_eq_true, false_or] at htt
        omega
      | queue x q hq hg =>
        have hp1 : (proposeLast w.sys w.sys.st q x (kindOf w.sys.st.phase)).props = [⟨x, .adapt⟩] := by
          simp [proposeLast, h.props, h.phase, kindOf]
        simp only [hp1]
        cases h3 : (SopSys.step c ⟨proposeLast w.sys w.sys.st q x (kindOf w.sys.st.phase), w.sop⟩ (.accept 0)).bind
            fun w2 => w2.step c (.complete 0 (f x)) with
        | none => rfl
        | some w3 =>
          obtain ⟨j, hj, hw3, hn⟩ := few_finish hs ha hb hr1 hp1 (by simpa [proposeLast] using h.recs)
            (by simpa [proposeLast, State.note, State.makeProposal] using h.phase)
            (by simpa [proposeLast, State.note, State.makeProposal] using h.notTerm) (f x) h3
          have hlen : q.length = k := by
            have := h.queue
            rw [hq] at this
            simpa using this
          have hj' : q.length = j + 1 := by simpa [proposeLast, State.note, State.makeProposal] using hj
          have hn' : w3.sys.st.numEvals = w.sys.st.numEvals + 1 := by
            rw [hn]; simp [proposeLast, State.note, State.makeProposal]
          rw [Option.bind_some]
          simp only [List.length_cons] at hl
          exact ih hw3 (by omega) (by omega)
      | gen x q z hpts hq hg hp hz => exact absurd hq hne
      | genNone z hn hq hg hp hz => exact absurd hq hne
      | wait hq hg _ hp => exact absurd hq hne

/-- The points evaluated before the first adaptive point: the design and the extra points without values. -/
def sopFirst (c : Cfg d) : ℕ := c.base.numPts + (unknownExtras c.base).length

/-- If the first adaptive round does not start well, the run raises. -/
theorem sopSerial_first (hs : c.base.srbf = none) (f : Pt d → Val) (o : Oracle (Pt d))
    (hM : (sopFirst c : ℤ) < c.base.maxEvals) (os : List (Oracle (Pt d))) (hl : sopFirst c < os.length)
    (hno : ∀ w, DesignRound c f (firstPts c o) (sopFirst c) w → sopSerial c f (os.drop (sopFirst c)) w = none) :
    sopSerial c f os (SopSys.create c o) = none := by
  have hlen : (firstPts c o).length = sopFirst c := by simp [firstPts, sopFirst]
  have h0 := designRound_create (c := c) f o
  have htl : (os.take (sopFirst c)).length = sopFirst c := by simp; omega
  obtain ⟨w, h1, h2⟩ := designRounds hs (os.take (sopFirst c)) (os.drop (sopFirst c)) h0 (by rw [htl]; omega) (by rw [htl]; omega)
  rw [List.take_append_drop] at h1
  rw [htl, Nat.zero_add] at h2
  rw [h1]
  exact hno w h2

/-- Synchronous, batch size smaller than `ncenters`, as the constructor allows and the documentation asks for
("batch_size<=ncenters"): every serial run whose budget goes beyond the first batch raises before the first batch is completed,
for every objective and all random outcomes.  (With batch size 0 there is no proposal after the design.) -/
theorem C117_fewer_refuted {k b : ℕ} (hbk : b < k) {m : PyNum} (hm : ValidBudget m c.base.numPts)
    (hc : SopArgs c false (.num (.int k)) (.num (.int b)) m) :
    sopCreate false (.num (.int k)) (.num (.int b)) m c.base.numPts = .ok () ∧
    ∀ (f : Pt d → Val) (o : Oracle (Pt d)) (os : List (Oracle (Pt d))),
      ((sopFirst c + max 1 b : ℕ) : ℤ) ≤ c.base.maxEvals → sopFirst c + max 1 b ≤ os.length →
      sopSerial c f os (SopSys.create c o) = none := by
  have hcen : c.ncenters = k := by
    have := hc.centers
    rw [firstCenters_int (by omega)] at this
    exact (Except.ok.inj this).symm
  have hbat : c.base.batchSize = b := by
    have h1 := hc.batch rfl
    simp only [generationSize, Int.toNat_natCast] at h1
    rw [if_neg (by omega)] at h1
    exact (Except.ok.inj h1).symm
  have hs := hc.plain
  have ha := hc.mode
  have hfew : c.base.batchSize < c.ncenters := by omega
  refine ⟨(C117_exact_partial _ _ _ _ _).mpr ⟨(C61_exact_partial m _).1 hm, _, rfl, .inl trivial,
    .inr ⟨_, rfl, by simp only [PyNum.atLeast, PyNum.ge]; omega⟩⟩, ?_⟩
  intro f o os hM hl
  have h1b : 1 ≤ max 1 b := le_max_left _ _
  refine sopSerial_first hs f o (by omega) os (by omega) fun w h => ?_
  have hlen : (firstPts c o).length = sopFirst c := by simp [firstPts, sopFirst]
  obtain ⟨k1, k2⟩ := h.nums (by omega)
  obtain ⟨o', rest, hd⟩ : ∃ o' rest, os.drop (sopFirst c) = o' :: rest := by
    cases hd : os.drop (sopFirst c) with
    | nil => have := congrArg List.length hd; simp at this; omega
    | cons a l => exact ⟨a, l, rfl⟩
  have hrest : rest.length = os.length - sopFirst c - 1 := by
    have := congrArg List.length hd; simp at this; omega
  have hq0 : w.sys.st.batchQueue = [] := by rw [h.queue, hlen]; simp
  rw [hd, sopSerial]
  cases hw1 : w.step c (.propose o') with
  | none => rfl
  | some w1 =>
    rw [Option.bind_some]
    have hr1 := h.reach.step _ hw1
    cases step_propose hs (h.reach.inv hs).conv hw1 with
    | term htt =>
      rw [h.notTerm, k1, k2] at htt
      simp only [Bool.false_eq_true, false_or] at htt
      omega
    | queue x q hq hg => rw [hq0] at hq; simp at hq
    | gen x q z hpts hq hg hp hz =>
      have hp1 : (proposeLast w.sys (genState w.sys.st (q ++ [x])) q x .adapt).props = [⟨x, .adapt⟩] := by
        simp [proposeLast, h.props]
      simp only [hp1]
      cases h3 : (SopSys.step c ⟨proposeLast w.sys (genState w.sys.st (q ++ [x])) q x .adapt, z⟩ (.accept 0)).bind
          fun w2 => w2.step c (.complete 0 (f x)) with
      | none => rfl
      | some w3 =>
        obtain ⟨j, hj, hw3, hn⟩ := few_finish hs ha hfew hr1 hp1 (by simpa [proposeLast] using h.recs) rfl
          (by simpa [proposeLast, State.note, State.makeProposal, genState] using h.notTerm) (f x) h3
        have hlq : q.length + 1 = b := by
          have := congrArg List.length hpts
          simpa [genCount, ha, hbat] using this.symm
        have hj' : q.length = j + 1 := by simpa [proposeLast, State.note, State.makeProposal] using hj
        have hn' : w3.sys.st.numEvals = w.sys.st.numEvals + 1 := by
          rw [hn]; simp [proposeLast, State.note, State.makeProposal, genState]
        rw [Option.bind_some]
        have hmb : max 1 b = b := by omega
        rw [hmb] at hM hl
        exact few_rounds hs ha hfew f hw3 rest (by omega) (by omega)
    | genNone z hn hq hg hp hz =>
      simp only [h.props]
      rw [if_neg]
      simp [genState, endsTerminated]
    | wait hq hg _ hp => exact absurd k2 hp

/-- Zero and every negative number, integer or not, and NaN are accepted as number of centers in asynchronous mode; a serial run
whose budget goes beyond the design then raises when the first adaptive point is asked for.  Of the positive floats those up to 3
are accepted; then the list of centers cannot be made (`TypeError`). -/
theorem C117_centers_refuted (b : PyArg) {m : PyNum} (hm : ValidBudget m c.base.numPts) :
    (∀ v : PyNum, ¬ v.gt 0 → sopCreate true (.num v) b m c.base.numPts = .ok () ∧
      (SopArgs c true (.num v) b m → ∀ (f : Pt d → Val) (o : Oracle (Pt d)) (os : List (Oracle (Pt d))),
        (sopFirst c : ℤ) < c.base.maxEvals → sopFirst c < os.length → sopSerial c f os (SopSys.create c o) = none)) ∧
    (∀ r : ℝ, 0 < r → r ≤ 3 → sopCreate true (.num (.float (.fin r))) b m c.base.numPts = .ok () ∧
      firstCenters (.num (.float (.fin r))) = .error .typeError) := by
  have hb := (C61_exact_partial m c.base.numPts).1 hm
  refine ⟨fun v hv => ⟨?_, ?_⟩, fun r hr h3 => ⟨?_, ?_⟩⟩
  · refine (C117_exact_partial _ _ _ _ _).mpr ⟨hb, _, rfl, ?_, .inl rfl⟩
    rcases v with z | (r | _ | _ | _)
    · exact .inl trivial
    · right
      simp only [PyNum.gt, not_lt] at hv ⊢
      push_cast at hv ⊢
      linarith
    · exact absurd trivial hv
    · exact .inr id
    · exact .inr id
  · intro hc f o os hM hl
    have hcen : c.ncenters = 0 := by
      have := hc.centers
      simp only [firstCenters, if_neg hv] at this
      exact (Except.ok.inj this).symm
    have hs := hc.plain
    refine sopSerial_first hs f o hM os hl fun w h => ?_
    have hlen : (firstPts c o).length = sopFirst c := by simp [firstPts, sopFirst]
    obtain ⟨k1, k2⟩ := h.nums (by omega)
    obtain ⟨o', rest, hd⟩ : ∃ o' rest, os.drop (sopFirst c) = o' :: rest := by
      cases hd : os.drop (sopFirst c) with
      | nil => have := congrArg List.length hd; simp at this; omega
      | cons a l => exact ⟨a, l, rfl⟩
    have hq0 : w.sys.st.batchQueue = [] := by rw [h.queue, hlen]; simp
    rw [hd, sopSerial]
    cases hw1 : w.step c (.propose o') with
    | none => rfl
    | some w1 =>
      exfalso
      cases step_propose hs (h.reach.inv hs).conv hw1 with
      | term htt =>
        rw [h.notTerm, k1, k2] at htt
        simp only [Bool.false_eq_true, false_or] at htt
        omega
      | queue x q hq hg => rw [hq0] at hq; simp at hq
      | gen x q z hpts hq hg hp hz =>
        rw [generate_none (h.reach.cinv hs) (by rw [hcen]; simp)] at hz
        cases hz
      | genNone z hn hq hg hp hz => simp [genCount, hc.mode] at hn
      | wait hq hg hf hp => rw [hc.mode] at hf; cases hf
  · exact (C117_exact_partial _ _ _ _ _).mpr ⟨hb, _, rfl, .inr (by simpa [PyNum.gt] using h3), .inl rfl⟩
  · have h : (PyNum.float (.fin r)).gt 0 := by show ((0 : ℤ) : ℝ) < r; simpa using hr
    simp only [firstCenters, if_pos h]

/-- Negative and fractional batch sizes are accepted in synchronous mode (up to `ncenters`); the first batch of adaptive points
then raises. -/
theorem C117_batch_refuted (k : ℕ) {m : PyNum} {n : ℕ} (hm : ValidBudget m n) :
    (∀ z : ℤ, z < 0 → sopCreate false (.num (.int k)) (.num (.int z)) m n = .ok () ∧
      generationSize (.num (.int z)) = .error .valueError) ∧
    (∀ r : ℝ, r ≤ k → sopCreate false (.num (.int k)) (.num (.float (.fin r))) m n = .ok () ∧
      generationSize (.num (.float (.fin r))) = .error .typeError) := by
  have hb := (C61_exact_partial m n).1 hm
  refine ⟨fun z hz => ⟨(C117_exact_partial _ _ _ _ _).mpr ⟨hb, _, rfl, .inl trivial, .inr ⟨_, rfl, ?_⟩⟩, ?_⟩,
    fun r hr => ⟨(C117_exact_partial _ _ _ _ _).mpr ⟨hb, _, rfl, .inl trivial, .inr ⟨_, rfl, ?_⟩⟩, rfl⟩⟩
  · simp only [PyNum.atLeast, PyNum.ge]; omega
  · simp [generationSize, hz]
  · simpa [PyNum.atLeast] using hr

/-! ## Examples -/

/-- Two design points, budget 20, four centers, batches of two: the serial run raises in the fourth round. -/
example (f : Pt 1 → Val) (x y z u : Pt 1) :
    sopSerial (wcfg false 2 4) f [worc x, worc y, worc z, worc u] (SopSys.create (wcfg false 2 4) (worc (pt 0))) = none := by
  refine (C117_fewer_refuted (k := 4) (b := 2) (m := .int 20) (by norm_num) ⟨20, rfl, by norm_num, by simp [wcfg]⟩
    ⟨rfl, rfl, ?_, fun _ => ?_, rfl⟩).2 f _ _ (by decide) (by simp [sopFirst, unknownExtras, wcfg])
  · exact firstCenters_int (by norm_num)
  · simp [generationSize, wcfg]

/-- Batches of four work. -/
example : SopArgs (wcfg false 4 4) false (.num (.int (4 : ℕ))) (.num (.int (4 : ℕ))) (.int 20) := by
  refine ⟨rfl, rfl, ?_, fun _ => ?_, rfl⟩
  · exact firstCenters_int (by norm_num)
  · simp [generationSize, wcfg]

/-- No centers at all. -/
example (b : PyArg) : SopArgs (wcfg true 1 0) true (.num (.int (-2))) b (.int 20) := by
  refine ⟨rfl, rfl, ?_, (fun h => nomatch h), rfl⟩
  simp [firstCenters, PyNum.gt, wcfg]

end Verif.Props
