import Verif.Validate.Args
import Verif.Props.Validate
import Verif.Props.Strategy

/-! # Property C97: batch sizes and weights accepted by the constructors -/

namespace Verif.Props

open Verif.Validate Verif.Strategy

/-! ## Specification -/

/-- A batch size that makes sense: a positive integer; it is ignored in asynchronous mode. -/
def ValidBatch (asynchronous : Bool) (b : PyArg) : Prop :=
  asynchronous = true ∨ ∃ n : ℕ, 0 < n ∧ b = .num (.int n)

/-- The documented weights: at least one number between 0 and 1, all of them floats, as a list or an array; `None` for the
default. -/
def ValidWeights : PyWeights → List ℝ → Prop
  | .none, ws => ws = [0.3, 0.5, 0.8, 0.95]
  | .list l, ws => ws ≠ [] ∧ l = ws.map (fun r => .num (.float (.fin r))) ∧ ∀ r ∈ ws, 0 ≤ r ∧ r ≤ 1
  | .array l, ws => ws ≠ [] ∧ l = ws ∧ ∀ r ∈ ws, 0 ≤ r ∧ r ≤ 1
  | .other, _ => False

/-! ## Proofs -/

theorem mapM_checkWeight (l : List PyArg) (ws : List ℝ) : l.mapM checkWeight = .ok ws ↔
    l = ws.map (fun r => .num (.float (.fin r))) ∧ ∀ r ∈ ws, 0 ≤ r ∧ r ≤ 1 := by
  induction l generalizing ws with
  | nil => cases ws <;> simp [pure, Except.pure]
  | cons a l ih =>
    rw [List.mapM_cons]
    have hbad : ∀ e, checkWeight a = .error e → (do let y ← checkWeight a; let ys ← l.mapM checkWeight; pure (y :: ys)) ≠
        (.ok ws : Except Exc (List ℝ)) := by
      intro e he
      rw [he]
      simp [bind, Except.bind]
    have hcase : (∃ r, a = .num (.float (.fin r)) ∧ 0 ≤ r ∧ r ≤ 1 ∧ checkWeight a = .ok r) ∨
        (¬ (∃ r, a = .num (.float (.fin r)) ∧ 0 ≤ r ∧ r ≤ 1) ∧ ∃ e, checkWeight a = .error e) := by
      rcases a with _ | (z | (r | _ | _ | _)) | _
      · exact .inr ⟨by simp, .assertionError, by simp [checkWeight]⟩
      · exact .inr ⟨by simp, .assertionError, by simp [checkWeight]⟩
      · by_cases hr : 0 ≤ r ∧ r ≤ 1
        · exact .inl ⟨r, rfl, hr.1, hr.2, by simp [checkWeight, hr]⟩
        · refine .inr ⟨?_, .assertionError, by simp only [checkWeight]; rw [if_neg hr]⟩
          rintro ⟨q, h, hq⟩
          cases h
          exact hr hq
      · exact .inr ⟨by simp, .assertionError, by simp [checkWeight]⟩
      · exact .inr ⟨by simp, .assertionError, by simp [checkWeight]⟩
      · exact .inr ⟨by simp, .assertionError, by simp [checkWeight]⟩
      · exact .inr ⟨by simp, .assertionError, by simp [checkWeight]⟩
    rcases hcase with ⟨r, ha, h0, h1, hc⟩ | ⟨hn, e, he⟩
    · rw [hc]
      cases ws with
      | nil =>
        simp only [List.map_nil, reduceCtorEq, false_and, iff_false]
        rcases h : l.mapM checkWeight with e | ys
        · simp [bind, Except.bind]
        · simp [bind, Except.bind, pure, Except.pure]
      | cons w ws =>
        have := ih ws
        rw [ha]
        rcases h : l.mapM checkWeight with e | ys
        · rw [h] at this
          simp only [bind, Except.bind, reduceCtorEq, false_iff, List.map_cons, List.cons.injEq, List.mem_cons,
            forall_eq_or_imp] at this ⊢
          tauto
        · rw [h] at this
          simp only [bind, Except.bind, pure, Except.pure, Except.ok.injEq, List.map_cons, List.cons.injEq, List.mem_cons,
            forall_eq_or_imp, PyArg.num.injEq, PyNum.float.injEq, PyFloat.fin.injEq] at this ⊢
          constructor
          · rintro ⟨rfl, h2⟩
            exact ⟨⟨rfl, (this.mp h2).1⟩, ⟨h0, h1⟩, (this.mp h2).2⟩
          · rintro ⟨⟨rfl, h2⟩, _, h3⟩
            exact ⟨rfl, this.mpr ⟨h2, h3⟩⟩
    · refine iff_of_false (hbad e he) ?_
      rintro ⟨h1, h2⟩
      cases ws with
      | nil => simp at h1
      | cons w ws =>
        simp only [List.map_cons, List.cons.injEq] at h1
        exact hn ⟨w, h1.1, (h2 w (by simp)).1, (h2 w (by simp)).2⟩

/-- Which weights are accepted, and which are then in use. -/
theorem C97_weights_partial (w : PyWeights) (ws : List ℝ) : weightsOf w = .ok ws ↔
    (w = .none ∧ ws = [0.3, 0.5, 0.8, 0.95]) ∨
    ∃ l, w = .list l ∧ l = ws.map (fun r => .num (.float (.fin r))) ∧ ∀ r ∈ ws, 0 ≤ r ∧ r ≤ 1 := by
  cases w with
  | none => simp only [weightsOf, Except.ok.injEq, true_and, reduceCtorEq, false_and, exists_false, or_false]; exact eq_comm
  | list l =>
    simp only [weightsOf, reduceCtorEq, false_and, PyWeights.list.injEq, false_or, exists_eq_left']
    exact mapM_checkWeight l ws
  | array l => simp [weightsOf]
  | other => simp [weightsOf]

/-- Which batch sizes are accepted by SRBF and DYCORS, with the tolerance that results. -/
theorem failtolOf_iff (asynchronous : Bool) (dim : ℕ) (b : PyArg) (ft : ℤ) : failtolOf asynchronous dim b = .ok ft ↔
    (asynchronous = true ∧ ft = max (dim : ℤ) 4) ∨
    (asynchronous = false ∧ ((∃ z : ℤ, z ≠ 0 ∧ b = .num (.int z) ∧ ft = max ⌈(dim : ℝ) / z⌉ ⌈(4 : ℝ) / z⌉) ∨
      (∃ r : ℝ, r ≠ 0 ∧ b = .num (.float (.fin r)) ∧ ft = max ⌈(dim : ℝ) / r⌉ ⌈(4 : ℝ) / r⌉) ∨
      ((b = .num (.float .posInf) ∨ b = .num (.float .negInf)) ∧ ft = 0))) := by
  cases asynchronous with
  | true =>
    have h4 : ⌈(4 : ℝ)⌉ = 4 := by exact_mod_cast Int.ceil_natCast (R := ℝ) 4
    simp only [failtolOf, if_true, intMaxCeil, Int.ceil_natCast, h4, Except.ok.injEq, true_and, Bool.true_eq_false, false_and,
      or_false]
    exact eq_comm
  | false =>
    simp only [failtolOf, Bool.false_eq_true, if_false, false_and, false_or, true_and]
    rcases b with _ | (z | (r | _ | _ | _)) | _
    · simp [toFloat, bind, Except.bind]
    · by_cases hz : z = 0
      · simp [toFloat, bind, Except.bind, quotient, hz]
      · simp [toFloat, bind, Except.bind, quotient, hz, intMaxCeil, eq_comm]
    · by_cases hr : r = 0
      · simp [toFloat, bind, Except.bind, quotient, hr]
      · simp [toFloat, bind, Except.bind, quotient, hr, intMaxCeil, eq_comm]
    · simp [toFloat, bind, Except.bind, quotient, intMaxCeil, eq_comm]
    · simp [toFloat, bind, Except.bind, quotient, intMaxCeil, eq_comm]
    · simp [toFloat, bind, Except.bind, quotient, intMaxCeil]
    · simp [toFloat, bind, Except.bind]

theorem srbfCreate_iff (asynchronous : Bool) (dim : ℕ) (b : PyArg) (w : PyWeights) (m : PyNum) (n : ℕ) (ft : ℤ) (ws : List ℝ) :
    srbfCreate asynchronous dim b w m n = .ok (ft, ws) ↔
      failtolOf asynchronous dim b = .ok ft ∧ weightsOf w = .ok ws ∧ baseCheck asynchronous b m n = .ok () := by
  unfold srbfCreate
  rcases failtolOf asynchronous dim b with e | a
  · simp [bind, Except.bind]
  · rcases weightsOf w with e | l
    · simp [bind, Except.bind]
    · rcases baseCheck asynchronous b m n with e | u
      · simp [bind, Except.bind]
      · simp [bind, Except.bind, pure, Except.pure]

theorem baseCheck_iff (asynchronous : Bool) (b : PyArg) (m : PyNum) (n : ℕ) : baseCheck asynchronous b m n = .ok () ↔
    (asynchronous = true ∨ b ≠ .none) ∧ ¬ surrogateRefuses m n := by
  unfold baseCheck
  split_ifs with h1 h2
  · simp only [reduceCtorEq, false_iff]
    rintro ⟨h | h, _⟩
    · rw [h1.1] at h; cases h
    · exact h h1.2
  · simp [h2]
  · simp only [h2, not_false_eq_true, and_true, true_iff]
    by_contra hc
    push Not at hc
    exact h1 ⟨by simpa using hc.1, hc.2⟩

/-- SRBF and DYCORS, the exact condition. -/
theorem C97_srbf_partial (asynchronous : Bool) (dim : ℕ) (b : PyArg) (w : PyWeights) (m : PyNum) (n : ℕ) :
    (∃ r, srbfCreate asynchronous dim b w m n = .ok r) ↔
      (asynchronous = true ∨ ∃ v, b = .num v ∧ v ≠ .int 0 ∧ v ≠ .float (.fin 0) ∧ v ≠ .float .nan) ∧
      (w = .none ∨ ∃ ws : List ℝ, w = .list (ws.map fun r => .num (.float (.fin r))) ∧ ∀ r ∈ ws, 0 ≤ r ∧ r ≤ 1) ∧
      ¬ surrogateRefuses m n := by
  have hw : (∃ ws, weightsOf w = .ok ws) ↔
      (w = .none ∨ ∃ ws : List ℝ, w = .list (ws.map fun r => .num (.float (.fin r))) ∧ ∀ r ∈ ws, 0 ≤ r ∧ r ≤ 1) := by
    constructor
    · rintro ⟨ws, h⟩
      rcases (C97_weights_partial w ws).mp h with ⟨h, _⟩ | ⟨l, h1, h2, h3⟩
      · exact .inl h
      · exact .inr ⟨ws, by rw [h1, h2], h3⟩
    · rintro (h | ⟨ws, h1, h2⟩)
      · exact ⟨_, (C97_weights_partial w _).mpr (.inl ⟨h, rfl⟩)⟩
      · exact ⟨_, (C97_weights_partial w ws).mpr (.inr ⟨_, h1, rfl, h2⟩)⟩
  have hf : (∃ ft, failtolOf asynchronous dim b = .ok ft) ↔
      (asynchronous = true ∨ ∃ v, b = .num v ∧ v ≠ .int 0 ∧ v ≠ .float (.fin 0) ∧ v ≠ .float .nan) := by
    constructor
    · rintro ⟨ft, h⟩
      rcases (failtolOf_iff _ _ _ _).mp h with ⟨h, _⟩ | ⟨_, ⟨z, hz, h, _⟩ | ⟨r, hr, h, _⟩ | ⟨h | h, _⟩⟩
      · exact .inl h
      · exact .inr ⟨_, h, by simpa using hz, by simp, by simp⟩
      · exact .inr ⟨_, h, by simp, by simpa using hr, by simp⟩
      · exact .inr ⟨_, h, by simp, by simp, by simp⟩
      · exact .inr ⟨_, h, by simp, by simp, by simp⟩
    · intro h
      cases asynchronous with
      | true => exact ⟨_, (failtolOf_iff _ _ _ _).mpr (.inl ⟨rfl, rfl⟩)⟩
      | false =>
        rcases h with h | ⟨v, hb, h1, h2, h3⟩
        · cases h
        rcases v with z | (r | _ | _ | _)
        · exact ⟨_, (failtolOf_iff _ _ _ _).mpr (.inr ⟨rfl, .inl ⟨z, by simpa using h1, hb, rfl⟩⟩)⟩
        · exact ⟨_, (failtolOf_iff _ _ _ _).mpr (.inr ⟨rfl, .inr (.inl ⟨r, by simpa using h2, hb, rfl⟩)⟩)⟩
        · exact ⟨_, (failtolOf_iff _ _ _ _).mpr (.inr ⟨rfl, .inr (.inr ⟨.inl hb, rfl⟩)⟩)⟩
        · exact ⟨_, (failtolOf_iff _ _ _ _).mpr (.inr ⟨rfl, .inr (.inr ⟨.inr hb, rfl⟩)⟩)⟩
        · exact absurd rfl h3
  rw [← hw, ← hf]
  constructor
  · rintro ⟨⟨ft, ws⟩, h⟩
    obtain ⟨h1, h2, h3⟩ := (srbfCreate_iff _ _ _ _ _ _ _ _).mp h
    exact ⟨⟨ft, h1⟩, ⟨ws, h2⟩, ((baseCheck_iff _ _ _ _).mp h3).2⟩
  · rintro ⟨⟨ft, h1⟩, ⟨ws, h2⟩, h3⟩
    refine ⟨(ft, ws), (srbfCreate_iff _ _ _ _ _ _ _ _).mpr ⟨h1, h2, (baseCheck_iff _ _ _ _).mpr ⟨?_, h3⟩⟩⟩
    rcases hf.mp ⟨ft, h1⟩ with h | ⟨v, h, _⟩
    · exact .inl h
    · exact .inr (by rw [h]; simp)

/-- Valid arguments (weights not given as an array) are accepted, and the strategy that results can always go on: it is
`Sane` in the sense of C11 and C12, and has the tolerance of C22. -/
theorem C97_valid_partial (asynchronous : Bool) (dim : ℕ) (b : PyArg) (w : PyWeights) (m : PyNum) (n : ℕ) (ws : List ℝ)
    (hb : ValidBatch asynchronous b) (hw : ValidWeights w ws) (ha : ∀ l, w ≠ .array l) (hm : ValidBudget m n) (hn : 0 < n) :
    ∃ ft, srbfCreate asynchronous dim b w m n = .ok (ft, ws) ∧
      ∀ (cfg : Config ℕ) (sc : SrbfCfg), cfg.asynchronous = asynchronous → (asynchronous = false → b = .num (.int cfg.batchSize)) →
        cfg.numPts = n → cfg.srbf = some sc → sc.dim = dim → sc.weights.map (fun q => (q : ℝ)) = ws →
        Sane cfg ∧ failtol cfg sc = ft := by
  have hne : ws ≠ [] := by
    cases w with
    | none => simp only [ValidWeights] at hw; rw [hw]; simp
    | list l => exact hw.1
    | array l => exact hw.1
    | other => exact hw.elim
  have h2 : weightsOf w = .ok ws := by
    rw [C97_weights_partial]
    cases w with
    | none => exact .inl ⟨rfl, hw⟩
    | list l => exact .inr ⟨l, rfl, hw.2⟩
    | array l => exact absurd rfl (ha l)
    | other => exact hw.elim
  have h3 : baseCheck asynchronous b m n = .ok () := by
    rw [baseCheck_iff]
    refine ⟨?_, (C61_exact_partial m n).1 hm⟩
    rcases hb with h | ⟨k, _, h⟩
    · exact .inl h
    · exact .inr (by rw [h]; simp)
  cases asynchronous with
  | true =>
    refine ⟨max (dim : ℤ) 4, (srbfCreate_iff _ _ _ _ _ _ _ _).mpr ⟨(failtolOf_iff _ _ _ _).mpr (.inl ⟨rfl, rfl⟩), h2, h3⟩, ?_⟩
    intro cfg sc h4 _ h5 h6 h7 h8
    refine ⟨⟨by omega, .inl h4, fun sc' h => ?_⟩, by simp [failtol, h4, h7]⟩
    rw [h6] at h
    cases h
    rintro he
    rw [he] at h8
    exact hne h8.symm
  | false =>
    rcases hb with h | ⟨k, hk, rfl⟩
    · cases h
    refine ⟨max ⌈(dim : ℝ) / (k : ℤ)⌉ ⌈(4 : ℝ) / (k : ℤ)⌉, (srbfCreate_iff _ _ _ _ _ _ _ _).mpr
      ⟨(failtolOf_iff _ _ _ _).mpr (.inr ⟨rfl, .inl ⟨k, by omega, rfl, rfl⟩⟩), h2, h3⟩, ?_⟩
    intro cfg sc h4 hbs h5 h6 h7 h8
    have hbs : cfg.batchSize = k := by
      have := hbs rfl
      simp only [PyArg.num.injEq, PyNum.int.injEq, Nat.cast_inj] at this
      exact this.symm
    refine ⟨⟨by omega, .inr (by omega), fun sc' h => ?_⟩, ?_⟩
    · rw [h6] at h
      cases h
      rintro he
      rw [he] at h8
      exact hne h8.symm
    · simp only [failtol, h4, Bool.false_eq_true, if_false, h7, hbs]
      congr 1
      · rw [← Rat.ceil_cast (α := ℝ)]; push_cast; rfl
      · rw [← Rat.ceil_cast (α := ℝ)]; push_cast; rfl

/-- EI and LCB, the exact condition: anything but `None` is accepted as batch size. -/
theorem C97_ei_partial (asynchronous : Bool) (b : PyArg) (m : PyNum) (n : ℕ) :
    eiCreate asynchronous b m n = .ok () ↔ (asynchronous = true ∨ b ≠ .none) ∧ ¬ surrogateRefuses m n :=
  baseCheck_iff asynchronous b m n

/-- Weights given as a `np.array`, which the test is meant to allow, are refused, whatever the other arguments. -/
theorem C97_array_refuted (dim : ℕ) (b : PyArg) (l : List ℝ) (m : PyNum) (n : ℕ) :
    srbfCreate true dim b (.array l) m n = .error .typeError ∧ ValidWeights (.array [1 / 2]) [1 / 2] := by
  constructor
  · unfold srbfCreate
    rw [(failtolOf_iff true dim b _).mpr (.inl ⟨rfl, rfl⟩)]
    rfl
  · refine ⟨by simp, rfl, ?_⟩
    simp only [List.mem_singleton, forall_eq]
    norm_num

/-- An empty list of weights is accepted, and every request for an adaptive point raises. -/
theorem C97_empty_refuted (dim : ℕ) (b : PyArg) (m : PyNum) (n : ℕ) (hm : ValidBudget m n) :
    srbfCreate true dim b (.list []) m n = .ok (max (dim : ℤ) 4, []) ∧
    ∀ {P : Type} [DecidableEq P] (cfg : Config P) (w : Sys P) (o : Oracle P), cfg.asynchronous = true →
      cfg.srbf = some ⟨dim, []⟩ → Reach cfg w → w.st.terminate = false → w.st.numEvals + w.st.pendingEvals < cfg.maxEvals →
      w.st.converged = false → w.st.batchQueue = [] → w.st.proposeAction cfg o = none := by
  refine ⟨(srbfCreate_iff _ _ _ _ _ _ _ _).mpr ⟨(failtolOf_iff _ _ _ _).mpr (.inl ⟨rfl, rfl⟩), rfl,
    (baseCheck_iff _ _ _ _).mpr ⟨.inl rfl, (C61_exact_partial m n).1 hm⟩⟩, ?_⟩
  intro P _ cfg w o ha hs h ht hb hc hq
  have hz : ∃ z, w.st.srbf = some z := by
    have := h.book.srbf
    rw [hs] at this
    exact Option.isSome_iff_exists.mp (by simpa using this)
  obtain ⟨z, hz⟩ := hz
  rw [proposeAction_going ht hb, hc, hq]
  simp [State.adaptBranch, ha, State.generateEvals, hs, hz, getWeights]

/-- In synchronous mode SRBF and DYCORS accept every float and every negative integer but 0 and NaN as batch size (with a
tolerance that may be negative), and EI and LCB accept everything but `None`; the first batch of adaptive points then raises. -/
theorem C97_batch_refuted (dim : ℕ) (m : PyNum) (n : ℕ) (hm : ValidBudget m n) :
    (∀ r : ℝ, r ≠ 0 → (∃ res, srbfCreate false dim (.num (.float (.fin r))) .none m n = .ok res) ∧
      generationSize (.num (.float (.fin r))) = .error .typeError) ∧
    (∀ z : ℤ, z < 0 → (∃ ft ≤ 0, ∃ ws, srbfCreate false dim (.num (.int z)) .none m n = .ok (ft, ws)) ∧
      generationSize (.num (.int z)) = .error .valueError) ∧
    (∀ b, b ≠ .none → eiCreate false b m n = .ok ()) ∧
    generationSize .other = .error .typeError := by
  have hb := (C61_exact_partial m n).1 hm
  refine ⟨fun r hr => ⟨(C97_srbf_partial _ _ _ _ _ _).mpr ⟨.inr ⟨_, rfl, by simp, by simpa using hr, by simp⟩, .inl rfl, hb⟩, rfl⟩,
    fun z hz => ⟨?_, by simp [generationSize, hz]⟩, fun b h => (baseCheck_iff _ _ _ _).mpr ⟨.inr h, hb⟩, rfl⟩
  have hz' : (z : ℝ) ≤ 0 := by exact_mod_cast hz.le
  refine ⟨max ⌈(dim : ℝ) / z⌉ ⌈(4 : ℝ) / z⌉, ?_, _, (srbfCreate_iff _ _ _ _ _ _ _ _).mpr
    ⟨(failtolOf_iff _ _ _ _).mpr (.inr ⟨rfl, .inl ⟨z, hz.ne, rfl, rfl⟩⟩), rfl, (baseCheck_iff _ _ _ _).mpr ⟨.inr (by simp), hb⟩⟩⟩
  rw [max_le_iff, Int.ceil_le, Int.ceil_le]
  simp only [Int.cast_zero]
  exact ⟨div_nonpos_of_nonneg_of_nonpos (by positivity) hz', div_nonpos_of_nonneg_of_nonpos (by norm_num) hz'⟩

/-- EI and LCB in synchronous mode accept the batch size 0.  Once the design is evaluated no point is ever proposed again, and
the run does not end, however often the controller asks (with no point to find, the genetic algorithm cannot give up). -/
theorem C97_zero_refuted (m : PyNum) (n : ℕ) (hm : ValidBudget m n) :
    eiCreate false (.num (.int 0)) m n = .ok () ∧
    ∀ {P : Type} [DecidableEq P] (cfg : Config P) (w : Sys P) (os : List (Oracle P)), cfg.asynchronous = false →
      cfg.batchSize = 0 → cfg.srbf = none → (∀ o ∈ os, o.giveUp = false) → Reach cfg w → w.inflight = [] →
      w.st.terminate = false → w.st.numEvals < cfg.maxEvals → w.st.converged = false → w.st.batchQueue = [] →
      ∃ w', w.steps cfg (os.map .propose) = some w' ∧ w'.inflight = [] ∧
        w'.st.log = w.st.log ++ List.replicate os.length (.generated [] []) := by
  refine ⟨(baseCheck_iff _ _ _ _).mpr ⟨.inr (by simp), (C61_exact_partial m n).1 hm⟩, ?_⟩
  intro P _ cfg w os ha hb hs hos h hi ht he hc hq
  induction os generalizing w with
  | nil => exact ⟨w, rfl, hi, by simp⟩
  | cons o os ih =>
    have hp : w.st.pendingEvals = 0 := by rw [C02_pending_exact h, hi]; rfl
    have hstep : w.step cfg (.propose o) = some { w with st :=
        { w.st with phase := .adaptive, log := w.st.log ++ [.generated [] []] } } := by
      simp only [Sys.step]
      rw [proposeAction_going ht (by rw [hp]; omega), hc, hq]
      simp [State.adaptBranch, ha, hp, State.generateEvals, hs, hos o (by simp), hb, State.afterGenerate, hc,
        State.adaptProposal, hq, popLast]
    obtain ⟨w', h1, h2, h4⟩ := ih { w with st := { w.st with phase := .adaptive, log := w.st.log ++ [.generated [] []] } }
      (fun o' h' => hos o' (by simp [h'])) (h.step _ hstep) hi ht he hc hq
    refine ⟨w', ?_, h2, ?_⟩
    · rw [List.map_cons]
      simp only [Sys.steps, hstep]
      exact h1
    · rw [h4, List.length_cons, List.replicate_succ, List.append_assoc]
      rfl

/-- Such a state is reached: two design points, both evaluated. -/
example : ∃ w : Sys Nat, Reach { demoSync with batchSize := 0, extras := [] } w ∧ w.inflight = [] ∧ w.st.terminate = false ∧
    w.st.numEvals < 6 ∧ w.st.converged = false ∧ w.st.batchQueue = [] := by
  obtain ⟨w, h1, h2⟩ := exists_reach (cfg := { demoSync with batchSize := 0, extras := [] }) (orc 0)
    [pr 100, .accept 0, .complete 0 1, pr 100, .accept 0, .complete 0 1]
    (fun w => decide (w.inflight = []) && !w.st.terminate && decide (w.st.numEvals < 6) && !w.st.converged &&
      decide (w.st.batchQueue = [])) (by decide +kernel)
  simp only [Bool.and_eq_true, decide_eq_true_eq, Bool.not_eq_true'] at h2
  exact ⟨w, h1, h2.1.1.1.1, h2.1.1.1.2, h2.1.1.2, h2.1.2, h2.2⟩

/-- An empty list of weights: a state in which the first adaptive point is requested. -/
example : ∃ w : Sys Nat, Reach { demo with srbf := some ⟨3, []⟩ } w ∧ w.st.terminate = false ∧
    w.st.numEvals + w.st.pendingEvals < 6 ∧ w.st.converged = false ∧ w.st.batchQueue = [] := by
  obtain ⟨w, h1, h2⟩ := exists_reach (cfg := { demo with srbf := some ⟨3, []⟩ }) (orc 0)
    [pr 100, .accept 0, .complete 0 1, pr 100, .accept 0, .complete 0 1, pr 100, .accept 0, .complete 0 1]
    (fun w => !w.st.terminate && decide (w.st.numEvals + w.st.pendingEvals < 6) && !w.st.converged &&
      decide (w.st.batchQueue = [])) (by decide +kernel)
  simp only [Bool.and_eq_true, decide_eq_true_eq, Bool.not_eq_true'] at h2
  exact ⟨w, h1, h2.1.1.1, h2.1.1.2, h2.1.2, h2.2⟩

/-- Valid arguments: synchronous, batches of 2, weights 0.5 and 1, dimension 5, budget 20, 10 design points. -/
example : ValidBatch false (.num (.int 2)) ∧
    ValidWeights (.list [.num (.float (.fin (1 / 2))), .num (.float (.fin 1))]) [1 / 2, 1] ∧ ValidBudget (.int 20) 10 := by
  refine ⟨.inr ⟨2, by norm_num, rfl⟩, ⟨by simp, rfl, ?_⟩, ⟨20, rfl, by norm_num, by norm_num⟩⟩
  simp only [List.mem_cons, List.not_mem_nil, or_false, forall_eq_or_imp, forall_eq]
  norm_num

end Verif.Props
