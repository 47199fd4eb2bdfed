import Verif.Props.TooFew
import Verif.Units.Surr
import Mathlib.LinearAlgebra.FiniteDimensional.Lemmas
import Mathlib.LinearAlgebra.Dimension.Constructions

/-! # C147: a run that was killed during the initial design -/

namespace Verif.Props

open Verif.Num Verif.Utils Verif.Cand Verif.Design Verif.Strategy Verif.Spec Verif.Loop

variable {d : ℕ} {L : Setup d} {S : Surr d} {f : Pt d → Val}

/-- Nothing is queued or running, there is budget left, and the surrogate cannot be evaluated. -/
structure Dead (L : Setup d) (S : Surr d) (w : Sys (Pt d)) : Prop where
  term : w.st.terminate = false
  conv : w.st.converged = false
  budget : w.st.numEvals < L.cfg.maxEvals
  queue : w.st.batchQueue = []
  phase : w.st.phase = .adaptive
  pend : w.st.pendingEvals = 0
  props : w.props = []
  recs : w.recs = []
  mean : S.mean (surrData w.st) = none

theorem Dead.propose {w : Sys (Pt d)} (h : Dead L S w) (r : Rnd d) : loopStep L S f w (.propose r) = none := by
  have hw : wantsPoints L.cfg w.st :=
    ⟨h.term, by rw [h.pend, add_zero]; exact h.budget, h.conv, h.queue, .inr h.pend⟩
  simp only [loopStep, answer, if_pos hw, gen_none h.mean, Option.bind_none]

theorem Dead.resumed {w : Sys (Pt d)} (h : Dead L S w) : Dead L S w.resumed := by
  constructor <;> simp [Sys.resumed, resume_eq, State.note, h.term, h.conv, h.budget, h.queue, h.phase]
  exact h.mean

theorem Dead.steps {es : List (Ev d)} {w w' : Sys (Pt d)} (h : Dead L S w) (hw : loopSteps L S f w es = some w') :
    (∀ e ∈ es, e = .resume) ∧ Dead L S w' := by
  induction es generalizing w with
  | nil =>
    simp only [loopSteps, Option.some.injEq] at hw
    exact ⟨by simp, hw ▸ h⟩
  | cons e es ih =>
    simp only [loopSteps] at hw
    cases e with
    | propose r => rw [h.propose] at hw; simp at hw
    | resume =>
      obtain ⟨h1, h2⟩ := ih h.resumed hw
      exact ⟨by simpa using h1, h2⟩
    | complete i => simp [loopStep, h.recs] at hw
    | accept i => simp [loopStep, Sys.step, h.props] at hw
    | reject i => simp [loopStep, Sys.step, h.props] at hw
    | abort i => simp [loopStep, Sys.step, h.recs] at hw
    | update i => simp [loopStep, Sys.step, h.recs] at hw

/-- The manager is killed after `propose_action` has found the queue of the initial design empty; the evaluations in flight
are lost.  If the surrogate cannot be evaluated with the points that were evaluated before (budget left, no termination
decided), the run resumed from the checkpoint proposes nothing: every call of `propose_action` raises, however often the run
is resumed. -/
theorem C147_dead_refuted {w : Sys (Pt d)} (ht : w.st.terminate = false) (hc : w.st.converged = false)
    (hb : w.st.numEvals < L.cfg.maxEvals) (hq : w.st.batchQueue = []) (hp : w.st.phase = .adaptive)
    (hm : S.mean (surrData w.st) = none) {es : List (Ev d)} {w' : Sys (Pt d)}
    (hw : loopSteps L S f w (.resume :: es) = some w') :
    (∀ e ∈ es, e = .resume) ∧ w'.st.terminate = false ∧ w'.st.numEvals < L.cfg.maxEvals ∧
      ∀ r, loopStep L S f w' (.propose r) = none := by
  have h : Dead L S w.resumed := by
    constructor <;> simp [Sys.resumed, resume_eq, State.note, ht, hc, hb, hq, hp]
    exact hm
  obtain ⟨h1, h2⟩ := h.steps (f := f) (es := es) hw
  exact ⟨h1, h2.term, h2.budget, fun r => h2.propose r⟩

/-! ## How a run gets there -/

/-- A run in its initial phase: the points `q` are queued, all others were handed out. -/
structure HandedOut (w : Sys (Pt d)) (q : List (Pt d)) (j m : ℕ) : Prop where
  term : w.st.terminate = false
  conv : w.st.converged = false
  queue : w.st.batchQueue = q
  phase : w.st.phase = .initial
  num : w.st.numEvals = j
  pend : w.st.pendingEvals = m
  props : w.props = []
  recs : w.recs.length = m
  ev : w.st.evLast = 0
  ev' : 0 < w.st.evNext
  ids : ∀ r ∈ w.recs, r.kind = .init ∧ 0 < r.evId
  data : w.st.surr.length = j

theorem HandedOut.create (hx : L.cfg.extras = []) {D : List (Pt d)} (hD : D.length = L.cfg.numPts) :
    HandedOut (Sys.create L.cfg (oracleOf L D none)) D 0 0 := by
  have hq : (List.range L.cfg.numPts).map (fun i => D.getD i L.prob.lb) = D := by
    apply List.ext_getElem (by simp [hD])
    intro i h1 h2
    simp [List.getElem?_eq_getElem h2]
  constructor <;> simp [Sys.create, create_eq, State.blank, unknownExtras, knownExtras, hx, oracleOf, hq]
  · simpa using hq

theorem HandedOut.round {w : Sys (Pt d)} {q : List (Pt d)} {x : Pt d} {m : ℕ} (h : HandedOut w (q ++ [x]) 0 m)
    (hm : (m : ℤ) < L.cfg.maxEvals) (r : Rnd d) :
    ∃ w1 w2, loopStep L S f w (.propose r) = some w1 ∧ loopStep L S f w1 (.accept 0) = some w2 ∧ HandedOut w2 q 0 (m + 1) := by
  have hw : ¬ wantsPoints L.cfg w.st := by
    rintro ⟨_, _, _, h4, _⟩; rw [h.queue] at h4; simp at h4
  have h1 : loopStep L S f w (.propose r) = some { w with
      st := (State.makeProposal { w.st with batchQueue := q } x).note (.proposed x .init)
      props := [{ x := x, kind := .init }] } := by
    have : w.st.proposeAction L.cfg (oracleOf L r.design none) =
        some (.eval x .init, State.makeProposal { w.st with batchQueue := q } x) := by
      rw [proposeAction_going h.term (by rw [h.num, h.pend]; simpa using hm)]
      simp only [h.conv, Bool.false_eq_true, if_false, h.queue, h.phase, State.initProposal, popLast]
      simp
    simp only [loopStep, answer, if_neg hw, Option.bind_some, Sys.step, this, h.props, List.nil_append]
  refine ⟨_, _, h1, rfl, ?_⟩
  have hids := h.ids
  constructor <;> simp [State.note, State.onAccept, State.makeProposal, h.term, h.conv, h.phase, h.num, h.pend, h.recs, h.ev, List.eq_nil_of_length_eq_zero h.data]
  · have := h.ev'; intro r hr; rcases hr with hr | rfl
    · exact hids r hr
    · exact ⟨rfl, this⟩

theorem HandedOut.rounds {w : Sys (Pt d)} {q : List (Pt d)} {m : ℕ} (h : HandedOut w q 0 m)
    (hm : ((m + q.length : ℕ) : ℤ) ≤ L.cfg.maxEvals) (r : Rnd d) (es : List (Ev d)) :
    ∃ w', loopSteps L S f w ((List.replicate q.length [.propose r, .accept 0]).flatten ++ es) = loopSteps L S f w' es ∧
      HandedOut w' [] 0 (m + q.length) := by
  induction q using List.reverseRecOn generalizing w m with
  | nil => exact ⟨w, by simp, h⟩
  | append_singleton q x ih =>
    rw [List.length_append, List.length_singleton] at hm
    obtain ⟨w1, w2, h1, h2, h3⟩ := h.round (L := L) (S := S) (f := f) (by push_cast at hm; omega) r
    obtain ⟨w', h4, h5⟩ := ih h3 (by push_cast at hm ⊢; omega)
    refine ⟨w', ?_, ?_⟩
    · rw [List.length_append, List.length_singleton, List.replicate_succ, List.flatten_cons]
      simp only [List.cons_append, List.nil_append, loopSteps, h1, Option.bind_some, h2]
      exact h4
    · rw [List.length_append, List.length_singleton, Nat.add_comm q.length 1, ← Nat.add_assoc]
      exact h5

theorem HandedOut.done {w : Sys (Pt d)} {j m : ℕ} (h : HandedOut w [] j (m + 1)) :
    ∃ w', loopStep L S f w (.complete 0) = some w' ∧ HandedOut w' [] (j + 1) m := by
  have hrec := h.recs
  cases hr : w.recs with
  | nil => rw [hr] at hrec; simp at hrec
  | cons e rest =>
    rw [hr] at hrec
    have hids := h.ids
    rw [hr] at hids
    have he := hids e (by simp)
    refine ⟨_, by simp only [loopStep, hr, List.getElem?_cons_zero, Option.bind_some, Sys.step]; rfl, ?_⟩
    have hev : e.evId > w.st.evLast := by rw [h.ev]; exact he.2
    constructor <;> simp [State.onCompleted, he.1, recordCompleted_eq, State.note, h.term, h.conv, h.queue, h.phase, h.num, h.pend, h.props,
      h.ev, h.ev', h.data, he.2]
    · simpa using hrec
    · intro r hr'; exact hids r (by simp [hr'])

theorem HandedOut.doneAll {w : Sys (Pt d)} {j m k : ℕ} (h : HandedOut w [] j (m + k)) (es : List (Ev d)) :
    ∃ w', loopSteps L S f w (List.replicate k (.complete 0) ++ es) = loopSteps L S f w' es ∧ HandedOut w' [] (j + k) m := by
  induction k generalizing w j with
  | zero => exact ⟨w, by simp, h⟩
  | succ k ih =>
    obtain ⟨w1, h1, h2⟩ := HandedOut.done (L := L) (S := S) (f := f) (m := m + k) h
    obtain ⟨w', h3, h4⟩ := ih h2
    refine ⟨w', ?_, ?_⟩
    · rw [List.replicate_succ]
      simp only [List.cons_append, loopSteps, h1, Option.bind_some]
      exact h3
    · rw [Nat.add_comm k 1, ← Nat.add_assoc]; exact h4

theorem HandedOut.wait {w : Sys (Pt d)} {j m : ℕ} (h : HandedOut w [] j (m + 1)) (ha : L.cfg.asynchronous = false)
    (hm : ((j + m + 1 : ℕ) : ℤ) < L.cfg.maxEvals) (r : Rnd d) :
    loopStep L S f w (.propose r) = some { w with st := { w.st with phase := .adaptive } } := by
  have hw : ¬ wantsPoints L.cfg w.st := by
    rintro ⟨_, _, _, _, h5⟩
    rw [ha, h.pend] at h5
    simp at h5
    omega
  have hp : ¬ ((m : ℤ) + 1 = 0) := by omega
  have : w.st.proposeAction L.cfg (oracleOf L r.design none) = some (.nothing, { w.st with phase := .adaptive }) := by
    rw [proposeAction_going h.term (by rw [h.num, h.pend]; push_cast at hm ⊢; omega)]
    simp [h.conv, h.queue, State.adaptBranch, ha, h.pend, hp, State.afterGenerate, State.adaptProposal, popLast]
  simp only [loopStep, answer, if_neg hw, Option.bind_some, Sys.step, this]

/-- Synchronous mode, `n` initial points and at least `n` workers: all initial points are handed out, `k < n` are evaluated, a
worker asks for more work, and the manager is killed.  If the surrogate needs more than `k` points, the checkpoint is useless:
the resumed run raises at every call of `propose_action`, for all problems, methods, objectives and random draws. -/
theorem C147_design_refuted (ha : L.cfg.asynchronous = false) (hx : L.cfg.extras = [])
    (hn : (L.cfg.numPts : ℤ) < L.cfg.maxEvals) {D : List (Pt d)} (hD : D.length = L.cfg.numPts) {k : ℕ} (hk : k < L.cfg.numPts)
    (hS : ∀ E : List (Pt d × ℝ), E.length = k → S.mean E = none) (r : Rnd d) :
    ∃ w, loopRun L S f D ((List.replicate L.cfg.numPts [.propose r, .accept 0]).flatten ++
        (List.replicate k (.complete 0) ++ [.propose r])) = some w ∧
      w.st.numEvals = k ∧ w.recs.length = L.cfg.numPts - k ∧
      ∀ es w', loopSteps L S f w (.resume :: es) = some w' →
        (∀ e ∈ es, e = .resume) ∧ w'.st.terminate = false ∧ w'.st.numEvals < L.cfg.maxEvals ∧
          ∀ r, loopStep L S f w' (.propose r) = none := by
  obtain ⟨m, hm⟩ : ∃ m, L.cfg.numPts = m + 1 + k := ⟨L.cfg.numPts - k - 1, by omega⟩
  obtain ⟨w1, h1, h2⟩ := (HandedOut.create hx hD).rounds (L := L) (S := S) (f := f) (by rw [hD]; push_cast; omega) r
    (List.replicate k (.complete 0) ++ [.propose r])
  rw [hD, zero_add, hm] at h2
  obtain ⟨w2, h3, h4⟩ := h2.doneAll (L := L) (S := S) (f := f) [.propose r]
  rw [zero_add] at h4
  have h5 := h4.wait (S := S) (f := f) ha (by rw [hm] at hn; push_cast at hn ⊢; omega) r
  refine ⟨{ w2 with st := { w2.st with phase := .adaptive } }, ?_, h4.num, by rw [hm]; simp [h4.recs], ?_⟩
  · rw [loopRun, ← hD, h1, h3]
    simp only [loopSteps, h5, Option.bind_some]
  · intro es w' hw
    refine C147_dead_refuted (w := { w2 with st := { w2.st with phase := .adaptive } }) h4.term h4.conv ?_ h4.queue rfl (hS _ ?_) hw
    · show w2.st.numEvals < _
      rw [h4.num]; omega
    · show (surrData w2.st).length = k
      simp [surrData, h4.data]

/-! ## The RBF interpolant -/

/-- At most `d` points lie on a hyperplane. -/
theorem few_onHyperplane (P : List (Pt d)) (h0 : P ≠ []) (hP : P.length ≤ d) : OnHyperplane P := by
  let φ : ((Fin d → ℝ) × ℝ) →ₗ[ℝ] (Fin P.length → ℝ) :=
    { toFun := fun v i => (∑ j, v.1 j * P[i] j) - v.2
      map_add' := fun v u => by
        funext i
        simp only [Prod.fst_add, Prod.snd_add, Pi.add_apply, add_mul, Finset.sum_add_distrib]
        ring
      map_smul' := fun c v => by
        funext i
        simp only [Prod.smul_fst, Prod.smul_snd, Pi.smul_apply, smul_eq_mul, RingHom.id_apply, mul_assoc, ← Finset.mul_sum]
        ring }
  have hker : LinearMap.ker φ ≠ ⊥ := by
    apply LinearMap.ker_ne_bot_of_finrank_lt
    simp only [Module.finrank_prod, Module.finrank_fin_fun, Module.finrank_self]
    omega
  obtain ⟨v, hv, hv0⟩ := (Submodule.ne_bot_iff _).mp hker
  have hv' : ∀ i : Fin P.length, (∑ j, v.1 j * P[i] j) = v.2 := fun i => by
    have := congrFun (LinearMap.mem_ker.mp hv) i
    simpa [φ, sub_eq_zero] using this
  refine ⟨v.1, v.2, ?_, ?_⟩
  · intro hz
    have := hv' ⟨0, List.length_pos_of_ne_nil h0⟩
    rw [hz] at this
    simp at this
    exact hv0 (Prod.ext hz this.symm)
  · intro x hx
    obtain ⟨i, hi, rfl⟩ := List.mem_iff_getElem.mp hx
    exact hv' ⟨i, hi⟩

/-- The default RBF interpolant (cubic kernel, linear tail) needs `d + 1` points: a synchronous run with at least as many
workers as initial points cannot be resumed when the manager is killed while at most `d` of them are evaluated. -/
theorem C147_rbf_refuted {eta : ℝ} (heta : 0 < eta) {trans : List ℝ → List ℝ}
    {lu : ℕ → Surrogate.Mat → Surrogate.LuOut} {chol : ℕ → Surrogate.Mat → Option Surrogate.Mat} (hlu : Surrogate.LuSpec lu)
    (hchol : Surrogate.CholSpec chol) (hb : ∀ i, L.prob.lb i < L.prob.ub i)
    (ha : L.cfg.asynchronous = false) (hx : L.cfg.extras = [])
    (hn : (L.cfg.numPts : ℤ) < L.cfg.maxEvals) {D : List (Pt d)} (hD : D.length = L.cfg.numPts) {k : ℕ} (hk : k < L.cfg.numPts)
    (hkd : k ≤ d) (f : Pt d → Val) (r : Rnd d) :
    ∃ w, loopRun L (rbfSurr (defaultPar L.prob eta trans lu chol)) f D
        ((List.replicate L.cfg.numPts [.propose r, .accept 0]).flatten ++ (List.replicate k (.complete 0) ++ [.propose r])) = some w ∧
      w.st.numEvals = k ∧ w.recs.length = L.cfg.numPts - k ∧
      ∀ es w', loopSteps L (rbfSurr (defaultPar L.prob eta trans lu chol)) f w (.resume :: es) = some w' →
        (∀ e ∈ es, e = .resume) ∧ w'.st.terminate = false ∧ w'.st.numEvals < L.cfg.maxEvals ∧
          ∀ r, loopStep L (rbfSurr (defaultPar L.prob eta trans lu chol)) f w' (.propose r) = none := by
  refine C147_design_refuted ha hx hn hD hk ?_ r
  intro E hE
  unfold rbfSurr
  simp only
  rw [if_pos]
  refine ⟨L.prob.lb, ?_⟩
  rw [defaultPar, C77_cubic L.prob.lb L.prob.ub hb eta heta.le trans lu chol hlu hchol _ (scratch_ok E) _ (.inl heta)]
  by_cases h0 : E = []
  · exact .inl (by rw [scratch_data, h0])
  · refine .inr (.inl ?_)
    rw [scratch_data]
    exact few_onHyperplane _ (by simpa using h0) (by simpa [hE] using hkd)

/-- Conversely, any schedule, any number of crashes: if the surrogate can be evaluated with the points of the current run
that were evaluated before the crash (`¬ Bad`: for the default RBF interpolant, not on a hyperplane) and no fit has failed
before, `propose_action` of the resumed run does not raise. -/
theorem C147_enough_partial {Bad : List (Pt d) → Prop} [Hereditary Bad] {K : Obj d} (ok : ProbOk L.prob) (hs : Sane L.cfg)
    (hL : MethodOk L) (hK : Answers Bad L.method K) {W : ObjSys d} (h : ObjReach Bad L K f W) (hff : ¬ Failed Bad W.calls)
    (hx : ¬ Bad W.sys.st.curX) (hne : W.sys.st.curX ≠ []) :
    ∃ R, objStep L K f W .resume = some R ∧ R.sys = W.sys.resumed ∧ ∀ r, ∃ W', objStep L K f R (.propose r) = some W' := by
  have e : objStep L K f W .resume = some ⟨W.sys.resumed, W.calls⟩ := by
    simp [objStep, loopStep, callsOf]
  have hR : ObjReach Bad L K f ⟨W.sys.resumed, W.calls⟩ := h.step .resume (by simp) e
  refine ⟨_, e, rfl, fun r => ?_⟩
  obtain ⟨_, _, _, W', _, _, h3, _⟩ := propose_some ok hs hL hK hR hff (fun _ => ⟨by simpa [Sys.resumed, resume_eq, State.note] using hx,
    by simpa [Sys.resumed, resume_eq, State.note] using hne⟩) r
  exact ⟨W', h3⟩

/-- Two variables, three initial points, three workers: two points are evaluated, the third is lost with the manager. -/
example {trans : List ℝ → List ℝ} {lu : ℕ → Surrogate.Mat → Surrogate.LuOut}
    {chol : ℕ → Surrogate.Mat → Option Surrogate.Mat} (hlu : Surrogate.LuSpec lu) (hchol : Surrogate.CholSpec chol)
    (f : Pt 2 → Val) (r : Rnd 2) (D : List (Pt 2)) (hD : D.length = 3) :
    ∃ w, loopRun squareSetup (rbfSurr (defaultPar squareSetup.prob 1e-6 trans lu chol)) f D
        ((List.replicate 3 [.propose r, .accept 0]).flatten ++ (List.replicate 2 (.complete 0) ++ [.propose r])) = some w ∧
      w.st.numEvals = 2 ∧ w.recs.length = 1 ∧
      ∀ r, loopStep squareSetup (rbfSurr (defaultPar squareSetup.prob 1e-6 trans lu chol)) f w.resumed (.propose r) = none := by
  obtain ⟨w, h1, h2, h3, h4⟩ := C147_rbf_refuted (L := squareSetup) (eta := 1e-6) (by norm_num) (trans := trans) hlu hchol
    (fun i => by fin_cases i <;> norm_num [squareSetup]) rfl rfl (by norm_num [squareSetup]) (D := D) hD (k := 2)
    (by norm_num [squareSetup]) (le_refl _) f r
  exact ⟨w, h1, h2, h3, (h4 [] w.resumed rfl).2.2.2⟩

end Verif.Props
