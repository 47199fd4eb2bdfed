import Verif.Props.Whole
import Verif.Props.Design

/-! # Property C119: an accepted initial design is enough for the first adaptive point -/

namespace Verif.Props

open Verif.Num Verif.Utils Verif.Cand Verif.Design Verif.Strategy Verif.Spec Verif.Loop

variable {d : ℕ} {L : Setup d} {K : Obj d} {f : Pt d → Val}

/-- The serial run is in its initial phase: the points `q` are queued, the points `c` were evaluated, nothing is running, and
the surrogate object was given the evaluated points. -/
structure Initial (L : Setup d) (W : ObjSys d) (q : List (Pt d)) (c : List (Pt d × Val)) : Prop where
  term : W.sys.st.terminate = false
  conv : W.sys.st.converged = false
  queue : W.sys.st.batchQueue = q
  phase : W.sys.st.phase = .initial
  num : W.sys.st.numEvals = c.length
  pend : W.sys.st.pendingEvals = 0
  xpend : W.sys.st.Xpend = []
  props : W.sys.props = []
  recs : W.sys.recs = []
  ev : W.sys.st.evLast = 0
  ev' : 0 < W.sys.st.evNext
  data : (dataOf d W.calls).map Prod.fst = c.map Prod.fst
  cols : NoMultiColumn W.calls

theorem Initial.round {W : ObjSys d} {q : List (Pt d)} {x : Pt d} {c : List (Pt d × Val)} (hm : (c.length : ℤ) < L.cfg.maxEvals)
    (hi : Initial L W (q ++ [x]) c) (r : State (Pt d) → Rnd d) (rs : List (State (Pt d) → Rnd d)) :
    ∃ W', objSerial L K f (r :: rs) W = objSerial L K f rs W' ∧ Initial L W' q (c ++ [(x, f x)]) := by
  have hw : ¬ wantsPoints L.cfg W.sys.st := by
    rintro ⟨_, _, _, h4, _⟩; rw [hi.queue] at h4; simp at h4
  have h1 : loopStep L (K W.calls) f W.sys (.propose (r W.sys.st)) = some { W.sys with
      st := (State.makeProposal { W.sys.st with batchQueue := q } x).note (.proposed x .init)
      props := [{ x := x, kind := .init }] } := by
    have : W.sys.st.proposeAction L.cfg (oracleOf L (r W.sys.st).design none) =
        some (.eval x .init, State.makeProposal { W.sys.st with batchQueue := q } x) := by
      rw [proposeAction_going hi.term (by rw [hi.num, hi.pend, add_zero]; exact hm)]
      simp only [hi.conv, Bool.false_eq_true, if_false, hi.queue, hi.phase, State.initProposal, popLast]
      simp
    simp only [loopStep, answer, if_neg hw, Option.bind_some, Sys.step, this, hi.props, List.nil_append]
  have h1' : objStep L K f W (.propose (r W.sys.st)) = some ⟨{ W.sys with
      st := (State.makeProposal { W.sys.st with batchQueue := q } x).note (.proposed x .init)
      props := [{ x := x, kind := .init }] }, W.calls⟩ := by
    simp only [objStep, h1, Option.map_some, callsOf, if_neg hw]
    rw [if_neg]
    · simp
    · rintro ⟨q', hq⟩
      simp [State.note, State.makeProposal] at hq
  have h3 := objSerial_going (rs := rs) h1' (by simp [State.note]) rfl (by
    simp only [objStep, loopStep, Sys.step, hi.recs, List.nil_append, List.getElem?_cons_zero, hi.props, Option.bind_some]
    rfl)
  refine ⟨_, h3, ?_⟩
  have hev : W.sys.st.evNext > W.sys.st.evLast := by rw [hi.ev]; exact hi.ev'
  constructor <;> simp [State.onCompleted, recordCompleted_eq, State.note, State.onAccept, State.makeProposal, hi.term,
    hi.conv, hi.phase, hi.num, hi.pend, hi.xpend, hi.ev, hi.ev', hi.recs, callsOf]
  · rw [dataOf_addCall, List.map_append, hi.data]; simp
  · exact cols_append hi.cols (cols_add [(x, f x)])

theorem Initial.start (hx : L.cfg.extras = []) {D : List (Pt d)} (hD : D.length = L.cfg.numPts) :
    Initial L (objCreate L D) D [] := by
  have hq : (List.range L.cfg.numPts).map (fun i => D.getD i L.prob.lb) = D := by
    apply List.ext_getElem (by simp [hD])
    intro i h1 h2
    simp [List.getElem?_eq_getElem h2]
  constructor <;> simp [objCreate, Sys.create, create_eq, State.blank, unknownExtras, knownExtras, hx, oracleOf, hq]
  · simpa using hq
  · rfl
  · intro xx fx h; simp at h

/-- The serial run gets through the initial phase. -/
theorem Initial.rounds {W : ObjSys d} {q : List (Pt d)} {c : List (Pt d × Val)}
    (hm : (c.length : ℤ) + q.length ≤ L.cfg.maxEvals) (hi : Initial L W q c) (rs : List (State (Pt d) → Rnd d))
    (hrs : q.length ≤ rs.length) :
    ∃ W' c', objSerial L K f rs W = objSerial L K f (rs.drop q.length) W' ∧ Initial L W' [] c' ∧
      c'.length = c.length + q.length ∧ ∀ x, x ∈ c'.map Prod.fst ↔ x ∈ c.map Prod.fst ∨ x ∈ q := by
  induction q using List.reverseRecOn generalizing W c rs with
  | nil => exact ⟨W, c, rfl, hi, rfl, by simp⟩
  | append_singleton q x ih =>
    cases rs with
    | nil => simp at hrs
    | cons r rs =>
      simp only [List.length_append, List.length_singleton, List.length_cons, Nat.cast_add, Nat.cast_one] at hm hrs
      obtain ⟨W1, h1, h2⟩ := hi.round (K := K) (f := f) (by omega) r rs
      obtain ⟨W', c', h3, h4, h5, h6⟩ := ih (by simp; omega) h2 rs (by omega)
      refine ⟨W', c', ?_, h4, ?_, fun y => ?_⟩
      · rw [h1, h3]; simp
      · rw [h5]; simp; omega
      · rw [h6]; simp; tauto

theorem genWith_none {S : Surr d} {s : State (Pt d)} (hS : S.mean (surrData s) = none) (n : ℕ) (r : Rnd d) (x0 : Pt d)
    (xs : List (Pt d)) (fX : Fin (xs.length + 1) → ℝ) : genWith L S s n r x0 xs fX = none := by
  unfold genWith
  cases L.method <;> simp only [hS]
  all_goals (cases L.cfg.srbf <;> cases s.srbf <;> rfl)

theorem gen_none {S : Surr d} {s : State (Pt d)} (hS : S.mean (surrData s) = none) (n : ℕ) (r : Rnd d) : gen L S s n r = none := by
  unfold gen
  split
  · rfl
  · split_ifs
    · exact genWith_none hS n r _ _ _
    · rfl

theorem rbfObj_none {p : Surrogate.Par d} {calls : List (Surrogate.Op d)}
    (h : ∃ x, (Surrogate.predict p (Surrogate.rrun p calls) x).2 = none) (D : List (Pt d × ℝ)) :
    (rbfObj p calls).mean D = none := by
  obtain ⟨x, hx⟩ := h
  have : ¬ ∀ x, (Surrogate.predict p (Surrogate.rrun p calls) x).2.isSome = true := fun h => by
    have := h x
    rw [hx] at this
    simp at this
  simp only [rbfObj, dif_neg this]

variable {eta : ℝ} {trans : List ℝ → List ℝ} {lu : ℕ → Surrogate.Mat → Surrogate.LuOut}
  {chol : ℕ → Surrogate.Mat → Option Surrogate.Mat}

/-- If the initial design lies on a hyperplane, every serial run with the default RBF interpolant raises an exception at the
first adaptive point, for all strategies, objectives and random outcomes. -/
theorem C119_hyperplane_refuted (ok : ProbOk L.prob) (hx : L.cfg.extras = []) (heta : 0 < eta) (hlu : Surrogate.LuSpec lu)
    (hchol : Surrogate.CholSpec chol) (hM : (L.cfg.numPts : ℤ) < L.cfg.maxEvals) (D : List (Pt d))
    (hD : DesignOf L.prob L.cfg.numPts D) (hn : OnHyperplane D) (rs : List (State (Pt d) → Rnd d))
    (hrs : L.cfg.numPts < rs.length) :
    objSerial L (rbfObj (defaultPar L.prob eta trans lu chol)) f rs (objCreate L D) = none := by
  have hlen := (hD.spec ok).1
  obtain ⟨W, c, h1, h2, h3, h4⟩ := (Initial.start hx hlen).rounds (K := rbfObj (defaultPar L.prob eta trans lu chol)) (f := f)
    (by simp; omega) rs (by omega)
  rw [h1]
  obtain ⟨r, rs', hr⟩ : ∃ r rs', rs.drop D.length = r :: rs' := by
    cases hdr : rs.drop D.length with
    | nil => have := congrArg List.length hdr; simp at this; omega
    | cons r rs' => exact ⟨r, rs', rfl⟩
  rw [hr]
  have hw : wantsPoints L.cfg W.sys.st :=
    ⟨h2.term, by rw [h2.num, h2.pend, h3]; simp; omega, h2.conv, h2.queue, .inr h2.pend⟩
  have hmean : ∀ E, (rbfObj (defaultPar L.prob eta trans lu chol) W.calls).mean E = none := by
    refine rbfObj_none ⟨L.prob.lb, ?_⟩
    rw [defaultPar, C77_cubic L.prob.lb L.prob.ub ok.lt eta heta.le trans lu chol hlu hchol W.calls h2.cols _ (.inl heta)]
    refine .inr (.inl ?_)
    rw [h2.data]
    exact Hereditary.mono (fun y hy => by simpa using (h4 y).mp hy) hn
  simp only [objSerial, objStep, loopStep, answer, if_pos hw, gen_none (hmean _), Option.bind_none, Option.map_none]

/-- Every symmetric Latin hypercube with `dim + 1 ≤ n < 2 * dim` points is accepted as design of a strategy with the default RBF
interpolant, but the run raises an exception at the first adaptive point (continuous variables). -/
theorem C119_slhd_refuted (ok : ProbOk L.prob) (hc : L.prob.intVar = []) (hx : L.cfg.extras = []) (heta : 0 < eta)
    (hlu : Surrogate.LuSpec lu) (hchol : Surrogate.CholSpec chol) (hM : (L.cfg.numPts : ℤ) < L.cfg.maxEvals)
    (h2 : 2 ≤ L.cfg.numPts) (hd : L.cfg.numPts < 2 * d)
    (rnd : List ((ℕ → ℕ → Bool) × (ℕ → Equiv.Perm (Fin (L.cfg.numPts / 2))))) (X : Des L.cfg.numPts d)
    (hX : slhdPoints L.cfg.numPts d rnd (some (L.prob.lb, L.prob.ub)) L.prob.intVar = some X)
    (rs : List (State (Pt d) → Rnd d)) (hrs : L.cfg.numPts < rs.length) :
    objSerial L (rbfObj (defaultPar L.prob eta trans lu chol)) f rs (objCreate L (List.ofFn X)) = none := by
  refine C119_hyperplane_refuted ok hx heta hlu hchol hM _ (.inl ⟨h2, rnd, X, hX, rfl⟩) ?_ rs hrs
  rw [hc] at hX
  obtain ⟨w, b, hw, hb⟩ := C66_slhd_refuted h2 (by omega) L.prob.lb L.prob.ub ok.lt rnd X hX
  refine ⟨w, b, hw, fun x hx => ?_⟩
  obtain ⟨i, rfl⟩ := (List.mem_ofFn' _ _).mp hx
  exact hb i

/-- A serial run of SRBF or DYCORS with the default RBF interpolant and restarts, long enough to reach an adaptive point:
there is an exception exactly if the initial design lies on a hyperplane (designs of restarts that do not). -/
theorem C119_exact_partial (ok : ProbOk L.prob) (hs : Sane L.cfg) (hr : L.cfg.useRestarts = true) (hL : MethodOk L)
    (hm : L.method = .srbf ∨ L.method = .dycors) (hx : L.cfg.extras = [])
    (heta : 0 < eta) (hlu : Surrogate.LuSpec lu) (hchol : Surrogate.CholSpec chol) {M : ℕ} (hM : L.cfg.maxEvals = M)
    (hMn : L.cfg.numPts < M) (D : List (Pt d)) (hD : DesignOf L.prob L.cfg.numPts D) (rs : List (State (Pt d) → Rnd d))
    (hlen : L.cfg.numPts < rs.length)
    (hrs : ∀ r ∈ rs, ∀ W, ObjReach OnHyperplane L (rbfObj (defaultPar L.prob eta trans lu chol)) f W →
      RndOk L W.sys.st (r W.sys.st) ∧ ¬ OnHyperplane (r W.sys.st).design) :
    objSerial L (rbfObj (defaultPar L.prob eta trans lu chol)) f rs (objCreate L D) = none ↔ OnHyperplane D := by
  constructor
  · intro h
    by_contra hn
    obtain ⟨W, b, h1, _⟩ := C118_rbf_serial (f := f) (trans := trans) ok hs hr hL hm (by simp [hx]) heta hlu hchol hM D hD hn rs hrs
    rw [h] at h1; cases h1
  · intro hn
    exact C119_hyperplane_refuted ok hx heta hlu hchol (by rw [hM]; exact_mod_cast hMn) D hD hn rs hlen

/-- DYCORS on the unit square with three initial points. -/
noncomputable def squareSetup : Setup 2 where
  prob := { lb := ![0, 0], ub := ![1, 1], intVar := [] }
  cfg := { asynchronous := false, batchSize := 2, maxEvals := 20, useRestarts := true, numPts := 3, extras := [],
           srbf := some { dim := 2, weights := [3 / 10, 1 / 2] } }
  method := .dycors

/-- Three points in two dimensions, as many as the tail has coefficients: the design is returned, and no run gets further than
these three evaluations. -/
example (f : Pt 2 → Val) (hlu : Surrogate.LuSpec lu) (hchol : Surrogate.CholSpec chol) : ∃ X : Des 3 2,
    slhdPoints 3 2 [((fun _ _ => true), fun _ => 1)] (some (![0, 0], ![1, 1])) [] = some X ∧
    ∀ rs, 3 < rs.length →
      objSerial squareSetup (rbfObj (defaultPar squareSetup.prob 1e-6 trans lu chol)) f rs (objCreate squareSetup (List.ofFn X)) = none := by
  obtain ⟨X, hX, _⟩ := C66_instance_refuted
  have ok : ProbOk squareSetup.prob :=
    ⟨fun i => by fin_cases i <;> norm_num [squareSetup], fun i hi => by simp [squareSetup] at hi, fun i hi => by simp [squareSetup] at hi⟩
  exact ⟨X, hX, fun rs hrs => C119_slhd_refuted (L := squareSetup) ok rfl rfl (by norm_num) hlu hchol (by norm_num [squareSetup])
    (by norm_num [squareSetup]) (by norm_num [squareSetup]) _ X hX rs hrs⟩

end Verif.Props
