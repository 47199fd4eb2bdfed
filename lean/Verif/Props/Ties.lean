import Verif.Props.Order

/-! # Property C122, ties: the order of completions decides -/

namespace Verif.Props

open Verif.Num Verif.Utils Verif.Cand Verif.Design Verif.Strategy Verif.Spec Verif.Loop

variable {d : ℕ} {L : Setup d} {S : Surr d} {f : Pt d → Val} {D : List (Pt d)} {rs : ℕ → Rnd d}
  {Q : State (Pt d) → Rnd d → Prop} {K : Obj d} {Bad : List (Pt d) → Prop} [Hereditary Bad]

/-- A proposal while the design is not exhausted. -/
theorem ask_design {w : Sys (Pt d)} (ht : w.st.terminate = false) (hb : w.st.numEvals + w.st.pendingEvals < L.cfg.maxEvals)
    (hc : w.st.converged = false) (hp : w.st.phase = .initial) {q : List (Pt d)} {x : Pt d} (hq : w.st.batchQueue = q ++ [x]) (r : Rnd d) :
    loopStep L S f w (.propose r) = some ⟨{ State.makeProposal { w.st with batchQueue := q } x with log := w.st.log ++ [Event.proposed x .init] },
      w.props ++ [⟨x, .init⟩], w.recs⟩ := by
  have hnw : ¬ wantsPoints L.cfg w.st := by
    rintro ⟨_, _, _, h, _⟩
    rw [hq] at h; simp at h
  have hpa : w.st.proposeAction L.cfg (oracleOf L r.design none) =
      some (.eval x .init, State.makeProposal { w.st with batchQueue := q } x) := by
    rw [proposeAction_going ht hb, hc]
    simp only [Bool.false_eq_true, if_false]
    rw [if_neg (by simp [hq])]
    have : ∀ s' : State (Pt d), s'.phase = .initial → (match s'.phase with
        | .initial => s'.initProposal
        | .adaptive => some s'.adaptProposal) = s'.initProposal := by
      intro s' h; rw [h]
    refine (this w.st hp).trans ?_
    simp only [State.initProposal, hq, popLast_append]
  simp only [loopStep, answer, if_neg hnw, Option.bind_some, Sys.step, hpa]
  rfl

/-- A proposal of SRBF in synchronous mode with batches of one point, when nothing is running. -/
theorem propose_adapt_sync {P : Type} [DecidableEq P] {cfg : Config P} {s : State P} {o : Oracle P} (ha : cfg.asynchronous = false)
    (hb1 : cfg.batchSize = 1) {sc : SrbfCfg} (hsc : cfg.srbf = some sc) {z : Srbf} (hz : s.srbf = some z) {ws : List ℚ} {next : ℕ}
    (hws : getWeights sc.weights z.nextWeight 1 = some (ws, next)) (ht : s.terminate = false)
    (hb : s.numEvals + s.pendingEvals < cfg.maxEvals) (hc : s.converged = false) (hq : s.batchQueue = []) (hp : s.pendingEvals = 0) :
    ∃ s', s.proposeAction cfg o = some (.eval (o.pts 0) .adapt, s') ∧ s'.log = s.log ++ [.generated [o.pts 0] ws] := by
  rw [proposeAction_going ht hb]
  simp only [hc, Bool.false_eq_true, if_false, hq, List.isEmpty_nil, if_true, State.adaptBranch, ha, hb1, State.generateEvals, hsc, hz,
    hws, State.afterGenerate, Bool.false_and, State.adaptProposal, popLast, hp]
  simp [State.makeProposal]

/-- SRBF with all draws at their centres proposes the best point found so far. -/
theorem gen_centre (hm : L.method = .srbf) {s : State (Pt d)} {S : Surr d} {pred : Pt d → ℝ}
    (hS : S.mean (surrData s) = some pred) {x0 : Pt d} {xs : List (Pt d)} (hX : s.curX = x0 :: xs)
    (hlen : s.curFX.length = xs.length + 1) (hfX : s.fX ≠ []) {sc : SrbfCfg} {z : Srbf}
    (hsc : L.cfg.srbf = some sc) (hz : s.srbf = some z) {ws : List ℚ} {next : ℕ} (hfeas : ∀ x ∈ s.curX, Feasible L.prob x)
    (hws : getWeights sc.weights z.nextWeight 1 = some (ws, next)) (D : List (Pt d)) (k : ℕ) :
    ∃ x ∈ s.curX, gen L S s 1 (restRnd D k) = some (some [x]) ∧ ((∀ v ∈ s.curFX, ∀ u ∈ s.curFX, v = u) → x = x0) := by
  obtain ⟨xb, hxb⟩ : ∃ xb, xb = xbestOf (fun i : Fin (xs.length + 1) => (x0 :: xs)[i])
    (fun i => ((s.curFX[i]'(by rw [hlen]; exact i.2) : ℚ) : ℝ)) := ⟨_, rfl⟩
  have hmem : xb ∈ s.curX := by
    rw [hxb, xbestOf, hX]; exact List.getElem_mem _
  refine ⟨xb, hmem, ?_, fun hflat => ?_⟩
  swap
  · rw [hxb, xbestOf, argmin_unique _ 0 (fun j => ?_) (fun j hj => absurd hj (by simp))]
    · rfl
    · have h := hflat _ (List.getElem_mem (l := s.curFX) (n := 0) (by omega)) (s.curFX[j.1]'(by rw [hlen]; exact j.2)) (List.getElem_mem _)
      show (((s.curFX[0]'(by omega) : ℚ)) : ℝ) ≤ (((s.curFX[j.1]'(by rw [hlen]; exact j.2)) : ℚ) : ℝ)
      rw [h]
  have hfeas := hfeas xb hmem
  unfold gen
  rw [hX]
  simp only
  rw [dif_pos ⟨hlen, hfX⟩]
  simp only [genWith, hm, hsc, hz, hS, hws, Option.map_some, Option.some.injEq]
  unfold candidateSrbf
  simp only [← hxb]
  have hcand : (fun j : Fin ((restRnd D k).m + 1) => roundVars (srbfCand xb (scalefactors L.prob ((z.radius : ℚ) : ℝ) (List.finRange d)) (List.finRange d)
      ((restRnd D k).draws j)) L.prob.intVar L.prob.lb L.prob.ub) = fun _ => xb := by
    funext j i
    have h0 : srbfCand xb (scalefactors L.prob ((z.radius : ℚ) : ℝ) (List.finRange d)) (List.finRange d) ((restRnd D k).draws j) = xb := by
      funext i
      simp [srbfCand, truncnorm, restRnd]
    rw [h0]
    exact roundVars_of_feasible (hfeas.1 i) (hfeas.2 i)
  rw [hcand]
  have hl : ws.length = 1 := getWeights_length hws
  have hlw : (weightedDistanceMerit pred (fun i : Fin (xs.length + 1) => (x0 :: xs)[i]) s.Xpend (fun _ : Fin ((restRnd D k).m + 1) => xb)
      (ws.map fun v => ((v : ℚ) : ℝ)) 1e-3).length = 1 := by
    simp [weightedDistanceMerit, wdmIdx, wdmLoop_length, hl]
  obtain ⟨y, hy⟩ := List.length_eq_one_iff.mp hlw
  rw [hy]
  have : y ∈ weightedDistanceMerit pred (fun i : Fin (xs.length + 1) => (x0 :: xs)[i]) s.Xpend (fun _ : Fin ((restRnd D k).m + 1) => xb)
      (ws.map fun v => ((v : ℚ) : ℝ)) 1e-3 := by rw [hy]; simp
  unfold weightedDistanceMerit at this
  obtain ⟨_, _, h⟩ := List.mem_map.mp this
  rw [h]

/-- An event of the system is an event of the program with its surrogate object. -/
theorem objStep_of {W : ObjSys d} {e : Ev d} {w : Sys (Pt d)} (h : loopStep L (K W.calls) f W.sys e = some w) :
    ∃ W', objStep L K f W e = some W' ∧ W'.sys = w := by
  simp only [objStep, h, Option.map_some]
  exact ⟨_, rfl, rfl⟩

/-- A state in which the points of the first batch `b` are proposed, accepted and completed. -/
structure Stage (Q : State (Pt d) → Rnd d → Prop) (L : Setup d) (K : Obj d) (f : Pt d → Val) (D : List (Pt d)) (rs : ℕ → Rnd d)
    (b : State (Pt d)) (W : ObjSys d) (popped done px rx : List (Pt d)) : Prop where
  run : SyncObj Q L K f D rs W
  within : Within L.cfg f b W.sys popped done
  props : W.sys.props.map Proposal.x = px
  recs : W.sys.recs.map Rec.x = rx
  term : W.sys.st.terminate = false
  num : W.sys.st.numEvals = done.length
  log : proposals W.sys.st.log = popped
  ends : completions W.sys.st.log = done.map fun x => (x, f x)

theorem Stage.conv {b : State (Pt d)} {W : ObjSys d} {popped done px rx : List (Pt d)} (h : Stage Q L K f D rs b W popped done px rx)
    (hp : b.phase = .initial) (hs : L.cfg.srbf ≠ none) : W.sys.st.converged = false := by
  by_contra hc
  exact hs ((h.within.plain (.inr hp)).2 (by simpa using hc)).1

theorem Stage.ask {b : State (Pt d)} {W : ObjSys d} {popped done px rx : List (Pt d)} (h : Stage Q L K f D rs b W popped done px rx)
    (hp : b.phase = .initial) (hs : L.cfg.srbf ≠ none) (hQ : Q W.sys.st (rs popped.length)) (hM : (popped.length : ℤ) < L.cfg.maxEvals)
    {q : List (Pt d)} {x : Pt d} (hq : b.batchQueue = q ++ [x] ++ popped.reverse) :
    ∃ W', Stage Q L K f D rs b W' (popped ++ [x]) done (px ++ [x]) rx := by
  have hwq : W.sys.st.batchQueue = q ++ [x] := List.append_cancel_right (h.within.queue.symm.trans hq)
  have hph : W.sys.st.phase = .initial := by
    rcases h.within.phase with h1 | h1
    · rw [h1, hp]
    · rw [hwq] at h1; simp at h1
  have hbud : W.sys.st.numEvals + W.sys.st.pendingEvals < L.cfg.maxEvals := by
    rw [h.num, h.within.pend]
    have := h.within.perm.length_eq
    rw [List.length_append] at this
    push_cast [this] at hM
    exact hM
  rw [← h.log] at hQ
  obtain ⟨W', e, hW'⟩ := objStep_of (K := K) (ask_design (S := K W.calls) (f := f) h.term hbud (h.conv hp hs) hph hwq
    (rs (proposals W.sys.st.log).length))
  have hk : kindOf W.sys.st.phase = .init := by rw [hph]; rfl
  refine ⟨W', ⟨.ask h.run hQ e, ?_, ?_, ?_, ?_, ?_, ?_, ?_⟩⟩
  · have := h.within.pop hwq (W.sys.st.log ++ [Event.proposed x .init])
    rw [hk] at this
    rw [hW']; exact this
  · rw [hW']; simp [h.props]
  · rw [hW']; exact h.recs
  · rw [hW']; exact h.term
  · rw [hW']; exact h.num
  · rw [hW']
    show proposals (W.sys.st.log ++ [Event.proposed x .init]) = _
    rw [proposals_append, h.log]; rfl
  · rw [hW']
    show completions (W.sys.st.log ++ [Event.proposed x .init]) = _
    rw [completions_append, h.ends]; simp [completions]

theorem Stage.accept {b : State (Pt d)} {W : ObjSys d} {popped done px rx : List (Pt d)} {x : Pt d}
    (h : Stage Q L K f D rs b W popped done (x :: px) rx) : ∃ W', Stage Q L K f D rs b W' popped done px (rx ++ [x]) := by
  obtain ⟨p, ps, hp, hx, hps⟩ : ∃ p ps, W.sys.props = p :: ps ∧ p.x = x ∧ ps.map Proposal.x = px := by
    have := h.props
    cases hh : W.sys.props with
    | nil => rw [hh] at this; cases this
    | cons p ps =>
      rw [hh] at this
      simp only [List.map_cons, List.cons.injEq] at this
      exact ⟨p, ps, rfl, this⟩
  have hi : W.sys.props[0]? = some p := by rw [hp]; rfl
  obtain ⟨W', e, hW'⟩ := objStep_of (K := K) (W := W) (f := f) (e := .accept 0) (L := L) (w := ⟨(W.sys.st.note (.accepted p.x p.kind W.sys.st.evNext)).onAccept,
    W.sys.props.eraseIdx 0, W.sys.recs ++ [{ x := p.x, kind := p.kind, evId := W.sys.st.evNext, accAt := W.sys.st.log.length }]⟩) (by
      simp only [loopStep, Sys.step, hi])
  refine ⟨W', ⟨.accept 0 h.run e, ?_, ?_, ?_, ?_, ?_, ?_, ?_⟩⟩
  · rw [hW']; exact h.within.accept hi _
  · rw [hW']; simp [hp, hps]
  · rw [hW']; simp [h.recs, hx]
  · rw [hW']; exact h.term
  · rw [hW']; exact h.num
  · rw [hW']
    show proposals (W.sys.st.log ++ [_]) = _
    rw [proposals_append, h.log]; simp [proposals]
  · rw [hW']
    show completions (W.sys.st.log ++ [_]) = _
    rw [completions_append, h.ends]; simp [completions]

theorem Stage.complete {b : State (Pt d)} {W : ObjSys d} {popped done px rx ry : List (Pt d)} {x : Pt d} (hb : IsBase L.cfg b)
    (ha : L.cfg.asynchronous = false) (hp : b.phase = .initial)
    (h : Stage Q L K f D rs b W popped done px (rx ++ x :: ry)) : ∃ W', Stage Q L K f D rs b W' popped (done ++ [x]) px (rx ++ ry) := by
  obtain ⟨ra, r, rb, hr, hra, hx, hrb⟩ : ∃ ra r rb, W.sys.recs = ra ++ r :: rb ∧ ra.map Rec.x = rx ∧ r.x = x ∧ rb.map Rec.x = ry := by
    obtain ⟨ra, rc, e, h1, h2⟩ := List.map_eq_append_iff.mp h.recs
    obtain ⟨r, rb, e2, h3, h4⟩ := List.map_eq_cons_iff.mp h2
    exact ⟨ra, r, rb, by rw [e, e2], h1, h3, h4⟩
  have hi : W.sys.recs[ra.length]? = some r := by rw [hr]; simp
  have hk : r.kind = .init := by
    have := h.within.kr r (by rw [hr]; simp)
    rw [this, hp]; rfl
  obtain ⟨W', e, hW'⟩ := objStep_of (K := K) (W := W) (f := f) (e := .complete ra.length) (L := L)
    (w := ⟨(W.sys.st.note (.completed r.x r.kind (f r.x) r.accAt)).onCompleted L.cfg r.x r.kind (f r.x) r.evId, W.sys.props,
      W.sys.recs.eraseIdx ra.length⟩) (by simp only [loopStep, Sys.step, hi, Option.bind_some])
  have hst : (W.sys.st.note (.completed r.x r.kind (f r.x) r.accAt)).onCompleted L.cfg r.x r.kind (f r.x) r.evId =
      (W.sys.st.note (.completed r.x r.kind (f r.x) r.accAt)).recordCompleted r.x (f r.x) r.evId := by
    rw [hk]; rfl
  refine ⟨W', ⟨.complete ra.length h.run e, ?_, ?_, ?_, ?_, ?_, ?_, ?_⟩⟩
  · rw [hW', ← hx]; exact h.within.complete hb ha hi _
  · rw [hW']; exact h.props
  · rw [hW']
    simp [hr, hra, hrb, List.eraseIdx_append_of_length_le]
  · rw [hW', hst, recordCompleted_eq]; exact h.term
  · rw [hW', hst, recordCompleted_eq]
    show W.sys.st.numEvals + 1 = _
    rw [h.num]; simp
  · rw [hW']
    show proposals (State.onCompleted _ _ _ _ _ _).log = _
    rw [onCompleted_proposals]
    show proposals (W.sys.st.log ++ [_]) = _
    rw [proposals_append, h.log]; simp [proposals]
  · rw [hW']
    show completions (State.onCompleted _ _ _ _ _ _).log = _
    rw [hst, recordCompleted_eq]
    show completions (W.sys.st.log ++ [_]) = _
    rw [completions_append, h.ends, ← hx]; simp [completions]

/-- SRBF in synchronous mode with batches of one point, a design of two points: the two design points
are completed in either order, then there is a proposal; if the values are equal, it is, with all draws at their centres, the
point completed first. -/
theorem tie_run (hm : L.method = .srbf) (ok : ProbOk L.prob) (hK : Answers Bad .srbf K) (hK2 : Steady Bad K) (ha : L.cfg.asynchronous = false)
    (hb1 : L.cfg.batchSize = 1) {sc : SrbfCfg} (hsc : L.cfg.srbf = some sc) (hw : sc.weights ≠ []) (hx : L.cfg.extras = [])
    (hn : L.cfg.numPts = 2) (hM : 3 ≤ L.cfg.maxEvals) {y0 y1 : Pt d} (hD : DesignOf L.prob 2 [y0, y1]) (hB : ¬ Bad [y0, y1]) 
    (T : State (Pt d) → Prop) (hT : ∀ s, s.batchQueue ≠ [] → T s)
    (hT' : ∀ s a c, s.curX = [a, c] → s.curFX = [f a, f c] → (a = y0 ∧ c = y1 ∨ a = y1 ∧ c = y0) → T s) (swap : Bool) :
    ∃ W, SyncObj (fun s r => RndOk L s r ∧ ¬ Bad r.design ∧ T s) L K f [y0, y1] (fun _ => restRnd [y0, y1] (wanted L.cfg)) W ∧
      (completions W.sys.st.log).map Prod.fst = (if swap then [y0, y1] else [y1, y0]) ∧
      ∃ x, proposals W.sys.st.log = [y1, y0, x] ∧ (f y0 = f y1 → x = if swap then y0 else y1) := by
  have hs : Sane L.cfg := ⟨by omega, .inr (by omega), fun sc' h => by rw [hsc] at h; cases h; exact hw⟩
  have hL : MethodOk L := by simp [MethodOk, hm, hsc]
  have hsn : L.cfg.srbf ≠ none := by simp [hsc]
  have hD' : DesignOf L.prob L.cfg.numPts [y0, y1] := by rw [hn]; exact hD
  have hQ : ∀ s r, (RndOk L s r ∧ ¬ Bad r.design ∧ T s) → RndOk L s r ∧ ¬ Bad r.design := fun _ _ h => ⟨h.1, h.2.1⟩
  have hx' : ∀ e ∈ L.cfg.extras, Feasible L.prob e.1 := by simp [hx]
  obtain ⟨r, hr⟩ : ∃ r, r = restRnd [y0, y1] (wanted L.cfg) := ⟨_, rfl⟩
  rw [← hr]
  have hrok : ∀ W, SyncObj (fun s r => RndOk L s r ∧ ¬ Bad r.design ∧ T s) L K f [y0, y1] (fun _ => r) W →
      T W.sys.st → RndOk L W.sys.st r ∧ ¬ Bad r.design ∧ T W.sys.st := by
    intro W h hTW
    have hl := (h.reach hL hD' hB hQ).loop hL
    rw [hr]
    exact ⟨restRnd_ok ok hD' (loop_curX_feasible ok hs.batch hx' hl) (radius_pos hs.batch hl.reach), hB, hTW⟩
  obtain ⟨b, hb⟩ : ∃ b, b = State.create L.cfg (oracleOf L [y0, y1] none) := ⟨_, rfl⟩
  have hbase : IsBase L.cfg b := by rw [hb]; exact create_isBase hs.design _
  have hbq : b.batchQueue = [y0, y1] := by
    rw [hb, create_eq]
    simp [hn, hx, unknownExtras, oracleOf, List.range_succ]
  have hbl : proposals b.log = [] := by rw [hb, create_eq]; simp [proposals]
  have hbt : b.terminate = false ∧ b.numEvals = 0 ∧ b.phase = .initial ∧ b.curX = [] ∧ b.curFX = [] ∧ b.X = [] ∧ b.fX = [] := by
    rw [hb, create_eq]; simp [State.blank, hx, knownExtras]
  obtain ⟨bt, bn, bp, bX, bF, bXX, bFF⟩ := hbt
  have hbz : b.srbf = some { status := 0, failcount := 0, radius := 2 / 10, fbest := none, recordQueue := [], nextWeight := 0 } := by
    rw [hb, create_eq]
    show (L.cfg.srbf.map fun _ => _) = _
    rw [hsc]; rfl
  have s0 : Stage (fun s r => RndOk L s r ∧ ¬ Bad r.design ∧ T s) L K f [y0, y1] (fun _ => r) b (objCreate L [y0, y1]) [] [] [] [] := by
    refine ⟨.create, ?_, rfl, rfl, ?_, ?_, ?_, ?_⟩
    · have := Within.start (f := f) hbase
      rw [hb] at this ⊢
      exact this
    · rw [hb] at bt; exact bt
    · rw [hb] at bn; exact bn
    · rw [hb] at hbl; exact hbl
    · show completions (State.create L.cfg (oracleOf L [y0, y1] none)).log = _
      rw [create_eq]; simp [completions]
  obtain ⟨W1, s1⟩ := s0.ask bp hsn (hrok _ s0.run (hT _ (by have := s0.within.queue; rw [hbq] at this; intro h0; rw [h0] at this; simp at this))) (by simp; omega) (q := [y0]) (x := y1) (by simp [hbq])
  obtain ⟨W2, s2⟩ := s1.ask bp hsn (hrok _ s1.run (hT _ (by have := s1.within.queue; rw [hbq] at this; intro h0; rw [h0] at this; simp at this))) (by simp; omega) (q := []) (x := y0) (by simp [hbq])
  obtain ⟨W3, s3⟩ := s2.accept (x := y1) (px := [y0])
  obtain ⟨W4, s4⟩ := s3.accept (x := y0) (px := [])
  obtain ⟨W6, a, c, s6, hac, hswap⟩ : ∃ W6 a c, Stage (fun s r => RndOk L s r ∧ ¬ Bad r.design ∧ T s) L K f [y0, y1] (fun _ => r) b W6
      [y1, y0] [a, c] [] [] ∧ (a = y0 ∧ c = y1 ∨ a = y1 ∧ c = y0) ∧
        [a, c] = if swap then [y0, y1] else [y1, y0] := by
    cases swap with
    | true =>
      obtain ⟨W5, s5⟩ := s4.complete hbase ha bp (rx := [y1]) (x := y0) (ry := [])
      obtain ⟨W6, s6⟩ := s5.complete hbase ha bp (rx := []) (x := y1) (ry := [])
      exact ⟨W6, y0, y1, s6, .inl ⟨rfl, rfl⟩, rfl⟩
    | false =>
      obtain ⟨W5, s5⟩ := s4.complete hbase ha bp (rx := []) (x := y1) (ry := [y0])
      obtain ⟨W6, s6⟩ := s5.complete hbase ha bp (rx := []) (x := y0) (ry := [])
      exact ⟨W6, y1, y0, s6, .inr ⟨rfl, rfl⟩, rfl⟩
  have hin : W6.sys.inflight = [] := by
    simp only [Sys.inflight, s6.props, s6.recs, List.append_nil]
  have hpend : W6.sys.st.pendingEvals = 0 := by rw [s6.within.pend, hin]; rfl
  have hqueue : W6.sys.st.batchQueue = [] := by
    have := s6.within.queue
    rw [hbq] at this
    simpa using this
  have hbud : W6.sys.st.numEvals + W6.sys.st.pendingEvals < L.cfg.maxEvals := by rw [s6.num, hpend]; simp; omega
  have hconv := s6.conv bp hsn
  have hwp : wantsPoints L.cfg W6.sys.st := ⟨s6.term, hbud, hconv, hqueue, .inr hpend⟩
  have hz : W6.sys.st.srbf = _ := (s6.within.plain (.inr bp)).1.trans hbz
  obtain ⟨ws, next, hws⟩ := getWeights_some (ws := sc.weights) (next := 0) 1 (List.length_pos_iff.mpr hw)
  have hX : W6.sys.st.curX = [a, c] := by rw [s6.within.curX, bX]; rfl
  have hF : W6.sys.st.curFX = [f a, f c] := by rw [s6.within.curFX, bF]; rfl
  have hFF : W6.sys.st.fX = [f a, f c] := by rw [s6.within.fX, bFF]; rfl
  have hre := s6.run.reach hL hD' hB hQ
  have hfeas := loop_curX_feasible ok hs.batch hx' (hre.loop hL)
  have hac' : ¬ Bad W6.sys.st.curX := by
    intro hh
    refine hB (Hereditary.mono ?_ hh)
    have := s6.within.perm
    rw [hin, List.append_nil] at this
    rw [hX]
    intro x hx
    exact this.subset (by simpa [or_comm] using hx)
  have hff : ¬ Failed Bad W6.calls := s6.run.noFail ok hs hL ha hK2 hD' hB hQ
  have hgen := answer_some ok hs hL (by rw [hm]; exact hK) hre hac' (by rw [hX]; simp) hff 1 r
  obtain ⟨pred, hpred⟩ : ∃ pred, (K W6.calls).mean (surrData W6.sys.st) = some pred := by
    cases hh : (K W6.calls).mean (surrData W6.sys.st) with
    | none => exact absurd (gen_none hh 1 r) hgen
    | some pred => exact ⟨pred, rfl⟩
  obtain ⟨x, _, hg, hxa⟩ := gen_centre hm hpred hX (by rw [hF]; rfl) (by rw [hFF]; simp) hsc hz hfeas hws [y0, y1] (wanted L.cfg)
  rw [← hr] at hg
  have hT6 : T W6.sys.st := hT' _ a c hX hF hac
  obtain ⟨s', hpa, hlog⟩ := propose_adapt_sync (o := oracleOf L r.design (some [x])) ha hb1 hsc hz hws s6.term hbud hconv hqueue hpend
  have hwant : wanted L.cfg = 1 := by simp [wanted, ha, hb1]
  obtain ⟨W7, e7, hW7⟩ := objStep_of (K := K) (W := W6) (L := L) (f := f) (e := .propose r)
    (w := ⟨s'.note (.proposed x .adapt), W6.sys.props ++ [⟨x, .adapt⟩], W6.sys.recs⟩) (by
      simp only [loopStep, answer, if_pos hwp, hwant, hg, Option.bind_some, Sys.step, hpa]
      rfl)
  refine ⟨W7, .ask s6.run (hrok _ s6.run hT6) e7, ?_, x, ?_, ?_⟩
  · rw [hW7, ← hswap]
    show (completions (s'.log ++ [Event.proposed x .adapt])).map Prod.fst = _
    rw [hlog, completions_append, completions_append, s6.ends]
    simp [completions]
  · rw [hW7]
    show proposals (s'.log ++ [Event.proposed x .adapt]) = _
    rw [hlog, proposals_append, proposals_append, s6.log]
    simp [proposals]
  · intro hflat
    have hfac : f a = f c := by
      rcases hac with ⟨rfl, rfl⟩ | ⟨rfl, rfl⟩
      · exact hflat
      · exact hflat.symm
    rw [hxa (by rw [hF, hfac]; simp)]
    cases swap <;> (simp at hswap; simp [hswap.1])

/-- SRBF on the unit interval, synchronous, batches of one point. -/
noncomputable def tieSetup (v : Method) : Setup 1 :=
  ⟨unitProb, { loopCfg [] with asynchronous := false, useRestarts := true, srbf := some { dim := 1, weights := [3 / 10, 1 / 2, 8 / 10, 95 / 100] } }, v⟩

/-- With ties it is false: SRBF with the default RBF interpolant on the unit interval, synchronous, one point at a time after the
design, a constant objective, the same random outcomes.  Two workers evaluate the two points of the design; the run goes on
differently according to which of them finishes first. -/
theorem C122_ties_refuted (v : Val) : ∃ (lu : ℕ → Surrogate.Mat → Surrogate.LuOut) (chol : ℕ → Surrogate.Mat → Option Surrogate.Mat)
    (D : List (Pt 1)) (rs : ℕ → Rnd 1) (W W' : ObjSys 1), Surrogate.LuSpec lu ∧ Surrogate.CholSpec chol ∧
    DesignOf unitProb 2 D ∧ ¬ OnHyperplane D ∧
    SyncObj (fun s r => RndOk (tieSetup .srbf) s r ∧ ¬ OnHyperplane r.design) (tieSetup .srbf)
      (rbfObj (defaultPar unitProb 1e-6 id lu chol)) (fun _ => v) D rs W ∧
    SyncObj (fun s r => RndOk (tieSetup .srbf) s r ∧ ¬ OnHyperplane r.design) (tieSetup .srbf)
      (rbfObj (defaultPar unitProb 1e-6 id lu chol)) (fun _ => v) D rs W' ∧
    (proposals W.sys.st.log).length = 3 ∧ (proposals W'.sys.st.log).length = 3 ∧
    proposals W.sys.st.log ≠ proposals W'.sys.st.log := by
  obtain ⟨lu, chol, h1, h2, _⟩ := Surrogate.exists_library
  have run := fun f swap => tie_run (f := f) (L := tieSetup .srbf) (K := rbfObj (defaultPar unitProb 1e-6 id lu chol)) rfl unitProb_ok
    (rbf_answers (.inl rfl) _ _ unitProb_ok.lt 1e-6 (by norm_num) id lu chol h1 h2)
    (rbf_steady _ _ unitProb_ok.lt 1e-6 (by norm_num) id orderFree_id lu chol h1 h2) rfl rfl rfl (by simp) rfl rfl
    (by simp [tieSetup, loopCfg]) (design_unit unitProb rfl rfl) unit_span (fun _ => True) (fun _ _ => trivial) (fun _ _ _ _ _ _ => trivial) swap
  obtain ⟨W, hW, _, x, e, hx⟩ := run (fun _ => v) false
  obtain ⟨W', hW', _, x', e', hx'⟩ := run (fun _ => v) true
  rw [hx rfl] at e
  rw [hx' rfl] at e'
  simp only [and_true] at hW hW'
  refine ⟨lu, chol, _, _, W, W', h1, h2, design_unit unitProb rfl rfl, unit_span, hW, hW', by rw [e]; rfl, by rw [e']; rfl, ?_⟩
  rw [e, e']
  simp only [Bool.false_eq_true, if_false, if_true, ne_eq, List.cons.injEq, and_true, true_and]
  intro h
  have := congrFun h 0
  norm_num at this

/-! ## The library's surrogates -/

/-- SRBF and DYCORS with the default RBF interpolant: the points proposed in synchronous mode do not depend on the workers. -/
theorem C122_rbf_partial {eta : ℝ} {trans : List ℝ → List ℝ} {lu : ℕ → Surrogate.Mat → Surrogate.LuOut}
    {chol : ℕ → Surrogate.Mat → Option Surrogate.Mat} (ok : ProbOk L.prob) (hs : Sane L.cfg) (hL : MethodOk L) (ha : L.cfg.asynchronous = false)
    (heta : 0 < eta) (htr : OrderFree trans) (hlu : Surrogate.LuSpec lu) (hchol : Surrogate.CholSpec chol)
    (hD : DesignOf L.prob L.cfg.numPts D) (hB : ¬ OnHyperplane D) {W W' : ObjSys d}
    (h : SyncObj (Fair OnHyperplane L) L (rbfObj (defaultPar L.prob eta trans lu chol)) f D rs W)
    (h' : SyncObj (Fair OnHyperplane L) L (rbfObj (defaultPar L.prob eta trans lu chol)) f D rs W') :
    (proposals W.sys.st.log <+: proposals W'.sys.st.log ∨ proposals W'.sys.st.log <+: proposals W.sys.st.log) ∧
    (W.sys.inflight = [] → W'.sys.inflight = [] → (completions W.sys.st.log).length = (completions W'.sys.st.log).length →
      (completions W.sys.st.log).Perm (completions W'.sys.st.log)) := by
  have hst := rbf_steady _ _ ok.lt eta heta trans htr lu chol hlu hchol
  exact ⟨C122_order_partial ok hs hL ha hst hD hB h h', fun hi hi' hn => C122_results_partial ok hs hL ha hst hD hB h h' hi hi' hn⟩

/-- EI and LCB with the Gaussian process: no condition on the values is needed.  The optimizer of the hyperparameters may depend
on the data of the fit in any order-independent way. -/
theorem C122_gp {trans : List ℝ → List ℝ} {hyp : List (List (Pt d) × List ℝ) → Surrogate.Hyper d} (ok : ProbOk L.prob) (hs : Sane L.cfg) (hL : MethodOk L)
    (hm : L.cfg.srbf = none) (ha : L.cfg.asynchronous = false) (hh : OrderFreeHyp hyp) (htr : OrderFree trans)
    (hD : DesignOf L.prob L.cfg.numPts D) {W W' : ObjSys d}
    (h : SyncObj (RndOk L) L (gpObj L.prob.lb L.prob.ub trans hyp) f D rs W)
    (h' : SyncObj (RndOk L) L (gpObj L.prob.lb L.prob.ub trans hyp) f D rs W') :
    (proposals W.sys.st.log <+: proposals W'.sys.st.log ∨ proposals W'.sys.st.log <+: proposals W.sys.st.log) ∧
    (W.sys.inflight = [] → W'.sys.inflight = [] → (completions W.sys.st.log).length = (completions W'.sys.st.log).length →
      (completions W.sys.st.log).Perm (completions W'.sys.st.log)) := by
  have hB : ∀ D : List (Pt d), DesignOf L.prob L.cfg.numPts D → ¬ (fun P : List (Pt d) => P = []) D := by
    intro D hD h0
    have := (hD.spec ok).1
    rw [h0] at this
    have := hs.design
    simp at *
    omega
  have hfair : ∀ W : ObjSys d, SyncObj (RndOk L) L (gpObj L.prob.lb L.prob.ub trans hyp) f D rs W →
      SyncObj (Fair (fun P => P = []) L) L (gpObj L.prob.lb L.prob.ub trans hyp) f D rs W := by
    intro W h
    induction h with
    | create => exact .create
    | ask _ hq hs ih =>
      refine .ask ih ⟨hq, hB _ hq.1, fun _ hm' => ?_⟩ hs
      unfold MethodOk at hL
      rcases hm' with h | h <;> (rw [h] at hL; exact absurd hm hL)
    | accept i _ hs ih => exact .accept i ih hs
    | complete i _ hs ih => exact .complete i ih hs
  have hst := gp_steady (lb := L.prob.lb) (ub := L.prob.ub) htr hh
  exact ⟨C122_order_partial ok hs hL ha hst hD (hB D hD) (hfair W h) (hfair W' h'),
    fun hi hi' hn => C122_results_partial ok hs hL ha hst hD (hB D hD) (hfair W h) (hfair W' h') hi hi' hn⟩

/-! ## The hypotheses are met -/

/-- Both orders of completion occur, with the default RBF interpolant and an objective with different values at the two design
points; then a point is generated. -/
example (f : Pt 1 → Val) (hf : f (fun _ => 0) ≠ f (fun _ => 1)) (swap : Bool) :
    ∃ (lu : ℕ → Surrogate.Mat → Surrogate.LuOut) (chol : ℕ → Surrogate.Mat → Option Surrogate.Mat) (W : ObjSys 1),
    Surrogate.LuSpec lu ∧ Surrogate.CholSpec chol ∧ ProbOk (tieSetup .srbf).prob ∧ Sane (tieSetup .srbf).cfg ∧ MethodOk (tieSetup .srbf) ∧
    (tieSetup .srbf).cfg.asynchronous = false ∧ OrderFree id ∧ DesignOf unitProb 2 [fun _ => 0, fun _ => 1] ∧
    ¬ OnHyperplane [(fun _ => 0 : Pt 1), fun _ => 1] ∧
    SyncObj (Fair OnHyperplane (tieSetup .srbf)) (tieSetup .srbf) (rbfObj (defaultPar unitProb 1e-6 id lu chol)) f [fun _ => 0, fun _ => 1]
      (fun _ => restRnd [fun _ => 0, fun _ => 1] 1) W ∧
    (completions W.sys.st.log).map Prod.fst = (if swap then [fun _ => 0, fun _ => 1] else [fun _ => 1, fun _ => 0]) ∧
    (proposals W.sys.st.log).length = 3 := by
  obtain ⟨lu, chol, h1, h2, _⟩ := Surrogate.exists_library
  obtain ⟨W, hW, hc, x, e, _⟩ := tie_run (f := f) (L := tieSetup .srbf) (K := rbfObj (defaultPar unitProb 1e-6 id lu chol)) rfl unitProb_ok
    (rbf_answers (.inl rfl) _ _ unitProb_ok.lt 1e-6 (by norm_num) id lu chol h1 h2)
    (rbf_steady _ _ unitProb_ok.lt 1e-6 (by norm_num) id orderFree_id lu chol h1 h2) rfl rfl rfl (by simp) rfl rfl
    (by simp [tieSetup, loopCfg]) (design_unit unitProb rfl rfl) unit_span (NoTie (tieSetup .srbf))
    (fun s hq hw => absurd hw.2.2.2.1 hq) (fun s a c hX hF hac _ _ => by
      intro p hp q hq hpm hqm
      rw [hX, hF] at *
      have hne : f a ≠ f c := by
        rcases hac with ⟨rfl, rfl⟩ | ⟨rfl, rfl⟩
        · exact hf
        · exact hf.symm
      have hpq := hpm q hq
      have hqp := hqm p hp
      have he := le_antisymm hpq hqp
      simp only [List.zip_cons_cons, List.zip_nil_right, List.mem_cons, List.not_mem_nil, or_false] at hp hq
      rcases hp with rfl | rfl <;> rcases hq with rfl | rfl
      · rfl
      · exact absurd he hne
      · exact absurd he.symm hne
      · rfl) swap
  exact ⟨lu, chol, W, h1, h2, unitProb_ok, ⟨by norm_num [tieSetup, loopCfg], .inr (by norm_num [tieSetup, loopCfg]), fun sc h => by cases h; simp⟩,
    by simp [MethodOk, tieSetup], rfl, orderFree_id, design_unit unitProb rfl rfl, unit_span, hW, hc, by rw [e]; rfl⟩

theorem serial_sync {r : Rnd d} (hr : ∀ W, SyncObj Q L K f D (fun _ => r) W → Q W.sys.st r) {n : ℕ} {W W' : ObjSys d} {b : Bool}
    (h : SyncObj Q L K f D (fun _ => r) W) (hs : objSerial L K f (List.replicate n fun _ => r) W = some (W', b)) :
    SyncObj Q L K f D (fun _ => r) W' := by
  induction n generalizing W with
  | zero =>
    simp only [List.replicate_zero, objSerial, Option.some.injEq, Prod.mk.injEq] at hs
    exact hs.1 ▸ h
  | succ n ih =>
    simp only [List.replicate_succ, objSerial, Option.bind_eq_some_iff] at hs
    obtain ⟨W1, e1, hs⟩ := hs
    have h1 : SyncObj Q L K f D (fun _ => r) W1 := .ask h (hr W h) e1
    split at hs
    · simp only [Option.some.injEq, Prod.mk.injEq] at hs
      exact hs.1 ▸ h1
    · simp only [Option.bind_eq_some_iff] at hs
      obtain ⟨W2, e2, W3, e3, hs⟩ := hs
      exact ih (.complete 0 (.accept 0 h1 e2) e3) hs

/-- EI with the Gaussian process, synchronous: a whole run of ten evaluations on one worker. -/
example (f : Pt 1 → Val) : ∃ (hyp : List (List (Pt 1) × List ℝ) → Surrogate.Hyper 1) (W : ObjSys 1), OrderFreeHyp hyp ∧
    SyncObj (RndOk (⟨unitProb, { loopCfg [] with asynchronous := false, useRestarts := true }, .ei none 0.1⟩ : Setup 1))
      ⟨unitProb, { loopCfg [] with asynchronous := false, useRestarts := true }, .ei none 0.1⟩
      (gpObj unitProb.lb unitProb.ub id hyp) f [fun _ => 0, fun _ => 1] (fun _ => midRnd) W ∧
    (completions W.sys.st.log).length = 10 := by
  obtain ⟨hyp, hh⟩ : ∃ hyp : List (List (Pt 1) × List ℝ) → Surrogate.Hyper 1, OrderFreeHyp hyp :=
    ⟨fun _ => ⟨1, fun _ => 1, 1 / 1000⟩, fun _ _ _ _ _ _ _ => rfl⟩
  obtain ⟨L, hL⟩ : ∃ L : Setup 1, L = ⟨unitProb, { loopCfg [] with asynchronous := false, useRestarts := true }, .ei none 0.1⟩ := ⟨_, rfl⟩
  have hs : Sane L.cfg := by
    rw [hL]; exact ⟨by norm_num [loopCfg], .inr (by norm_num [loopCfg]), fun sc h => by cases h⟩
  have hmo : MethodOk L := by rw [hL]; rfl
  have ok : ProbOk L.prob := by rw [hL]; exact unitProb_ok
  have hpos : ∀ W, Reach L.cfg W → RndOk L W.st midRnd := by
    intro W hW
    have hb := hW.book.srbf
    rw [hL] at hb ⊢
    refine ⟨design_unit _ rfl rfl, rfl, ?_, fun _ _ => ⟨le_refl (0 : ℝ), one_pos⟩, fun k X fX z _ _ hz => ?_⟩
    · intro g hg q i
      rw [List.mem_singleton.mp hg]; norm_num [midRun]
    · rw [hz] at hb; cases hb
  have hD : DesignOf L.prob L.cfg.numPts [fun _ => 0, fun _ => 1] := by rw [hL]; exact design_unit _ rfl rfl
  have hB : ∀ D : List (Pt 1), DesignOf L.prob L.cfg.numPts D → ¬ (fun P : List (Pt 1) => P = []) D := by
    intro D hD h0
    have := (hD.spec ok).1
    rw [h0] at this
    have := hs.design
    simp at *
    omega
  obtain ⟨W, b, e, hc, _, hb⟩ := C118_gp_serial (L := L) (f := f) (lb := unitProb.lb) (ub := unitProb.ub) (trans := id) (hyp := hyp) (M := 10)
    ok hs (by rw [hL]) hmo (by simp [hL, loopCfg]) (by rw [hL]; rfl) _ hD (List.replicate 12 fun _ => midRnd) (fun r hr W hW => by
      rw [List.eq_of_mem_replicate hr]
      exact hpos _ (hW.loop hmo).reach)
  refine ⟨hyp, W, hh, ?_, by rw [hc]; simp⟩
  rw [← hL]
  exact serial_sync (fun W h => hpos _ ((h.reach (Bad := fun P => P = []) hmo hD (hB _ hD) fun s r h => ⟨h, hB _ h.1⟩).loop hmo).reach) .create e

end Verif.Props
