import Verif.Props.SopSync
import Verif.Props.Ties

/-! # Property C142, ties: for SOP the order of completions decides between equal values -/

namespace Verif.Props

open Verif.Num Verif.Utils Verif.Cand Verif.Design Verif.Strategy Verif.Spec Verif.Loop Verif.Sop

variable {d : ℕ} {L : SopSetup d} {S : Surr d} {f : Pt d → Val} {D : List (Pt d)} {K : Obj d}
  {Bad : List (Pt d) → Prop} [Hereditary Bad] {Q : SopSys d → SopRnd d → Prop}

theorem dycorsLoop_centre (xc σ : Pt d) (mask : ℕ → Bool) (is : List (Fin d)) :
    dycorsLoop xc σ (List.finRange d) mask (fun _ => 0) is xc = some xc := by
  induction is with
  | nil => rfl
  | cons i is ih =>
    have hget : (List.finRange d)[i.val]? = some i := by
      rw [List.getElem?_eq_getElem (by simp)]; simp
    simp only [dycorsLoop, List.length_finRange, i.2, if_true, hget]
    have : Function.update xc i (truncnorm (xc i) (σ i) 0) = xc := by
      rw [show truncnorm (xc i) (σ i) 0 = xc i by simp [truncnorm]]
      exact Function.update_eq_self _ _
    rw [this, ite_self]
    exact ih

/-- With all draws at their centres, the candidate search gives the center. -/
theorem sopPoint_centre {s : State (Pt d)} {xc x : Pt d} {sigma : ℚ} (hf : Feasible L.prob xc)
    (h : sopPoint L S s xc sigma ((zeroRnd D).cands 0) = some x) : x = xc := by
  unfold sopPoint at h
  cases hc : s.curX with
  | nil => rw [hc] at h; cases h
  | cons x0 xs =>
    rw [hc] at h
    simp only [Option.bind_eq_some_iff] at h
    obtain ⟨pred, _, l, hl, hx⟩ := h
    unfold candidateDycors at hl
    simp only at hl
    split at hl
    · rename_i hrow
      simp only [Option.some.injEq] at hl
      have hm : x ∈ l := List.mem_of_mem_head? hx
      rw [← hl] at hm
      unfold weightedDistanceMerit at hm
      obtain ⟨j, _, hj⟩ := List.mem_map.mp hm
      rw [← hj]
      have e : ∀ h, (dycorsCand xc (scalefactors L.prob ((sigma : ℚ) : ℝ) (List.finRange d)) (List.finRange d)
          (dycorsMask (List.finRange d).length (probOf (State.perturbProb L.base d s)) (((zeroRnd D).cands 0).u j) (((zeroRnd D).cands 0).forced j))
          (((zeroRnd D).cands 0).draws j)).get h = xc := by
        intro h
        have h0 : _ = some xc := dycorsLoop_centre xc (scalefactors L.prob ((sigma : ℚ) : ℝ) (List.finRange d))
          (dycorsMask (List.finRange d).length (probOf (State.perturbProb L.base d s)) (((zeroRnd D).cands 0).u j) (((zeroRnd D).cands 0).forced j))
          (List.finRange d)
        exact Option.get_of_eq_some h h0
      simp only [e]
      funext i
      exact roundVars_of_feasible (hf.1 i) (hf.2 i)
    · cases hl

/-- A state in which points of the design are proposed, accepted and completed. -/
structure SopStage (Q : SopSys d → SopRnd d → Prop) (L : SopSetup d) (K : Obj d) (f : Pt d → Val) (D : List (Pt d))
    (W : SopObjSys d) (queue popped done px rx : List (Pt d)) : Prop where
  run : SopSyncObj Q L K f D (fun _ => zeroRnd D) W
  objr : SopObjReach L K f W
  calm : Calm L.cfg W.sop
  sop : W.sop.sop = ⟨done.map (recOf f), [], none⟩
  queue : W.sop.sys.st.batchQueue = queue
  props : W.sop.sys.props.map Proposal.x = px
  recs : W.sop.sys.recs.map Rec.x = rx
  kp : ∀ p ∈ W.sop.sys.props, p.kind = .init
  kr : ∀ r ∈ W.sop.sys.recs, r.kind = .init
  phase : W.sop.sys.st.phase = .initial
  term : W.sop.sys.st.terminate = false
  num : W.sop.sys.st.numEvals + W.sop.sys.st.pendingEvals = popped.length
  log : proposals W.sop.sys.st.log = popped
  ends : completions W.sop.sys.st.log = done.map fun x => (x, f x)
  calls : ∀ x, Surrogate.Op.predict x ∉ W.calls

theorem sopObjStep_of {W : SopObjSys d} {e : SEv d} {w : SopSys d} (h : sopLoopStep L (K W.calls) f W.sop e = some w) :
    ∃ W', sopObjStep L K f W e = some W' ∧ W'.sop = w ∧ W'.calls = W.calls ++ sopCallsOf L f W.sop e := by
  simp only [sopObjStep, h, Option.map_some]
  exact ⟨_, rfl, rfl, rfl⟩

theorem SopStage.ask (ok : ProbOk L.prob) (hp : L.base.srbf = none) (hx : ∀ e ∈ L.base.extras, Feasible L.prob e.1)
    (hD : DesignOf L.prob L.base.numPts D) {W : SopObjSys d} {q popped done px rx : List (Pt d)} {x : Pt d}
    (h : SopStage Q L K f D W (q ++ [x]) popped done px rx) (hQ : Q W.sop (zeroRnd D)) (hM : (popped.length : ℤ) < L.base.maxEvals) :
    ∃ W', SopStage Q L K f D W' q (popped ++ [x]) done (px ++ [x]) rx := by
  have hnw : ¬ wantsPoints L.base W.sop.sys.st := by
    rintro ⟨_, _, _, hq, _⟩
    rw [h.queue] at hq; simp at hq
  have hg : Going L.base W.sop.sys.st := ⟨h.term, by rw [h.num]; exact hM⟩
  have hst := step_propose_queue (c := L.cfg) hp W.sop (h.run.reach.inv hp).conv (sopOracle L (zeroRnd D).design []) hg h.queue
  have hk : Sop.kindOf W.sop.sys.st.phase = .init := by rw [h.phase]; rfl
  rw [hk] at hst
  obtain ⟨W', e, hW', hcl⟩ := sopObjStep_of (K := K) (W := W) (f := f) (e := .propose (zeroRnd D)) (L := L)
    (w := ⟨proposeLast W.sop.sys W.sop.sys.st q x .init, W.sop.sop⟩) (by
      simp only [sopLoopStep, sopAnswer, if_neg hnw, Option.bind_some]
      exact hst)
  refine ⟨W', .ask h.run hQ e, .step _ h.objr (fun r hr => by cases hr; exact zeroRnd_ok ok hp hx h.objr.loop hD) e, ?_, ?_, ?_, ?_, ?_, ?_, ?_, ?_, ?_, ?_, ?_, ?_, ?_⟩
  · rw [hW']
    exact .step (.propose _) h.calm (fun hq => by rw [h.queue] at hq; simp at hq) hst
  · rw [hW']; exact h.sop
  · rw [hW']; rfl
  · rw [hW']; simp [proposeLast, h.props]
  · rw [hW']; exact h.recs
  · rw [hW']
    intro p hp
    simp only [proposeLast, List.mem_append, List.mem_singleton] at hp
    rcases hp with hp | rfl
    · exact h.kp p hp
    · rfl
  · rw [hW']; exact h.kr
  · rw [hW']; exact h.phase
  · rw [hW']; exact h.term
  · rw [hW']
    show W.sop.sys.st.numEvals + (W.sop.sys.st.pendingEvals + 1) = _
    rw [← add_assoc, h.num]; simp
  · rw [hW']
    show proposals (W.sop.sys.st.log ++ [Event.proposed x .init]) = _
    rw [proposals_append, h.log]; rfl
  · rw [hW']
    show completions (W.sop.sys.st.log ++ [Event.proposed x .init]) = _
    rw [Strategy.completions_append, h.ends]; simp [completions]
  · rw [hcl]
    have : sopCallsOf L f W.sop (.propose (zeroRnd D)) = [] := by simp [sopCallsOf, hnw]
    rw [this, List.append_nil]; exact h.calls

theorem SopStage.accept {W : SopObjSys d} {q popped done px rx : List (Pt d)} {x : Pt d}
    (h : SopStage Q L K f D W q popped done (x :: px) rx) : ∃ W', SopStage Q L K f D W' q popped done px (rx ++ [x]) := by
  obtain ⟨p, ps, hp, hx, hps⟩ : ∃ p ps, W.sop.sys.props = p :: ps ∧ p.x = x ∧ ps.map Proposal.x = px := by
    have := h.props
    cases hh : W.sop.sys.props with
    | nil => rw [hh] at this; cases this
    | cons p ps =>
      rw [hh] at this
      simp only [List.map_cons, List.cons.injEq] at this
      exact ⟨p, ps, rfl, this⟩
  have hi : W.sop.sys.props[0]? = some p := by rw [hp]; rfl
  have hst : W.sop.step L.cfg (.accept 0) = some ⟨⟨(W.sop.sys.st.note (.accepted p.x p.kind W.sop.sys.st.evNext)).onAccept,
      W.sop.sys.props.eraseIdx 0, W.sop.sys.recs ++ [{ x := p.x, kind := p.kind, evId := W.sop.sys.st.evNext, accAt := W.sop.sys.st.log.length }]⟩, W.sop.sop⟩ := by
    simp only [SopSys.step, Sys.step, hi, Option.map_some]
  obtain ⟨W', e, hW', hcl⟩ := sopObjStep_of (K := K) (W := W) (f := f) (e := .accept 0) (L := L) hst
  refine ⟨W', .accept 0 h.run e, .step _ h.objr (fun r hr => by cases hr) e, ?_, ?_, ?_, ?_, ?_, ?_, ?_, ?_, ?_, ?_, ?_, ?_, ?_⟩
  · rw [hW']; exact .step (.accept 0) h.calm trivial hst
  · rw [hW']; exact h.sop
  · rw [hW']; exact h.queue
  · rw [hW']; simp [hp, hps]
  · rw [hW']; simp [h.recs, hx]
  · rw [hW']
    intro p' hp'
    exact h.kp p' (List.mem_of_mem_eraseIdx hp')
  · rw [hW']
    intro r hr
    simp only [List.mem_append, List.mem_singleton] at hr
    rcases hr with hr | rfl
    · exact h.kr r hr
    · exact h.kp p (by rw [hp]; simp)
  · rw [hW']; exact h.phase
  · rw [hW']; exact h.term
  · rw [hW']; exact h.num
  · rw [hW']
    show proposals (W.sop.sys.st.log ++ [_]) = _
    rw [proposals_append, h.log]; simp [proposals]
  · rw [hW']
    show completions (W.sop.sys.st.log ++ [_]) = _
    rw [Strategy.completions_append, h.ends]; simp [completions]
  · rw [hcl]
    show ∀ x, _ ∉ W.calls ++ []
    rw [List.append_nil]; exact h.calls

theorem SopStage.complete (hp : L.base.srbf = none) {W : SopObjSys d} {q popped done px rx ry : List (Pt d)} {x : Pt d}
    (h : SopStage Q L K f D W q popped done px (rx ++ x :: ry)) : ∃ W', SopStage Q L K f D W' q popped (done ++ [x]) px (rx ++ ry) := by
  obtain ⟨ra, r, rb, hr, hra, hx, hrb⟩ : ∃ ra r rb, W.sop.sys.recs = ra ++ r :: rb ∧ ra.map Rec.x = rx ∧ r.x = x ∧ rb.map Rec.x = ry := by
    obtain ⟨ra, rc, e, h1, h2⟩ := List.map_eq_append_iff.mp h.recs
    obtain ⟨r, rb, e2, h3, h4⟩ := List.map_eq_cons_iff.mp h2
    exact ⟨ra, r, rb, by rw [e, e2], h1, h3, h4⟩
  have hi : W.sop.sys.recs[ra.length]? = some r := by rw [hr]; simp
  have hk : r.kind = .init := h.kr r (by rw [hr]; simp)
  obtain ⟨w', hw'⟩ : ∃ w', W.sop.step L.cfg (.complete ra.length (f r.x)) = some w' := by
    simp only [SopSys.step, Sys.step, hi, hk]
    exact ⟨_, rfl⟩
  have hid : W.sop.sys.st.evLast < r.evId := by
    rw [(h.run.reach.inv hp).evLast]
    have hii := h.run.reach.base.ids
    have := hii.idsNe _ (hii.recMem r (List.mem_of_getElem? hi))
    rw [(h.run.reach.inv hp).evLast] at this
    omega
  obtain ⟨r', hr', hs', hz'⟩ := step_complete (c := L.cfg) hp hw'
  rw [hi] at hr'
  cases hr'
  rw [hk] at hz'
  have hz' : w'.sop = W.sop.sop.onInitialCompleted w'.sys.st r.x (f r.x) r.evId := hz'
  rw [recordCompleted_eq] at hs'
  obtain ⟨W', e, hW', hcl⟩ := sopObjStep_of (K := K) (W := W) (f := f) (e := .complete ra.length) (L := L) (w := w') (by
    simp only [sopLoopStep, hi, Option.bind_some]; exact hw')
  have hev : w'.sys.st.evLast ≤ r.evId := by
    rw [hs']; exact hid.le
  refine ⟨W', .complete ra.length h.run e, .step _ h.objr (fun r hr => by cases hr) e, ?_, ?_, ?_, ?_, ?_, ?_, ?_, ?_, ?_, ?_, ?_, ?_, ?_⟩
  · rw [hW']; exact .step (.complete ra.length _) h.calm trivial hw'
  · rw [hW', hz', h.sop]
    simp only [Sop.onInitialCompleted, hev, ge_iff_le, if_true, List.map_append, List.map_cons, List.map_nil, recOf, hx]
  · rw [hW', hs']; exact h.queue
  · rw [hW', hs']; exact h.props
  · rw [hW', hs']
    simp [hr, hra, hrb, List.eraseIdx_append_of_length_le]
  · rw [hW', hs']; exact h.kp
  · rw [hW', hs']
    intro r' hr'
    exact h.kr r' (List.mem_of_mem_eraseIdx hr')
  · rw [hW', hs']; exact h.phase
  · rw [hW', hs']; exact h.term
  · rw [hW', hs']
    show W.sop.sys.st.numEvals + 1 + (W.sop.sys.st.pendingEvals - 1) = _
    rw [← h.num]; ring
  · rw [hW', hs']
    show proposals (W.sop.sys.st.log ++ [_]) = _
    rw [proposals_append, h.log]; simp [proposals]
  · rw [hW', hs']
    show completions (W.sop.sys.st.log ++ [_]) = _
    rw [Strategy.completions_append, h.ends, ← hx]; simp [completions]
  · rw [hcl]
    intro y hy
    rcases List.mem_append.mp hy with hy | hy
    · exact h.calls y hy
    · simp only [sopCallsOf, hi] at hy
      split_ifs at hy <;> simp [addCall] at hy

/-- The center chosen first is the first point with the smallest value. -/
theorem first_center {c : Cfg d} {n : ℕ} {E : List (SopRec d)} {z1 z2 : Sop d} {a : SopRec d} {rest : List (SopRec d)} (hE : E = a :: rest)
    (hv : ∀ r ∈ E, a.fx ≤ r.fx) (ht : a.ntabu ≠ 2) (hk : 0 < c.ncenters) (h1 : (⟨E, [], none⟩ : Sop d).firstRanks c n = some z1)
    (h2 : z1.updateCenterList c n = some z2) :
    z2.evals = E ∧ ∃ ce cs, z2.centers = ce :: cs ∧ ce.newPoint = none ∧ ce.index = 0 ∧ ce.xc = a.x := by
  obtain ⟨e1, e2, _, _, F, _, hF, _, _, hf⟩ := (SopEnd.mk (IsPerm.refl E) (by intro ce hce; cases hce) (by intro ce hce; cases hce)
    (.inl ⟨rfl, rfl⟩) : SopEnd c 1 (⟨E, [], none⟩ : Sop d) ⟨E, [], none⟩).firstRanks h1 h1
  simp only at e1 e2 hf
  obtain ⟨F', dt, mi, hF', _, hmi, he, _, new, hc, hnew, hlen, hch⟩ := updateCenterList_spec h2
  rw [hF] at hF'
  cases hF'
  rw [e2] at hc hlen hch hmi
  simp only [List.filter_nil, List.nil_append, List.length_nil, Nat.sub_zero] at hc hlen
  have htag : tagRows ([] : List (Center d)) F = F := by
    refine List.ext_getElem? fun i => ?_
    rw [tagRows_get]; simp
  rw [htag] at hmi hch
  have hFl : F.length = E.length := by
    have := congrArg List.length hf
    simpa using this
  have hfi : ∀ (i : ℕ) (r : FRow d), F[i]? = some r → ∃ q ∈ E, r.f = q.fx := by
    intro i r hr
    have hm : r.f ∈ F.map FRow.f := List.mem_map_of_mem (List.mem_of_getElem? hr)
    rw [hf] at hm
    obtain ⟨q, hq, e⟩ := List.mem_map.mp hm
    exact ⟨q, hq, e.symm⟩
  have h00 : ∃ r0, F[0]? = some r0 ∧ r0.f = a.fx := by
    have : (F.map FRow.f)[0]? = (E.map SopRec.fx)[0]? := by rw [hf]
    rw [hE] at this
    simp only [List.getElem?_map, List.map_cons, List.getElem?_cons_zero, Option.map_eq_some_iff] at this
    exact this
  obtain ⟨r0, hr0, hr0f⟩ := h00
  obtain ⟨row, hrow, hmin, hlt⟩ := minIndex_spec hmi
  have hmi0 : mi = 0 := by
    by_contra hne
    have hlt := hlt 0 r0 (by omega) hr0
    obtain ⟨q, hq, e⟩ := hfi _ _ hrow
    have := hv q hq
    rw [hr0f, e] at hlt
    exact absurd this (not_le.mpr hlt)
  subst hmi0
  have hnz : new ≠ [] := by
    intro h0
    rw [h0] at hlen
    simp at hlen; omega
  obtain ⟨ch, _, _, _, _, _, hhead⟩ := hch hnz
  have hhd : (bestFirst F (lexOrder F) 0).head? = some 0 := by
    unfold bestFirst
    split_ifs with hcond
    · rcases hcond with h | h
      · exact h
      · exfalso
        obtain ⟨_, ds, hds, hz⟩ := updateRanks_spec (show (⟨E, [], none⟩ : Sop d).updateRanks c n = some z1 from h1)
        have hrows : RowsOk c F E := by
          rw [hz] at hF
          cases hF
          exact rowsOk_rank (by simpa using (distCol_spec hds).1)
        obtain ⟨row, r, g1, g2, g3⟩ := hrows.2 0 (by rw [hFl, hE]; simp)
        rw [g1] at h
        rw [hE] at g2
        simp only [List.getElem?_cons_zero, Option.some.injEq] at g2
        simp only [Option.map_some, Option.some.injEq] at h
        exact ht (by rw [g2, ← g3.tabu, h])
    · rfl
  rw [hhd] at hhead
  cases new with
  | nil => exact absurd rfl hnz
  | cons ce cs =>
    simp only [List.map_cons, List.head?_cons, Option.some.injEq] at hhead
    obtain ⟨b1, b2, _⟩ := hnew ce (by simp)
    rw [e1, hE, hhead] at b1
    simp only [List.getElem?_cons_zero, Option.map_some, Option.some.injEq] at b1
    exact ⟨he.trans e1, ce, cs, hc, b2, hhead, b1.symm⟩

/-- SOP in synchronous mode with one center, a design of two points: the two design points are completed in either order, then
there is a proposal; if the values are equal, it is, with all draws at their centres, the point completed first. -/
theorem sop_tie_run (ok : ProbOk L.prob) (hp : L.base.srbf = none) (hK : Answers Bad .srbf K) (ha : L.base.asynchronous = false)
    (hb1 : L.base.batchSize = 1) (hc1 : L.ncenters = 1) (hx : L.base.extras = []) (hn : L.base.numPts = 2) (hM : 3 ≤ L.base.maxEvals)
    {y0 y1 : Pt d} (hne : y0 ≠ y1) (hD : DesignOf L.prob 2 [y0, y1]) (hB : ¬ Bad [y0, y1])
    (hQ1 : ∀ w r, w.sys.st.batchQueue ≠ [] → Q w r)
    (hQ2 : ∀ w r, (completions w.sys.st.log = [(y0, f y0), (y1, f y1)] ∨ completions w.sys.st.log = [(y1, f y1), (y0, f y0)]) → Q w r)
    (swap : Bool) :
    ∃ W, SopSyncObj Q L K f [y0, y1] (fun _ => zeroRnd [y0, y1]) W ∧ 
      (completions W.sop.sys.st.log).map Prod.fst = (if swap then [y0, y1] else [y1, y0]) ∧
      ∃ x, proposals W.sop.sys.st.log = [y1, y0, x] ∧ (f y0 = f y1 → x = if swap then y0 else y1) := by
  have hD' : DesignOf L.prob L.base.numPts [y0, y1] := by rw [hn]; exact hD
  have hx' : ∀ e ∈ L.base.extras, Feasible L.prob e.1 := by simp [hx]
  have hbq : (SopSys.create L.cfg (sopOracle L [y0, y1] [])).sys.st.batchQueue = [y0, y1] := by
    simp only [SopSys.create, Sys.create, create_eq]
    simp [SopSetup.cfg, hn, hx, unknownExtras, sopOracle, List.range_succ]
  have s0 : SopStage Q L K f [y0, y1] (sopObjCreate L [y0, y1]) ([y0] ++ [y1]) [] [] [] [] := by
    refine ⟨.create, .create _ hD', .create _, ?_, hbq, ?_, ?_, ?_, ?_, ?_, ?_, ?_, ?_, ?_, ?_⟩ <;>
      simp [addKnown, sopObjCreate, SopSys.create, Sys.create, create_eq, completions, proposals, State.blank]
  have hq : ∀ {W q popped done px rx}, SopStage Q L K f [y0, y1] W q popped done px rx → q ≠ [] → Q W.sop (zeroRnd [y0, y1]) :=
    fun h hq => hQ1 _ _ (by rw [h.queue]; exact hq)
  obtain ⟨W1, s1⟩ := s0.ask ok hp hx' hD' (hq s0 (by simp)) (by simp; omega)
  obtain ⟨W2, s2⟩ := SopStage.ask (q := []) ok hp hx' hD' s1 (hq s1 (by simp)) (by simp; omega)
  obtain ⟨W3, s3⟩ := s2.accept (x := y1) (px := [y0])
  obtain ⟨W4, s4⟩ := s3.accept (x := y0) (px := [])
  obtain ⟨W6, a, c, s6, hac, hswap⟩ : ∃ W6 a c, SopStage Q L K f [y0, y1] W6 [] [y1, y0] [a, c] [] [] ∧
      (a = y0 ∧ c = y1 ∨ a = y1 ∧ c = y0) ∧ [a, c] = if swap then [y0, y1] else [y1, y0] := by
    cases swap with
    | true =>
      obtain ⟨W5, s5⟩ := s4.complete hp (rx := [y1]) (x := y0) (ry := [])
      obtain ⟨W6, s6⟩ := s5.complete hp (rx := []) (x := y1) (ry := [])
      exact ⟨W6, y0, y1, s6, .inl ⟨rfl, rfl⟩, rfl⟩
    | false =>
      obtain ⟨W5, s5⟩ := s4.complete hp (rx := []) (x := y1) (ry := [y0])
      obtain ⟨W6, s6⟩ := s5.complete hp (rx := []) (x := y0) (ry := [])
      exact ⟨W6, y1, y0, s6, .inr ⟨rfl, rfl⟩, rfl⟩
  have hprops : W6.sop.sys.props = [] := List.map_eq_nil_iff.mp s6.props
  have hrecs : W6.sop.sys.recs = [] := List.map_eq_nil_iff.mp s6.recs
  have hin : W6.sop.sys.inflight = [] := by simp only [Sys.inflight, hprops, hrecs, List.map_nil, List.append_nil]
  have hpend : W6.sop.sys.st.pendingEvals = 0 := (pending_zero s6.run.reach).mpr hin
  have hQ6 : Q W6.sop (zeroRnd [y0, y1]) := by
    refine hQ2 _ _ ?_
    rw [s6.ends]
    rcases hac with ⟨rfl, rfl⟩ | ⟨rfl, rfl⟩
    · exact .inl rfl
    · exact .inr rfl
  have hwant : wanted L.base = 1 := by simp [wanted, ha, hb1]
  have hwp : wantsPoints L.base W6.sop.sys.st := ⟨s6.term, by rw [s6.num]; simp; omega, (s6.run.reach.inv hp).conv, s6.queue, .inr hpend⟩
  have hfeas : ∀ x ∈ [y0, y1], Feasible L.prob x := (hD.spec ok).2.2
  have hR : Ready Bad L W6.sop := by
    refine ⟨by rw [hprops]; simp, by rw [hrecs]; simp, ?_, by rw [hin, hwant, hc1]; simp, ?_⟩
    · have hu : toUnitBox a L.prob.lb L.prob.ub ≠ toUnitBox c L.prob.lb L.prob.ub := by
        intro he
        have hac' : a = c := by
          funext i
          have := congrFun he i
          simp only [toUnitBox] at this
          have hlt := ok.lt i
          rw [div_left_inj' (by linarith)] at this
          linarith
        rcases hac with ⟨rfl, rfl⟩ | ⟨rfl, rfl⟩
        · exact hne hac'
        · exact hne hac'.symm
      exact ⟨(a, f a), by rw [s6.ends]; simp, (c, f c), by rw [s6.ends]; simp, hu⟩
    · intro hh
      refine hB (Hereditary.mono ?_ hh)
      rw [s6.ends]
      intro x hx
      simp only [List.map_cons, List.map_nil, List.mem_cons, List.not_mem_nil, or_false] at hx
      rcases hac with ⟨rfl, rfl⟩ | ⟨rfl, rfl⟩ <;> rcases hx with rfl | rfl <;> simp
  have hff : ¬ Failed Bad W6.calls := by
    rintro ⟨o₁, x, o₂, he, _⟩
    exact s6.calls x (by rw [he]; simp)
  obtain ⟨pts, W7, hans, hstep, hlen, hst⟩ := sop_propose_some hp (.inr (by rw [hb1, hc1])) (by omega) hK s6.objr s6.calm hff (fun _ => hR) (zeroRnd [y0, y1])
  have hlen := hlen hwp
  rw [hwant] at hlen
  obtain ⟨x, rfl⟩ := List.length_eq_one_iff.mp hlen
  have hlog : completions W7.sop.sys.st.log = completions W6.sop.sys.st.log ∧ proposals W7.sop.sys.st.log = proposals W6.sop.sys.st.log ++ [x] := by
    obtain ⟨w7, hw7⟩ : ∃ w7, w7 = W7.sop := ⟨_, rfl⟩
    rw [← hw7] at hst ⊢
    have hgc : genCount L.base = 1 := hwant
    have hg : Going L.base W6.sop.sys.st := ⟨hwp.1, hwp.2.1⟩
    cases step_propose (c := L.cfg) hp (s6.run.reach.inv hp).conv hst with
    | term ht =>
      exfalso
      have := hwp.2.1
      rcases ht with ht | ht
      · rw [s6.term] at ht; cases ht
      · exact absurd ht (not_le.mpr this)
    | queue x' q hq hg => rw [s6.queue] at hq; simp at hq
    | gen x' q z hpts hq hg ha' hz =>
      have hpts : (List.range (genCount L.base)).map (fun i => [x].getD i L.prob.lb) = q ++ [x'] := hpts
      rw [hgc] at hpts
      cases q with
      | cons a q => simp at hpts
      | nil =>
        simp only [List.range_one, List.map_cons, List.map_nil, List.nil_append, List.cons.injEq, and_true] at hpts
        have hxe : x' = x := by rw [← hpts]; rfl
        subst hxe
        constructor <;> simp [proposeLast, genState, State.note, State.makeProposal, completions, proposals]
    | genNone z hn' hq hg ha' hz =>
      exfalso
      have hn' : genCount L.base = 0 := hn'
      omega
    | wait hq hg ha' hp' => exact absurd hpend hp'
  refine ⟨W7, .ask s6.run hQ6 hstep, ?_, x, ?_, ?_⟩
  · rw [hlog.1, s6.ends, ← hswap]; simp
  · rw [hlog.2, s6.log]; rfl
  · intro hflat
    have hfac : f a = f c := by
      rcases hac with ⟨rfl, rfl⟩ | ⟨rfl, rfl⟩
      · exact hflat
      · exact hflat.symm
    unfold sopAnswer at hans
    rw [if_pos hwp, hwant] at hans
    simp only [sopGen, Option.bind_eq_some_iff] at hans
    obtain ⟨z1, h1, z2, h2, h3⟩ := hans
    rw [s6.sop] at h1
    obtain ⟨e2, ce, cs, hcs, hnp, hidx, hxc⟩ := first_center (c := L.cfg) (E := [a, c].map (recOf f)) (a := recOf f a) (rest := [recOf f c]) rfl
      (by simp [recOf, SopRec.new, hfac]) (by simp [recOf, SopRec.new]) (by show 0 < L.ncenters; omega) h1 h2
    rw [hcs, e2] at h3
    have hfind : (ce :: cs).find? (fun ce => ce.newPoint.isNone) = some ce := by rw [List.find?_cons]; simp [hnp]
    simp only [List.range_one, List.map_cons, List.map_nil, sopPoints, hfind, Option.bind_some, hidx, List.getElem?_cons_zero,
      Option.bind_eq_some_iff, Option.map_eq_some_iff] at h3
    obtain ⟨x', hx', cs', _, l, hl, he⟩ := h3
    have hxx : x' = x := by
      have := congrArg List.head? he
      simpa using this
    subst hxx
    have haf : Feasible L.prob a := by
      rcases hac with ⟨rfl, rfl⟩ | ⟨rfl, rfl⟩ <;> exact hfeas _ (by simp)
    have hce : ce.xc = a := hxc
    rw [hce] at hx'
    rw [sopPoint_centre haf hx']
    cases swap <;> (simp at hswap; simp [hswap.1])

theorem unit_ne : (fun _ => 0 : Pt 1) ≠ fun _ => 1 := by
  intro h
  have := congrFun h 0
  norm_num at this

/-- With equal values it is false: SOP with one center and the default RBF interpolant on the unit interval, synchronous, a constant
objective, the same random outcomes.  Two workers evaluate the two points of the design; the run goes on differently according to
which of them finishes first. -/
theorem C142_ties_refuted (v : Val) : ∃ (lu : ℕ → Surrogate.Mat → Surrogate.LuOut) (chol : ℕ → Surrogate.Mat → Option Surrogate.Mat)
    (D : List (Pt 1)) (rs : ℕ → SopRnd 1) (W W' : SopObjSys 1), Surrogate.LuSpec lu ∧ Surrogate.CholSpec chol ∧
    DesignOf unitProb 2 D ∧ ¬ OnHyperplane D ∧
    SopSyncObj (fun _ _ => True) (sopWholeSetup unitProb false 1) (rbfObj (defaultPar unitProb 1e-6 id lu chol)) (fun _ => v) D rs W ∧
    SopSyncObj (fun _ _ => True) (sopWholeSetup unitProb false 1) (rbfObj (defaultPar unitProb 1e-6 id lu chol)) (fun _ => v) D rs W' ∧
    (proposals W.sop.sys.st.log).length = 3 ∧ (proposals W'.sop.sys.st.log).length = 3 ∧
    proposals W.sop.sys.st.log ≠ proposals W'.sop.sys.st.log := by
  obtain ⟨lu, chol, h1, h2, _⟩ := Surrogate.exists_library
  have run := fun swap => sop_tie_run (Q := fun _ _ => True) (f := fun _ => v) (L := sopWholeSetup unitProb false 1)
    (K := rbfObj (defaultPar unitProb 1e-6 id lu chol)) unitProb_ok rfl
    (rbf_answers (.inl rfl) _ _ unitProb_ok.lt 1e-6 (by norm_num) id lu chol h1 h2) rfl rfl rfl rfl rfl
    (by simp [sopWholeSetup]) unit_ne (design_unit unitProb rfl rfl) unit_span (fun _ _ _ => trivial) (fun _ _ _ => trivial) swap
  obtain ⟨W, hW, _, x, e, hx⟩ := run false
  obtain ⟨W', hW', _, x', e', hx'⟩ := run true
  rw [hx rfl] at e
  rw [hx' rfl] at e'
  refine ⟨lu, chol, _, _, W, W', h1, h2, design_unit unitProb rfl rfl, unit_span, hW, hW', by rw [e]; rfl, by rw [e']; rfl, ?_⟩
  rw [e, e']
  simp only [Bool.false_eq_true, if_false, if_true, ne_eq, List.cons.injEq, and_true, true_and]
  exact fun h => unit_ne h.symm

/-- Both orders of completion occur, with the default RBF interpolant and an objective with different values at the two design
points; then a point is generated. -/
example (f : Pt 1 → Val) (hf : f (fun _ => 0) ≠ f (fun _ => 1)) (swap : Bool) :
    ∃ (lu : ℕ → Surrogate.Mat → Surrogate.LuOut) (chol : ℕ → Surrogate.Mat → Option Surrogate.Mat) (W : SopObjSys 1),
    Surrogate.LuSpec lu ∧ Surrogate.CholSpec chol ∧ ProbOk (sopWholeSetup unitProb false 1).prob ∧
    Sane (sopWholeSetup unitProb false 1).base ∧ OrderFree id ∧ ¬ OnHyperplane [(fun _ => 0 : Pt 1), fun _ => 1] ∧
    SopSyncObj (Unequal (sopWholeSetup unitProb false 1)) (sopWholeSetup unitProb false 1) (rbfObj (defaultPar unitProb 1e-6 id lu chol)) f
      [fun _ => 0, fun _ => 1] (fun _ => zeroRnd [fun _ => 0, fun _ => 1]) W ∧
    (completions W.sop.sys.st.log).map Prod.fst = (if swap then [fun _ => 0, fun _ => 1] else [fun _ => 1, fun _ => 0]) ∧
    (proposals W.sop.sys.st.log).length = 3 := by
  obtain ⟨lu, chol, h1, h2, _⟩ := Surrogate.exists_library
  obtain ⟨W, hW, hc, x, e, _⟩ := sop_tie_run (Q := Unequal (sopWholeSetup unitProb false 1)) (f := f) (L := sopWholeSetup unitProb false 1)
    (K := rbfObj (defaultPar unitProb 1e-6 id lu chol)) unitProb_ok rfl
    (rbf_answers (.inl rfl) _ _ unitProb_ok.lt 1e-6 (by norm_num) id lu chol h1 h2) rfl rfl rfl rfl rfl
    (by simp [sopWholeSetup]) unit_ne (design_unit unitProb rfl rfl) unit_span (fun w r hq hw => absurd hw.2.2.2.1 hq)
    (fun w r hw _ => by
      rcases hw with hw | hw <;> rw [hw]
      · simpa using hf
      · simpa using hf.symm) swap
  exact ⟨lu, chol, W, h1, h2, unitProb_ok, ⟨by norm_num [sopWholeSetup], .inr (by norm_num [sopWholeSetup]), fun sc h => by cases h⟩,
    orderFree_id, unit_span, hW, hc, by rw [e]; rfl⟩

end Verif.Props
