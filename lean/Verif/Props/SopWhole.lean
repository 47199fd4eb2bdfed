import Verif.Loop.SopObject
import Verif.Props.Whole
import Verif.Props.WholeGP
import Verif.Props.SopSerial
import Verif.Props.SopUnits

/-! # Property C120: SOP and its surrogate object -/

namespace Verif.Props

open Verif.Num Verif.Utils Verif.Cand Verif.Design Verif.Strategy Verif.Spec Verif.Loop Verif.Sop

variable {d : ℕ} {L : SopSetup d} {K : Obj d} {f : Pt d → Val}

/-- States of the program with the surrogate object `K` and the objective `f`: every schedule of proposals, answers,
completions, failures, crashes and resumes, and all possible random outcomes. -/
inductive SopObjReach (L : SopSetup d) (K : Obj d) (f : Pt d → Val) : SopObjSys d → Prop
  | create (D : List (Pt d)) : DesignOf L.prob L.base.numPts D → SopObjReach L K f (sopObjCreate L D)
  | step {W W' : SopObjSys d} (e : SEv d) : SopObjReach L K f W →
      (∀ r, e = .propose r → SopRndOk L (K W.calls) W.sop r) → sopObjStep L K f W e = some W' → SopObjReach L K f W'

theorem SopObjReach.loop {W : SopObjSys d} (h : SopObjReach L K f W) : SopLoopReach L W.sop := by
  induction h with
  | create D hD => exact .create D hD
  | step e _ hr hs ih =>
    simp only [sopObjStep, Option.map_eq_some_iff] at hs
    obtain ⟨w', hw, rfl⟩ := hs
    exact sopLoopStep_reach ih e hr hw

/-- The data of the object are those of the strategy: all completed evaluations, and before them the extra points with known
values. -/
structure SopObjInv (L : SopSetup d) (W : SopObjSys d) : Prop where
  data : dataOf d W.calls = (knownExtras L.base ++ completions W.sop.sys.st.log).map fun e => (e.1, ((e.2 : ℚ) : ℝ))
  cols : NoMultiColumn W.calls
  cur : W.sop.sys.st.curX = (completions W.sop.sys.st.log).map Prod.fst

/-- Events other than proposals and completions. -/
theorem other_keeps {cfg : Config (Pt d)} {w w' : Sys (Pt d)} {op : Strategy.Op (Pt d)} (h : w.step cfg op = some w')
    (h1 : ∀ o, op ≠ .propose o) (h2 : ∀ i v, op ≠ .complete i v) :
    completions w'.st.log = completions w.st.log ∧ w'.st.curX = w.st.curX := by
  cases op with
  | propose o => exact absurd rfl (h1 o)
  | complete i v => exact absurd rfl (h2 i v)
  | accept i =>
    simp only [Sys.step] at h
    split at h
    · cases h
    · cases h; simp [State.note, State.onAccept, completions]
  | reject i =>
    simp only [Sys.step] at h
    split at h
    · cases h
    · cases h
      split
      · simp [onInitialRejected_eq, State.note, completions]
      · simp only [onAdaptReject_eq]; simp [State.note, completions]
  | abort i =>
    simp only [Sys.step] at h
    split at h
    · cases h
    · cases h
      simp only [onAborted_eq]; simp [State.note, completions]
  | update i =>
    simp only [Sys.step] at h
    split at h
    · cases h
    · cases h; exact ⟨rfl, rfl⟩

theorem SopObjReach.inv (hp : L.base.srbf = none) {W : SopObjSys d} (h : SopObjReach L K f W) : SopObjInv L W := by
  induction h with
  | create D hD =>
    refine ⟨?_, ?_, ?_⟩
    · have := dataOf_known ([.reset] : List (Surrogate.Op d)) (knownExtras L.base)
      simp only [List.singleton_append] at this
      simp only [sopObjCreate, this]
      simp [SopSys.create, Sys.create, create_eq, completions, SopSetup.cfg, dataOf]
    · exact cols_append (a := [.reset]) (by intro xx fx h; simp at h) (cols_known _)
    · simp [sopObjCreate, SopSys.create, Sys.create, create_eq, completions, State.blank]
  | @step W W' e hR hr hs ih =>
    have hre : Sop.Reach L.cfg W.sop := hR.loop.reach
    have hcv := hre.inv hp
    simp only [sopObjStep, Option.map_eq_some_iff] at hs
    obtain ⟨w', hw, rfl⟩ := hs
    have other : ∀ op, (∀ o, op ≠ Strategy.Op.propose o) → (∀ i v, op ≠ .complete i v) → W.sop.step L.cfg op = some w' →
        sopCallsOf L f W.sop e = [] → SopObjInv L ⟨w', W.calls ++ sopCallsOf L f W.sop e⟩ := by
      intro op h1 h2 hst hc
      rw [hc, List.append_nil]
      obtain ⟨_, h3⟩ := step_other hst h1 h2
      obtain ⟨k1, k2⟩ := other_keeps h3 h1 h2
      exact ⟨by rw [k1]; exact ih.data, ih.cols, by rw [k1, k2]; exact ih.cur⟩
    cases e with
    | propose r =>
      have hc : dataOf d (W.calls ++ sopCallsOf L f W.sop (.propose r)) = dataOf d W.calls ∧
          NoMultiColumn (W.calls ++ sopCallsOf L f W.sop (.propose r)) := by
        unfold sopCallsOf
        split_ifs
        · exact ⟨dataOf_predict _ _, cols_append ih.cols (by intro xx fx h; simp at h)⟩
        · simpa using ih.cols
      simp only [sopLoopStep, Option.bind_eq_some_iff] at hw
      obtain ⟨pts, _, hst⟩ := hw
      have key : completions w'.sys.st.log = completions W.sop.sys.st.log ∧ w'.sys.st.curX = W.sop.sys.st.curX := by
        cases step_propose (c := L.cfg) hp hcv.conv hst with
        | term ht => simp only [termState]; split_ifs <;> simp [State.note, completions]
        | queue x q hq hg => simp [proposeLast, State.note, State.makeProposal, completions]
        | gen x q z hpts hq hg ha hz => simp [proposeLast, genState, State.note, State.makeProposal, completions]
        | genNone z hn hq hg ha hz => simp [genState, State.note, completions]
        | wait hq hg ha hp => exact ⟨rfl, rfl⟩
      exact ⟨by rw [hc.1, key.1]; exact ih.data, hc.2, by rw [key.1, key.2]; exact ih.cur⟩
    | accept i => exact other (.accept i) (by simp) (by simp) hw rfl
    | reject i => exact other (.reject i) (by simp) (by simp) hw rfl
    | abort i => exact other (.abort i) (by simp) (by simp) hw rfl
    | update i => exact other (.update i) (by simp) (by simp) hw rfl
    | complete i =>
      simp only [sopLoopStep, Option.bind_eq_some_iff] at hw
      obtain ⟨r, hrec, hst⟩ := hw
      obtain ⟨r', hr', hs', _⟩ := step_complete (c := L.cfg) hp hst
      rw [hrec] at hr'
      cases hr'
      have hid : W.sop.sys.st.evLast < r.evId := by
        rw [hcv.evLast]
        have hi := hre.base.ids
        have := hi.idsNe _ (hi.recMem r (List.mem_of_getElem? hrec))
        rw [hcv.evLast] at this
        omega
      have hc : sopCallsOf L f W.sop (.complete i) = [addCall r.x (f r.x)] := by
        simp only [sopCallsOf, hrec, if_pos hid]
      rw [hc]
      simp only [recordCompleted_eq, State.note] at hs'
      refine ⟨?_, cols_append ih.cols (cols_add [(r.x, f r.x)]), ?_⟩
      · rw [dataOf_addCall, ih.data, hs']
        simp only [Strategy.completions_append]
        simp [completions]
      · rw [hs']
        simp only [Strategy.completions_append, if_pos hid, List.map_append]
        rw [ih.cur]
        simp [completions]
    | resume =>
      simp only [sopLoopStep, Option.some.injEq] at hw
      subst hw
      rw [show sopCallsOf L f W.sop .resume = [] from rfl, List.append_nil]
      have key : completions W.sop.sys.resumed.st.log = completions W.sop.sys.st.log ∧
          W.sop.sys.resumed.st.curX = W.sop.sys.st.curX := by
        simp [Sys.resumed, resume_eq, State.note, completions]
      exact ⟨by rw [key.1]; exact ih.data, ih.cols, by rw [key.1, key.2]; exact ih.cur⟩

/-! ## The candidate searches -/

/-- A candidate search gives a point if there are evaluated points and the surrogate answers. -/
theorem sopPoint_some {S : Surr d} {s : State (Pt d)} (hX : s.curX ≠ []) (hS : S.mean (surrData s) ≠ none) (xc : Pt d) (sigma : ℚ)
    (r : CandRnd d) : ∃ x, sopPoint L S s xc sigma r = some x := by
  obtain ⟨pred, hpred⟩ := Option.ne_none_iff_exists'.mp hS
  unfold sopPoint
  cases hc : s.curX with
  | nil => exact absurd hc hX
  | cons x0 xs =>
    simp only [hpred, Option.bind_some]
    have : ∃ l, candidateDycors L.prob pred (fun i : Fin (xs.length + 1) => (x0 :: xs)[i]) [1] (probOf (State.perturbProb L.base d s))
        s.Xpend ((sigma : ℚ) : ℝ) (List.finRange d) 1e-3 xc r.u r.forced r.draws = some l := by
      unfold candidateDycors
      simp only
      rw [dif_pos]
      · exact ⟨_, rfl⟩
      · intro j
        obtain ⟨y, hy, _⟩ := dycorsCand_prefix xc
          (scalefactors L.prob ((sigma : ℚ) : ℝ) (List.finRange d)) (List.finRange d) (fun i h => by simp)
          (dycorsMask (List.finRange d).length (probOf (State.perturbProb L.base d s)) (r.u j) (r.forced j)) (r.draws j)
        rw [hy]; rfl
    obtain ⟨l, hl⟩ := this
    obtain ⟨x, rfl⟩ := dycors_single hl
    exact ⟨x, by rw [hl]; rfl⟩

/-- The loop over the new points does not raise if there are enough free centers. -/
theorem sopPoints_some {S : Surr d} {s : State (Pt d)} {evals : List (SopRec d)} (hX : s.curX ≠ [])
    (hS : S.mean (surrData s) ≠ none) (rs : List (CandRnd d)) (cs : List (Center d))
    (h1 : ∀ ce ∈ cs, ce.newPoint = none → ce.newIndex = none) (h2 : (newPts cs).length + rs.length ≤ cs.length)
    (h3 : ∀ ce ∈ cs, ∃ rec, evals[ce.index]? = some rec) :
    ∃ pts, sopPoints L S s evals cs rs = some pts ∧ pts.length = rs.length := by
  induction rs generalizing cs with
  | nil => exact ⟨[], rfl, rfl⟩
  | cons r rs ih =>
    simp only [List.length_cons] at h2
    obtain ⟨ce0, hm0, hn0⟩ := free_of_lt (cs := cs) (by omega)
    obtain ⟨ce, hce⟩ : ∃ ce, (cs.find? fun ce => ce.newPoint.isNone) = some ce := by
      rw [← Option.isSome_iff_exists, List.find?_isSome]
      exact ⟨ce0, hm0, by rw [hn0]; rfl⟩
    obtain ⟨rec, hrec⟩ := h3 ce (List.mem_of_find?_eq_some hce)
    obtain ⟨x, hx⟩ := sopPoint_some (L := L) hX hS ce.xc rec.sigma r
    obtain ⟨cs', hcs'⟩ := assignPoint_isSome x ⟨ce0, hm0, hn0⟩
    obtain ⟨a1, _, a3, a4⟩ := assign_pts hcs' h1
    have hl := a1.length_eq
    simp only [List.length_cons] at hl
    obtain ⟨xs, hxs, hlen⟩ := ih cs' a4 (by omega) (by
      obtain ⟨l, c0, r0, e1, e2, _⟩ := assignPoint_spec hcs'
      intro ce' hm
      rw [e2] at hm
      simp only [List.mem_append, List.mem_cons] at hm
      rcases hm with hm | rfl | hm
      · exact h3 ce' (by rw [e1]; simp [hm])
      · exact h3 c0 (by rw [e1]; simp)
      · exact h3 ce' (by rw [e1]; simp [hm]))
    refine ⟨x :: xs, ?_, by simp [hlen]⟩
    simp only [sopPoints, hce, hrec, hx, hcs', hxs, Option.bind_some, Option.map_some]

/-- `generate_evals` of the strategy does not raise when the surrogate answers. -/
theorem sopGen_some {c : Cfg d} (hL : L.cfg = c) {S : Surr d} {w : SopSys d} (hz : CInv c w.sop)
    (hn : w.sop.evals.length = w.sys.st.numEvals.toNat) (h2 : TwoPoints c w.sop.evals)
    (hF : ∀ F, w.sop.F = some F → F.length = w.sys.st.numEvals.toNat) (hb : c.base.maxEvals ≠ c.base.numPts) {n : ℕ}
    (hroom : (busyPts w.sop.centers).length + n ≤ c.ncenters) (hX : w.sys.st.curX ≠ [])
    (hS : S.mean (surrData w.sys.st) ≠ none) (r : SopRnd d) :
    ∃ pts, sopGen L S w n r = some pts ∧ pts.length = n := by
  subst hL
  obtain ⟨z', hz'⟩ := generate_isSome (pts := List.replicate n L.prob.lb) hz hn h2 hF hb (by simpa using hroom)
  unfold Sop.generate at hz'
  cases e1 : w.sop.firstRanks L.cfg w.sys.st.numEvals.toNat with
  | none => rw [e1] at hz'; cases hz'
  | some z1 =>
    rw [e1] at hz'
    simp only at hz'
    cases e2 : z1.updateCenterList L.cfg w.sys.st.numEvals.toNat with
    | none => rw [e2] at hz'; cases hz'
    | some z2 =>
      have hz1 : CInv L.cfg z1 ∧ z1.centers = w.sop.centers := by
        unfold Sop.firstRanks at e1
        split at e1
        · exact ⟨updateRanks_cinv e1 hz, by obtain ⟨_, _, _, rfl⟩ := updateRanks_spec e1; rfl⟩
        · cases e1; exact ⟨hz, rfl⟩
      obtain ⟨a1, _, a3⟩ := updateCenterList_pts e2
      obtain ⟨hz2, hl⟩ := updateCenterList_cinv e2 hz1.1
      obtain ⟨pts, hp, hlen⟩ := sopPoints_some (L := L) (evals := z2.evals) hX hS ((List.range n).map r.cands) z2.centers a3
        (by rw [a1, hz1.2, hl]; simpa using hroom) (by
          intro ce hce
          obtain ⟨v, hv⟩ := hz2.at_ ce hce
          unfold archive at hv
          rw [List.getElem?_map, Option.map_eq_some_iff] at hv
          obtain ⟨rec, hrec, _⟩ := hv
          exact ⟨rec, hrec⟩)
      refine ⟨pts, ?_, by simpa using hlen⟩
      simp only [sopGen, e1, e2, Option.bind_some, hp]

variable {Bad : List (Pt d) → Prop} [Hereditary Bad]

/-- What is needed when new points are wanted: no initial evaluation is outstanding, two evaluated points differ, there are centers
for the points in flight and the new ones, and the evaluated points are not `Bad`. -/
structure Ready (Bad : List (Pt d) → Prop) (L : SopSetup d) (w : SopSys d) : Prop where
  props : ∀ p ∈ w.sys.props, p.kind = .adapt
  recs : ∀ r ∈ w.sys.recs, r.kind = .adapt
  two : ∃ p ∈ completions w.sys.st.log, ∃ q ∈ completions w.sys.st.log,
    toUnitBox p.1 L.prob.lb L.prob.ub ≠ toUnitBox q.1 L.prob.lb L.prob.ub
  room : w.sys.inflight.length + wanted L.base ≤ L.ncenters
  good : ¬ Bad ((completions w.sys.st.log).map Prod.fst)

theorem sop_propose_some (hp : L.base.srbf = none) (hb : L.base.asynchronous = true ∨ L.base.batchSize = L.ncenters)
    (hm : L.base.maxEvals ≠ L.base.numPts) (hK : Answers Bad .srbf K) {W : SopObjSys d} (h : SopObjReach L K f W)
    (hc : Calm L.cfg W.sop) (hff : ¬ Failed Bad W.calls) (hw : wantsPoints L.base W.sop.sys.st → Ready Bad L W.sop) (r : SopRnd d) :
    ∃ pts W', sopAnswer L (K W.calls) W.sop r = some pts ∧ sopObjStep L K f W (.propose r) = some W' ∧
      (wantsPoints L.base W.sop.sys.st → pts.length = wanted L.base) ∧
      W.sop.step L.cfg (.propose (sopOracle L r.design pts)) = some W'.sop := by
  have hi := h.inv hp
  have hre := hc.reach
  have hinv := hre.inv (c := L.cfg) hp
  have key : ∃ pts, sopAnswer L (K W.calls) W.sop r = some pts ∧ (wantsPoints L.base W.sop.sys.st → pts.length = wanted L.base) := by
    unfold sopAnswer
    by_cases hwp : wantsPoints L.base W.sop.sys.st
    · rw [if_pos hwp]
      have hR := hw hwp
      obtain ⟨_, _, _, hq, ha⟩ := hwp
      obtain ⟨g1, g2⟩ := Post.gen (c := L.cfg) hre hp (hc.inv hp hb) hq ha hR.props hR.recs
      have two := two_of_completions (c := L.cfg) hinv hR.two
      have hcount : W.sop.sop.evals.length = W.sop.sys.st.numEvals.toNat := by have := hre.count (c := L.cfg) hp; omega
      have hX : W.sop.sys.st.curX ≠ [] := by
        rw [hi.cur]
        obtain ⟨p, hp, _⟩ := hR.two
        intro h0
        rw [List.map_eq_nil_iff] at h0
        rw [h0] at hp; simp at hp
      have hsub : (completions W.sop.sys.st.log).map Prod.fst ⊆ (dataOf d W.calls).map Prod.fst := by
        rw [hi.data]
        intro x hx
        simp only [List.map_map, List.map_append]
        exact List.mem_append_right _ hx
      have hS : (K W.calls).mean (surrData W.sop.sys.st) ≠ none := by
        refine (hK W.calls _ hi.cols ?_ (fun hb => hR.good (Hereditary.mono hsub hb)) hff).1
        intro h0
        rw [h0] at hsub
        rw [← hi.cur] at hsub
        exact hX (List.subset_nil.mp hsub)
      obtain ⟨pts, h1, h2⟩ := sopGen_some (L := L) rfl (hre.cinv hp) hcount two (fun F hF => by rw [g2 F hF, hcount]) hm
        (n := wanted L.base) (by rw [g1.length_eq]; exact hR.room) hX hS r
      exact ⟨pts, h1, fun _ => h2⟩
    · rw [if_neg hwp]
      exact ⟨[], rfl, fun h => absurd h hwp⟩
  obtain ⟨pts, h1, h2⟩ := key
  obtain ⟨w', hw'⟩ := (hc.live' (c := L.cfg) hp hb hm).1 (sopOracle L r.design pts) fun hq hg ha => by
    have hR := hw ⟨hg.notTerm, hg.budget, hinv.conv, hq, ha⟩
    exact ⟨hR.props, hR.recs, hR.two, hR.room⟩
  refine ⟨pts, ⟨w', W.calls ++ sopCallsOf L f W.sop (.propose r)⟩, h1, ?_, h2, hw'⟩
  simp only [sopObjStep, sopLoopStep, h1, Option.bind_some, hw', Option.map_some]

/-! ## The theorems -/

/-- Every schedule, both modes, any objective: the calls that SOP makes leave in the object exactly the extra points with known value
and all completed evaluations, in the order of completion. -/
theorem C120_data (hp : L.base.srbf = none) {W : SopObjSys d} (h : SopObjReach L K f W) :
    NoMultiColumn W.calls ∧ dataOf d W.calls = (known L.base.extras ++ completions W.sop.sys.st.log).map
      fun e => (e.1, ((e.2 : ℚ) : ℝ)) :=
  ⟨(h.inv hp).cols, by rw [← known_eq]; exact (h.inv hp).data⟩

/-- Any loss-free schedule with any number of workers, both modes, any objective, any random outcome: if at a call of
`propose_action` at which new points are wanted no initial evaluation is outstanding, two evaluated points differ, there are
centers for all points in flight, and the evaluated points are not `Bad` (and were not at an earlier prediction), then the call
does not raise. -/
theorem C120_any (hp : L.base.srbf = none) (hb : L.base.asynchronous = true ∨ L.base.batchSize = L.ncenters)
    (hm : L.base.maxEvals ≠ L.base.numPts) (hK : Answers Bad .srbf K) {W : SopObjSys d} (h : SopObjReach L K f W)
    (hc : Calm L.cfg W.sop) (hff : ¬ Failed Bad W.calls) (hw : wantsPoints L.base W.sop.sys.st → Ready Bad L W.sop) (r : SopRnd d) :
    sopObjStep L K f W (.propose r) ≠ none := by
  obtain ⟨_, W', _, h1, _⟩ := sop_propose_some hp hb hm hK h hc hff hw r
  rw [h1]; simp

/-- Between two rounds of the serial loop, after `n` evaluations. -/
structure SopWholeRound (Bad : List (Pt d) → Prop) (L : SopSetup d) (K : Obj d) (f : Pt d → Val) (start : List (Pt d)) (n : ℕ)
    (W : SopObjSys d) : Prop where
  reach : SopObjReach L K f W
  round : SopRound L.cfg f start n W.sop
  noFail : ¬ Failed Bad W.calls

theorem SopWholeRound.ready (ok : SerialOk L.cfg) {start : List (Pt d)} {n : ℕ} {W : SopObjSys d}
    (h : SopWholeRound Bad L K f start n W) (hD : ¬ Bad start)
    (ht : ∃ x ∈ start, ∃ y ∈ start, toUnitBox x L.prob.lb L.prob.ub ≠ toUnitBox y L.prob.lb L.prob.ub)
    (hw : wantsPoints L.base W.sop.sys.st) : Ready Bad L W.sop := by
  obtain ⟨_, _, _, hq, _⟩ := hw
  refine ⟨by rw [h.round.props]; simp, by rw [h.round.recs]; simp, ?_, by rw [h.round.inflight, List.length_nil, Nat.zero_add]; exact ok.gen.2, ?_⟩
  · obtain ⟨x, hx, y, hy, hne⟩ := ht
    obtain ⟨u, hu⟩ := h.round.start_done hq hx
    obtain ⟨v, hv⟩ := h.round.start_done hq hy
    exact ⟨_, hu, _, hv, hne⟩
  · refine fun hb => hD (Hereditary.mono (fun x hx => ?_) hb)
    obtain ⟨v, hv⟩ := h.round.start_done hq hx
    exact List.mem_map_of_mem (f := Prod.fst) hv

theorem SopWholeRound.noFail_propose (ok : SerialOk L.cfg) {start : List (Pt d)} {n : ℕ} {W W' : SopObjSys d}
    (h : SopWholeRound Bad L K f start n W) (hD : ¬ Bad start)
    (ht : ∃ x ∈ start, ∃ y ∈ start, toUnitBox x L.prob.lb L.prob.ub ≠ toUnitBox y L.prob.lb L.prob.ub)
    {r : SopRnd d} (hs : sopObjStep L K f W (.propose r) = some W') : ¬ Failed Bad W'.calls := by
  simp only [sopObjStep, Option.map_eq_some_iff] at hs
  obtain ⟨w', _, rfl⟩ := hs
  have hi := h.reach.inv ok.plain
  unfold sopCallsOf
  simp only
  split_ifs with hw
  · intro hf
    obtain ⟨_, hf | ⟨_, _, _, hf⟩⟩ := failed_snoc hf
    · exact h.noFail hf
    · refine (h.ready ok hD ht hw.1).good (Hereditary.mono (fun x hx => ?_) hf)
      rw [hi.data]
      simp only [List.map_map, List.map_append]
      exact List.mem_append_right _ hx
  · rw [List.append_nil]; exact h.noFail

theorem sopObjSerial_from (ok : SerialOk L.cfg) {M : ℕ} (hM : L.base.maxEvals = M) (hK : Answers Bad .srbf K) {start : List (Pt d)}
    (hD : ¬ Bad start)
    (ht : ∃ x ∈ start, ∃ y ∈ start, toUnitBox x L.prob.lb L.prob.ub ≠ toUnitBox y L.prob.lb L.prob.ub)
    (rs : List (SopObjSys d → SopRnd d))
    (hrs : ∀ r ∈ rs, ∀ W, SopObjReach L K f W → SopRndOk L (K W.calls) W.sop (r W) ∧
      (L.base.asynchronous = false → ∀ pts, sopAnswer L (K W.calls) W.sop (r W) = some pts → pts.Nodup))
    {n : ℕ} {W : SopObjSys d} (hn : n ≤ M) (h : SopWholeRound Bad L K f start n W) :
    ∃ W' b, sopObjSerial L K f rs W = some (W', b) ∧ SopObjReach L K f W' ∧ W'.sop.sys.inflight = [] ∧
      (completions W'.sop.sys.st.log).length = min (n + rs.length) M ∧ (∀ q ∈ completions W'.sop.sys.st.log, q.2 = f q.1) ∧
      (b = true ↔ M < n + rs.length) := by
  induction rs generalizing n W with
  | nil =>
    refine ⟨W, false, rfl, h.reach, h.round.inflight, ?_, h.round.values, ?_⟩
    · rw [h.round.count]; simp [hn]
    · simpa using hn
  | cons r rs ih =>
    obtain ⟨hrnd, hnd⟩ := hrs r (by simp) W h.reach
    obtain ⟨pts, W1, ha, hW1, hlen, hst⟩ := sop_propose_some ok.plain ok.batch ok.budget hK h.reach h.round.calm h.noFail
      (h.ready ok hD ht) (r W)
    have hR1 : SopObjReach L K f W1 := .step _ h.reach (fun r' he => by cases he; exact hrnd) hW1
    have hF1 := h.noFail_propose ok hD ht hW1
    obtain ⟨w1, hw1, hend, hgo⟩ := h.round.round ok ht (o := sopOracle L (r W).design pts) (by
      intro hq hg has
      have hwp : wantsPoints L.base W.sop.sys.st := by
        refine ⟨hg.notTerm, hg.budget, (h.round.calm.reach.inv ok.plain).conv, hq, .inr ?_⟩
        exact (pending_zero h.round.calm.reach).mpr h.round.inflight
      have := hlen hwp
      have hwd : wanted L.base = L.base.batchSize := by unfold wanted; rw [show L.base.asynchronous = false from has]; rfl
      rw [hwd] at this
      show ((List.range L.base.batchSize).map fun i => pts.getD i L.prob.lb).Nodup
      rw [map_getD_range this]
      exact hnd has pts ha)
    rw [hst] at hw1
    cases hw1
    rcases Nat.lt_or_ge n M with hlt | hge
    · obtain ⟨hnt, p, w2, w3, hp, hrc, h2, h3, h4⟩ := hgo (by show (n : ℤ) < L.base.maxEvals; omega)
      have ho2 : sopObjStep L K f W1 (.accept 0) = some ⟨w2, W1.calls⟩ := by
        simp only [sopObjStep, sopLoopStep, h2, Option.map_some, sopCallsOf, List.append_nil]
      have hR2 : SopObjReach L K f ⟨w2, W1.calls⟩ := .step _ hR1 (fun r' he => by cases he) ho2
      obtain ⟨rc, hrc2, hx2⟩ : ∃ rc, w2.sys.recs[0]? = some rc ∧ rc.x = p.x := by
        have hs2 := (step_other h2 (by simp) (by simp)).2
        simp only [Sys.step, hp, hrc, List.getElem?_cons_zero, List.nil_append, Option.some.injEq] at hs2
        rw [← hs2]
        exact ⟨_, rfl, rfl⟩
      have ho3 : sopObjStep L K f ⟨w2, W1.calls⟩ (.complete 0) =
          some ⟨w3, W1.calls ++ sopCallsOf L f w2 (.complete 0)⟩ := by
        simp only [sopObjStep, sopLoopStep, hrc2, Option.bind_some, hx2, h3, Option.map_some]
      have hF3 : ¬ Failed Bad (W1.calls ++ sopCallsOf L f w2 (.complete 0)) := by
        intro hf
        refine hF1 (failed_append hf fun x hx => ?_).2
        simp only [sopCallsOf, hrc2] at hx
        split_ifs at hx <;> simp [addCall] at hx
      obtain ⟨W', b, hr, k1, k2, k3, k4, k5⟩ := ih (fun r' hr' => hrs r' (by simp [hr'])) (by omega)
        ⟨.step _ hR2 (fun r' he => by cases he) ho3, h4, hF3⟩
      refine ⟨W', b, ?_, k1, k2, ?_, k4, ?_⟩
      · have : saysTerminate W1.sop.sys.st.log = false := hnt
        simp only [sopObjSerial, hW1, Option.bind_some, this, ho2, ho3, hr]
        rfl
      · rw [k3]; congr 1; simp; omega
      · rw [k5]; simp; omega
    · obtain ⟨e1, e2, e3, e4⟩ := hend (by show L.base.maxEvals ≤ (n : ℤ); omega)
      have : saysTerminate W1.sop.sys.st.log = true := e3
      refine ⟨W1, true, ?_, hR1, by simp [Sys.inflight, e1, e2], ?_, ?_, ?_⟩
      · simp only [sopObjSerial, hW1, Option.bind_some, this, if_true]
      · rw [e4, h.round.count]; simp; omega
      · rw [e4]; exact h.round.values
      · simp; omega

/-- A serial run of SOP, in both modes, with a surrogate object that answers for data that are not `Bad`, for every objective and
all random outcomes (in synchronous mode: such that the points of a batch are different), where the initial points are not `Bad`
and two of them lie at different places of the box: the run never raises and never stalls, evaluates exactly `max_evals` points,
all of them feasible, and ends. -/
theorem C120_serial_partial (ok : ProbOk L.prob) (hs : SerialOk L.cfg) (hx : ∀ e ∈ L.base.extras, Feasible L.prob e.1)
    (hK : Answers Bad .srbf K) {M : ℕ} (hM : L.base.maxEvals = M) (D : List (Pt d)) (hD : DesignOf L.prob L.base.numPts D)
    (hn : ¬ Bad D) (ht : ∃ x ∈ D, ∃ y ∈ D, x ≠ y) (rs : List (SopObjSys d → SopRnd d))
    (hrs : ∀ r ∈ rs, ∀ W, SopObjReach L K f W → SopRndOk L (K W.calls) W.sop (r W) ∧
      (L.base.asynchronous = false → ∀ pts, sopAnswer L (K W.calls) W.sop (r W) = some pts → pts.Nodup)) :
    ∃ W b, sopObjSerial L K f rs (sopObjCreate L D) = some (W, b) ∧
      (completions W.sop.sys.st.log).length = min rs.length M ∧
      (∀ q ∈ completions W.sop.sys.st.log, q.2 = f q.1 ∧ Feasible L.prob q.1) ∧ (b = true ↔ M < rs.length) := by
  have hDs : D ⊆ firstPts L.cfg (sopOracle L D []) := by
    unfold firstPts
    refine List.Subset.trans ?_ (List.subset_append_left _ _)
    show D ⊆ (List.range L.base.numPts).map fun i => D.getD i L.prob.lb
    rw [map_getD_range (hD.spec ok).1]
    exact fun x hx => hx
  have h0 : SopWholeRound Bad L K f (firstPts L.cfg (sopOracle L D [])) 0 (sopObjCreate L D) := by
    refine ⟨.create D hD, ?_, ?_⟩
    · refine ⟨.create _, rfl, rfl, ?_, ?_, ?_, ?_, ?_⟩ <;>
        simp [sopObjCreate, SopSys.create, Sys.create, create_eq, completions, isLoss, State.blank, firstPts]
    · intro hf
      have hf : Failed Bad ([] ++ (sopObjCreate L D).calls) := hf
      obtain ⟨_, o₁, x, o₂, he, _⟩ := failed_append hf (by simp [sopObjCreate, addKnown])
      simp at he
  obtain ⟨x, hx', y, hy, hne⟩ := ht
  obtain ⟨W, b, h1, h2, h3, h4, h5, h6⟩ := sopObjSerial_from hs hM hK (fun hb => hn (Hereditary.mono hDs hb))
    ⟨x, hDs hx', y, hDs hy, fun he => hne (by
      funext i
      have := congrFun he i
      simp only [toUnitBox] at this
      have hlt := ok.lt i
      rw [div_left_inj' (by linarith)] at this
      linarith)⟩ rs hrs (Nat.zero_le _) h0
  rw [Nat.zero_add] at h4 h6
  refine ⟨W, b, h1, h4, fun q hq => ⟨h5 q hq, ?_⟩, h6⟩
  have hloop := h2.loop
  refine (C90_feasible ok hs.plain hx hloop).2.2.2.2.1 q.1 ?_
  rw [(C03_history hloop.reach.base).1]
  rw [List.map_append]
  exact List.mem_append_right _ (List.mem_map_of_mem hq)

/-! ## Batches that cannot have different points -/

/-- Between two rounds, after `n` evaluations: the initial points, `k` in number, are being evaluated, or the first batch, which has
a point twice. -/
structure CrowdRound (L : SopSetup d) (K : Obj d) (f : Pt d → Val) (k n : ℕ) (W : SopObjSys d) : Prop where
  reach : SopObjReach L K f W
  props : W.sop.sys.props = []
  recs : W.sop.sys.recs = []
  notTerm : W.sop.sys.st.terminate = false
  count : (completions W.sop.sys.st.log).length = n
  stage : W.sop.sys.st.phase = .initial ∧ W.sop.sys.st.batchQueue.length + n = k ∨
    W.sop.sys.st.phase = .adaptive ∧ W.sop.sys.st.batchQueue ≠ [] ∧ W.sop.sys.st.batchQueue.length + n = k + L.ncenters ∧
      ¬ (lastBatch W.sop.sys.st.log).Nodup

theorem few_serial (ok : ProbOk L.prob) (hs : SerialOk L.cfg) (hx : ∀ e ∈ L.base.extras, Feasible L.prob e.1)
    (ha : L.base.asynchronous = false)
    (hfew : ∀ l : List (Pt d), (∀ x ∈ l, Feasible L.prob x) → l.length = L.ncenters → ¬ l.Nodup) {k : ℕ}
    (hM : ((k + L.ncenters : ℕ) : ℤ) ≤ L.base.maxEvals) (rs : List (SopObjSys d → SopRnd d))
    (hrs : ∀ r ∈ rs, ∀ W, SopObjReach L K f W → SopRndOk L (K W.calls) W.sop (r W)) {n : ℕ} {W : SopObjSys d}
    (hl : k + L.ncenters ≤ n + rs.length) (h : CrowdRound L K f k n W) (hn : n < k + L.ncenters) : sopObjSerial L K f rs W = none := by
  have hp : L.base.srbf = none := hs.plain
  induction rs generalizing n W with
  | nil => simp at hl; omega
  | cons r rs ih =>
    rw [sopObjSerial]
    cases hW1 : sopObjStep L K f W (.propose (r W)) with
    | none => rfl
    | some W1 =>
    have hR1 : SopObjReach L K f W1 := .step _ h.reach (fun r' he => by cases he; exact hrs r (by simp) W h.reach) hW1
    have hre := h.reach.loop.reach
    have hinv := hre.inv (c := L.cfg) hp
    have hnum := (C03_history hre.base).2.2
    rw [h.count] at hnum
    have hpend : W.sop.sys.st.pendingEvals = 0 := (pending_zero hre).mpr (by simp [Sys.inflight, h.props, h.recs])
    have hW1' := hW1
    simp only [sopObjStep, sopLoopStep, Option.map_eq_some_iff, Option.bind_eq_some_iff] at hW1'
    obtain ⟨w1, ⟨pts, _, hst⟩, hw1⟩ := hW1'
    subst hw1
    -- what was proposed
    have key : ∃ x kd q, w1.sys.props = [⟨x, kd⟩] ∧ w1.sys.recs = [] ∧ w1.sys.st.terminate = false ∧ w1.sys.st.batchQueue = q ∧
        completions w1.sys.st.log = completions W.sop.sys.st.log ∧ saysTerminate w1.sys.st.log = false ∧
        (w1.sys.st.phase = .initial ∧ q.length + (n + 1) = k ∨
          w1.sys.st.phase = .adaptive ∧ kd = .adapt ∧ q.length + (n + 1) = k + L.ncenters ∧ ¬ (lastBatch w1.sys.st.log).Nodup) := by
      cases step_propose (c := L.cfg) hp hinv.conv hst with
      | term ht =>
        exfalso
        rcases ht with ht | ht
        · rw [h.notTerm] at ht; cases ht
        · have : L.base.maxEvals ≤ W.sop.sys.st.numEvals + W.sop.sys.st.pendingEvals := ht
          omega
      | queue x q hq hg =>
        refine ⟨x, kindOf W.sop.sys.st.phase, q, by simp [proposeLast, h.props], by simp [proposeLast, h.recs],
          by simpa [proposeLast, State.note, State.makeProposal] using h.notTerm,
          by simp [proposeLast, State.note, State.makeProposal], by simp [proposeLast, State.note, State.makeProposal, completions],
          by simp [proposeLast, State.note, State.makeProposal, saysTerminate], ?_⟩
        rcases h.stage with ⟨h1, h2⟩ | ⟨h1, _, h2, h3⟩
        · left
          rw [hq] at h2
          refine ⟨by simpa [proposeLast, State.note, State.makeProposal] using h1, ?_⟩
          simp at h2; omega
        · right
          rw [hq] at h2
          refine ⟨by simpa [proposeLast, State.note, State.makeProposal] using h1, by rw [h1]; rfl, by simp at h2; omega, ?_⟩
          simpa [proposeLast, State.note, State.makeProposal, lastBatch_concat] using h3
      | gen x q z hpts hq hg ha' hz =>
        have hF := C90_feasible ok hp hx hR1.loop
        have hlen : (q ++ [x]).length = L.ncenters := by
          rw [← hpts]
          have h1 : genCount L.cfg.base = L.base.batchSize := by
            unfold genCount; rw [show L.cfg.base.asynchronous = false from ha]; rfl
          have h2 : L.base.batchSize = L.ncenters := by
            rcases hs.batch with h | h
            · rw [show L.cfg.base.asynchronous = false from ha] at h; cases h
            · exact h
          simp [h1, h2]
        have hdup := hfew (q ++ [x]) (by
          intro y hy
          rcases List.mem_append.mp hy with hy | hy
          · exact hF.1 y (by simpa [proposeLast, State.note, State.makeProposal, genState] using hy)
          · exact hF.2.1 y (by
              rw [List.mem_singleton.mp hy]
              simp [proposeLast, State.note, State.makeProposal, genState, proposals])) hlen
        refine ⟨x, .adapt, q, by simp [proposeLast, h.props], by simp [proposeLast, h.recs],
          by simpa [proposeLast, State.note, State.makeProposal, genState] using h.notTerm,
          by simp [proposeLast, State.note, State.makeProposal, genState],
          by simp [proposeLast, State.note, State.makeProposal, genState, completions],
          by simp [proposeLast, State.note, State.makeProposal, genState, saysTerminate], ?_⟩
        right
        refine ⟨by simp [proposeLast, State.note, State.makeProposal, genState], rfl, ?_, ?_⟩
        · rcases h.stage with ⟨_, h2⟩ | ⟨_, h2, _⟩
          · rw [hq] at h2; simp at h2 hlen; omega
          · exact absurd hq h2
        · simp only [proposeLast, State.note, State.makeProposal, genState, lastBatch_concat]
          exact hdup
      | genNone z hn0 hq hg ha' hz => have := hs.gen.1; omega
      | wait hq hg ha' hp' => exact absurd hpend hp'
    obtain ⟨x, kd, q, e1, e2, e3, e4, e5, e6, e7⟩ := key
    simp only [Option.bind_some, e6, Bool.false_eq_true, if_false]
    cases hW2 : sopObjStep L K f ⟨w1, W.calls ++ sopCallsOf L f W.sop (.propose (r W))⟩ (.accept 0) with
    | none => rfl
    | some W2 =>
    have hR2 : SopObjReach L K f W2 := .step _ hR1 (fun r' he => by cases he) hW2
    have hW2' := hW2
    simp only [sopObjStep, sopLoopStep, Option.map_eq_some_iff] at hW2'
    obtain ⟨w2, hst2, hw2⟩ := hW2'
    subst hw2
    have hs2 := (step_other hst2 (by simp) (by simp)).2
    simp only [Sys.step, e1, e2, List.getElem?_cons_zero, List.nil_append, Option.some.injEq, List.eraseIdx_cons_zero] at hs2
    simp only [Option.bind_some]
    cases hW3 : sopObjStep L K f ⟨w2, (W.calls ++ sopCallsOf L f W.sop (.propose (r W))) ++ sopCallsOf L f w1 (.accept 0)⟩
        (.complete 0) with
    | none => rfl
    | some W3 =>
    have hR3 : SopObjReach L K f W3 := .step _ hR2 (fun r' he => by cases he) hW3
    have hW3' := hW3
    simp only [sopObjStep, sopLoopStep, Option.map_eq_some_iff, Option.bind_eq_some_iff] at hW3'
    obtain ⟨w3, ⟨rc, hrc, hst3⟩, hw3⟩ := hW3'
    subst hw3
    have hl2 : lastBatch w2.sys.st.log = lastBatch w1.sys.st.log := by
      rw [← hs2]; simp [State.note, State.onAccept, lastBatch_concat]
    have hkd : rc.kind = kd := by
      rw [← hs2] at hrc
      simp only [List.getElem?_cons_zero, Option.some.injEq] at hrc
      rw [← hrc]
    obtain ⟨rc', hrc', hs3, _⟩ := step_complete (c := L.cfg) hp hst3
    rw [hrc] at hrc'
    cases hrc'
    simp only [Option.bind_some]
    have hq2 : w2.sys.st.batchQueue = q := by rw [← hs2]; simpa [State.note, State.onAccept] using e4
    have hst' : w3.sys.st.phase = w1.sys.st.phase ∧ w3.sys.st.batchQueue = q ∧ w3.sys.st.terminate = false ∧
        completions w3.sys.st.log = completions W.sop.sys.st.log ++ [(rc.x, f rc.x)] ∧
        lastBatch w3.sys.st.log = lastBatch w1.sys.st.log ∧ w3.sys.props = [] ∧ w3.sys.recs = [] := by
      simp only [recordCompleted_eq, State.note] at hs3
      rw [hs3, ← hs2]
      simp only [State.note, State.onAccept, lastBatch_concat, Strategy.completions_append, e5]
      refine ⟨trivial, e4, e3, ?_, trivial, trivial, by simp⟩
      simp [completions]
    obtain ⟨k1, k2, k3, k4, k5, k6, k7⟩ := hst'
    have hstage : w3.sys.st.phase = .initial ∧ w3.sys.st.batchQueue.length + (n + 1) = k ∨
        w3.sys.st.phase = .adaptive ∧ w3.sys.st.batchQueue ≠ [] ∧ w3.sys.st.batchQueue.length + (n + 1) = k + L.ncenters ∧
          ¬ (lastBatch w3.sys.st.log).Nodup := by
      rw [k1, k2, k5]
      rcases e7 with e7 | ⟨e7, e8, e9, e10⟩
      · exact .inl e7
      · right
        refine ⟨e7, ?_, e9, e10⟩
        rintro rfl
        have := complete_dup (c := L.cfg) hp hR2.loop.reach ha hrc (by rw [hkd, e8]) hq2 (by
          have := hR2.loop.reach.base.book.pending
          have h5 : w2.sys.props = [] ∧ w2.sys.recs.length = 1 := by rw [← hs2]; simp
          simp only [h5.1, h5.2, List.length_nil] at this
          simpa using this) (by rw [hl2]; exact e10) (f rc.x)
        rw [this] at hst3
        cases hst3
    have hn1 : n + 1 < k + L.ncenters := by
      have := hs.centers
      have : 0 < L.ncenters := this
      rcases hstage with ⟨_, h2⟩ | ⟨_, h1, h2, _⟩
      · omega
      · have := List.length_pos_iff.mpr h1; omega
    exact ih (fun r' hr' => hrs r' (by simp [hr'])) (by simp at hl; omega)
      ⟨hR3, k6, k7, k3, by rw [k4, List.length_append, h.count]; rfl, hstage⟩ hn1

/-- Synchronous mode on a problem with fewer feasible points than centers (integer variables): whatever the design, the objective,
the surrogate object and the random outcomes, every serial run raises when the evaluations of the first batch are completed, if not
before. -/
theorem C120_few_points_refuted (ok : ProbOk L.prob) (hs : SerialOk L.cfg) (hx : ∀ e ∈ L.base.extras, Feasible L.prob e.1)
    (ha : L.base.asynchronous = false)
    (hfew : ∀ l : List (Pt d), (∀ x ∈ l, Feasible L.prob x) → l.length = L.ncenters → ¬ l.Nodup)
    (hM : ((L.base.numPts + (unknown L.base.extras).length + L.ncenters : ℕ) : ℤ) ≤ L.base.maxEvals) (D : List (Pt d))
    (hD : DesignOf L.prob L.base.numPts D) (rs : List (SopObjSys d → SopRnd d))
    (hrs : ∀ r ∈ rs, ∀ W, SopObjReach L K f W → SopRndOk L (K W.calls) W.sop (r W))
    (hl : L.base.numPts + (unknown L.base.extras).length + L.ncenters ≤ rs.length) :
    sopObjSerial L K f rs (sopObjCreate L D) = none := by
  refine few_serial ok hs hx ha hfew hM rs hrs (n := 0) (by omega) ⟨.create D hD, rfl, rfl, ?_, ?_, .inl ⟨?_, ?_⟩⟩ ?_
  · simp [sopObjCreate, SopSys.create, Sys.create, create_eq, State.blank]
  · simp [sopObjCreate, SopSys.create, Sys.create, create_eq, completions]
  · simp [sopObjCreate, SopSys.create, Sys.create, create_eq, State.blank]
  · simp [sopObjCreate, SopSys.create, Sys.create, create_eq, unknown_eq, SopSetup.cfg]
  · have := hs.centers
    have : 0 < L.ncenters := this
    omega

/-! ## The RBF interpolant and the Gaussian process -/

theorem two_of_span (hd : 0 < d) {D : List (Pt d)} (hD : ¬ OnHyperplane D) : ∃ x ∈ D, ∃ y ∈ D, x ≠ y := by
  by_contra hcon
  push Not at hcon
  apply hD
  cases D with
  | nil => exact ⟨fun _ => 1, 0, fun h => by have := congrFun h ⟨0, hd⟩; simp at this, by simp⟩
  | cons x D =>
    refine ⟨fun _ => 1, ∑ j, 1 * x j, fun h => by have := congrFun h ⟨0, hd⟩; simp at this, fun y hy => ?_⟩
    rw [hcon y hy x (by simp)]

variable {eta : ℝ} {trans : List ℝ → List ℝ} {lu : ℕ → Surrogate.Mat → Surrogate.LuOut}
  {chol : ℕ → Surrogate.Mat → Option Surrogate.Mat} {hyp : List (List (Pt d) × List ℝ) → Surrogate.Hyper d}

/-- SOP with the default RBF interpolant, asynchronous mode, run by the serial controller: if the design is not on a hyperplane,
the whole run succeeds, for every objective and all random outcomes. -/
theorem C120_rbf_serial (ok : ProbOk L.prob) (hd : 0 < d) (hs : SerialOk L.cfg) (hx : ∀ e ∈ L.base.extras, Feasible L.prob e.1)
    (ha : L.base.asynchronous = true) (heta : 0 < eta) (hlu : Surrogate.LuSpec lu) (hchol : Surrogate.CholSpec chol) {M : ℕ}
    (hM : L.base.maxEvals = M) (D : List (Pt d)) (hD : DesignOf L.prob L.base.numPts D) (hn : ¬ OnHyperplane D)
    (rs : List (SopObjSys d → SopRnd d))
    (hrs : ∀ r ∈ rs, ∀ W, SopObjReach L (rbfObj (defaultPar L.prob eta trans lu chol)) f W →
      SopRndOk L (rbfObj (defaultPar L.prob eta trans lu chol) W.calls) W.sop (r W)) :
    ∃ W b, sopObjSerial L (rbfObj (defaultPar L.prob eta trans lu chol)) f rs (sopObjCreate L D) = some (W, b) ∧
      (completions W.sop.sys.st.log).length = min rs.length M ∧
      (∀ q ∈ completions W.sop.sys.st.log, q.2 = f q.1 ∧ Feasible L.prob q.1) ∧ (b = true ↔ M < rs.length) :=
  C120_serial_partial ok hs hx (rbf_answers (.inl rfl) _ _ ok.lt eta heta trans lu chol hlu hchol) hM D hD hn (two_of_span hd hn) rs
    fun r hr W hW => ⟨hrs r hr W hW, fun h => by rw [ha] at h; cases h⟩

/-- SOP with the Gaussian process, asynchronous mode, run by the serial controller: two different points in the design suffice. -/
theorem C120_gp_serial (ok : ProbOk L.prob) (hs : SerialOk L.cfg) (hx : ∀ e ∈ L.base.extras, Feasible L.prob e.1)
    (ha : L.base.asynchronous = true) {M : ℕ} (hM : L.base.maxEvals = M) (D : List (Pt d))
    (hD : DesignOf L.prob L.base.numPts D) (ht : ∃ x ∈ D, ∃ y ∈ D, x ≠ y) (rs : List (SopObjSys d → SopRnd d))
    (hrs : ∀ r ∈ rs, ∀ W, SopObjReach L (gpObj L.prob.lb L.prob.ub trans hyp) f W →
      SopRndOk L (gpObj L.prob.lb L.prob.ub trans hyp W.calls) W.sop (r W)) :
    ∃ W b, sopObjSerial L (gpObj L.prob.lb L.prob.ub trans hyp) f rs (sopObjCreate L D) = some (W, b) ∧
      (completions W.sop.sys.st.log).length = min rs.length M ∧
      (∀ q ∈ completions W.sop.sys.st.log, q.2 = f q.1 ∧ Feasible L.prob q.1) ∧ (b = true ↔ M < rs.length) :=
  C120_serial_partial (Bad := fun P => P = []) ok hs hx (gp_answers .srbf) hM D hD
    (by obtain ⟨x, hx, _⟩ := ht; exact List.ne_nil_of_mem hx) ht rs
    fun r hr W hW => ⟨hrs r hr W hW, fun h => by rw [ha] at h; cases h⟩

/-! ## The hypotheses are met -/

/-- All draws are the mean of their distribution, and all variables are perturbed. -/
def zeroRnd (D : List (Pt d)) : SopRnd d := ⟨D, fun _ => ⟨0, fun _ _ => 0, fun _ _ => 0, fun _ => 0⟩⟩

theorem zeroCands (ok : ProbOk L.prob) {S : Surr d} {s : State (Pt d)} {evals : List (SopRec d)} (he : ∀ r ∈ evals, 0 < r.sigma)
    (m : List ℕ) (cs : List (Center d)) (hc : ∀ ce ∈ cs, Feasible L.prob ce.xc) :
    CandsOk L S s evals cs (m.map (zeroRnd []).cands) := by
  induction m generalizing cs with
  | nil => trivial
  | cons a m ih =>
    intro ce rec hce hrec
    refine ⟨fun _ _ => ⟨le_refl (0 : ℝ), one_pos⟩, fun j i => ?_, fun x cs' _ hcs' => ?_⟩
    · have hσ : 0 ≤ scalefactors L.prob ((rec.sigma : ℚ) : ℝ) (List.finRange d) i := by
        have h1 := he rec (List.mem_of_getElem? hrec)
        have h2 : (0 : ℝ) < ((rec.sigma : ℚ) : ℝ) := by exact_mod_cast h1
        have h3 := ok.lt i
        simp only [scalefactors]
        split_ifs
        · exact le_max_of_le_right zero_le_one
        · exact mul_nonneg h2.le (by linarith)
      have hb := (hc ce (List.mem_of_find?_eq_some hce)).1 i
      show DrawOk _ _ _ i 0
      exact ⟨div_nonpos_of_nonpos_of_nonneg (by linarith [hb.1]) hσ, div_nonneg (by linarith [hb.2]) hσ⟩
    · exact ih cs' (assignPoint_centers hcs' (fun x _ => Feasible L.prob x) hc)

/-- These draws are possible in every state. -/
theorem zeroRnd_ok (ok : ProbOk L.prob) (hp : L.base.srbf = none) (hx : ∀ e ∈ L.base.extras, Feasible L.prob e.1) {S : Surr d}
    {w : SopSys d} (h : SopLoopReach L w) {D : List (Pt d)} (hD : DesignOf L.prob L.base.numPts D) : SopRndOk L S w (zeroRnd D) := by
  refine ⟨hD, fun z1 z2 h1 h2 => ?_⟩
  have hw := h.reach
  obtain ⟨e1, i1⟩ := firstRanks_keeps h1 (hw.cinv hp)
  have e2 := (updateCenterList_keeps h2).1
  have i2 := (updateCenterList_cinv h2 i1).1
  have e : z2.evals = w.sop.evals := by rw [e2, e1]
  refine zeroCands ok (fun r hr => ?_) _ _ (fun ce hce => ?_)
  · rw [(hw.evals_ok hp r (e ▸ hr)).sig]
    unfold radius0; positivity
  · obtain ⟨v, hv⟩ := i2.at_ ce hce
    refine (C90_feasible ok hp hx h).2.2.2.2.1 _ ?_
    rw [(C03_history hw.base).1, List.map_append]
    refine List.mem_append_right _ ?_
    have : archive z2 = archive w.sop := by unfold archive; rw [e]
    rw [this, (hw.inv hp).arch] at hv
    exact List.mem_map.mpr ⟨_, List.mem_of_getElem? hv, rfl⟩

/-- SOP on the unit interval, with a budget of ten evaluations. -/
noncomputable def sopWholeSetup (p : OptProb 1) (a : Bool) (n : ℕ) : SopSetup 1 :=
  { prob := p
    base := { asynchronous := a, batchSize := n, maxEvals := 10, useRestarts := false, numPts := 2, extras := [], srbf := none }
    ncenters := n }

/-- Asynchronous mode, RBF interpolant, twelve rounds: ten evaluations, then the end. -/
example (f : Pt 1 → Val) : ∃ (lu : ℕ → Surrogate.Mat → Surrogate.LuOut) (chol : ℕ → Surrogate.Mat → Option Surrogate.Mat)
    (W : SopObjSys 1), sopObjSerial (sopWholeSetup unitProb true 3) (rbfObj (defaultPar unitProb 1e-6 id lu chol)) f
      (List.replicate 12 fun _ => zeroRnd [fun _ => 0, fun _ => 1]) (sopObjCreate (sopWholeSetup unitProb true 3) [fun _ => 0, fun _ => 1]) =
        some (W, true) ∧ (completions W.sop.sys.st.log).length = 10 := by
  obtain ⟨lu, chol, h1, h2, _⟩ := Surrogate.exists_library
  have ok : ProbOk (sopWholeSetup unitProb true 3).prob := unitProb_ok
  have hspan : ¬ OnHyperplane [(fun _ => 0 : Pt 1), fun _ => 1] := by
    rintro ⟨w, c, hw, h⟩
    have e0 := h (fun _ => 0) (by simp)
    have e1 := h (fun _ => 1) (by simp)
    simp at e0 e1
    apply hw
    funext i
    rw [Subsingleton.elim i 0, e1, ← e0]; rfl
  obtain ⟨W, b, e, hc, _, hb⟩ := C120_rbf_serial (L := sopWholeSetup unitProb true 3) (f := f) (eta := 1e-6) (trans := id) (M := 10) ok
    one_pos ⟨rfl, by simp [sopWholeSetup, SopSetup.cfg], by simp [sopWholeSetup, SopSetup.cfg], .inl rfl, by simp [sopWholeSetup, SopSetup.cfg]⟩
    (by simp [sopWholeSetup]) rfl (by norm_num) h1 h2 rfl _ (design_unit _ rfl rfl) hspan
    (List.replicate 12 fun _ => zeroRnd [fun _ => 0, fun _ => 1])
    (fun r hr W hW => by
      rw [List.eq_of_mem_replicate hr]
      exact zeroRnd_ok ok rfl (by simp [sopWholeSetup]) hW.loop (design_unit _ rfl rfl))
  have : b = true := hb.mpr (by simp)
  subst this
  exact ⟨lu, chol, W, e, by rw [hc]; simp⟩

/-- Synchronous mode with three centers and one binary variable: every run raises in the fifth round, if not before, with every
surrogate object. -/
example (f : Pt 1 → Val) (K : Obj 1) (rs : List (SopObjSys 1 → SopRnd 1))
    (hrs : ∀ r ∈ rs, ∀ W, SopObjReach (sopWholeSetup bitProb false 3) K f W → SopRndOk (sopWholeSetup bitProb false 3) (K W.calls) W.sop (r W))
    (hl : 5 ≤ rs.length) :
    sopObjSerial (sopWholeSetup bitProb false 3) K f rs (sopObjCreate (sopWholeSetup bitProb false 3) [fun _ => 0, fun _ => 1]) = none := by
  refine C120_few_points_refuted bitProb_ok ⟨rfl, by simp [sopWholeSetup, SopSetup.cfg], by simp [sopWholeSetup, SopSetup.cfg], .inr rfl, by simp [sopWholeSetup, SopSetup.cfg]⟩
    (by simp [sopWholeSetup]) rfl ?_ (by simp [sopWholeSetup, unknown]) _ (design_unit _ rfl rfl) rs hrs
    (by simpa [sopWholeSetup, unknown] using hl)
  intro l hF hlen hnd
  have hsub : l ⊆ [fun _ => 0, fun _ => 1] := by
    intro x hx
    obtain ⟨hb, hi⟩ := hF x hx
    obtain ⟨z, hz⟩ := hi 0 (by simp [sopWholeSetup, bitProb])
    have hb := hb 0
    simp only [sopWholeSetup, bitProb, hz] at hb
    have h0 : (0 : ℤ) ≤ z := by exact_mod_cast hb.1
    have h1 : z ≤ 1 := by exact_mod_cast hb.2
    have hx0 : x = fun _ => (z : ℝ) := by funext i; rw [Subsingleton.elim i 0, hz]
    rcases (by omega : z = 0 ∨ z = 1) with rfl | rfl <;> simp [hx0]
  have := (hnd.subperm hsub).length_le
  simp [sopWholeSetup] at this hlen
  omega

end Verif.Props
