import Verif.Loop.Data
import Verif.Props.Ready
import Verif.Props.Exact
import Verif.Props.Serial
import Verif.Props.Loop
import Verif.Props.Arrived

/-! # Property C118: the strategy and its surrogate object never raise -/

namespace Verif.Props

open Verif.Num Verif.Utils Verif.Cand Verif.Design Verif.Strategy Verif.Spec Verif.Loop

variable {d : ℕ} {L : Setup d} {K : Obj d} {f : Pt d → Val}

/-- A condition on point sets that gets weaker when points are added: if a set is bad, so are its subsets.  (`OnHyperplane` for
surrogates with a linear tail.) -/
class Hereditary (Bad : List (Pt d) → Prop) : Prop where
  mono {A B : List (Pt d)} : A ⊆ B → Bad B → Bad A

variable {Bad : List (Pt d) → Prop} [Hereditary Bad]

/-- States of the program with the surrogate object `K` and the objective `f`: every schedule of proposals, answers,
completions, failures, crashes and resumes; the designs, of the start and of the restarts, are not `Bad`. -/
inductive ObjReach (Bad : List (Pt d) → Prop) (L : Setup d) (K : Obj d) (f : Pt d → Val) : ObjSys d → Prop
  | create (D : List (Pt d)) : DesignOf L.prob L.cfg.numPts D → ¬ Bad D → ObjReach Bad L K f (objCreate L D)
  | step {W W' : ObjSys d} (e : Ev d) : ObjReach Bad L K f W →
      (∀ r, e = .propose r → RndOk L W.sys.st r ∧ ¬ Bad r.design) → objStep L K f W e = some W' →
      ObjReach Bad L K f W'

/-- Method and configuration fit together: SRBF and DYCORS have a step control, EI and LCB have none. -/
def MethodOk (L : Setup d) : Prop :=
  match L.method with
  | .srbf | .dycors => L.cfg.srbf ≠ none
  | .ei _ _ | .lcb _ _ _ => L.cfg.srbf = none

/-- The surrogate object answers whenever it has data that are not `Bad`, and were not at an earlier prediction;
for EI and LCB also `predict_std`. -/
def Answers (Bad : List (Pt d) → Prop) (m : Method) (K : Obj d) : Prop :=
  ∀ (calls : List (Surrogate.Op d)) (D : List (Pt d × ℝ)), NoMultiColumn calls → dataOf d calls ≠ [] →
    ¬ Bad ((dataOf d calls).map Prod.fst) → ¬ Failed Bad calls →
    (K calls).mean D ≠ none ∧
    ((∃ t e, m = .ei t e) ∨ (∃ k t e, m = .lcb k t e) → (K calls).std D ≠ none)

theorem MethodOk.noSrbf (h : MethodOk L) : (∃ t e, L.method = .ei t e) ∨ (∃ k t e, L.method = .lcb k t e) → L.cfg.srbf = none := by
  unfold MethodOk at h
  rintro (⟨t, e, hm⟩ | ⟨k, t, e, hm⟩) <;> (rw [hm] at h; exact h)

theorem ObjReach.loop (hL : MethodOk L) {W : ObjSys d} (h : ObjReach Bad L K f W) : LoopReach L W.sys := by
  induction h with
  | create D hD _ => exact .create D hD
  | step e _ hr hs ih =>
    simp only [objStep, Option.map_eq_some_iff] at hs
    obtain ⟨w', hw, rfl⟩ := hs
    exact loopStep_reach hL.noSrbf ih e (fun r he => (hr r he).1) hw

/-- The object holds the data of the strategy; the design of the current run is not `Bad`. -/
structure ObjInv (Bad : List (Pt d) → Prop) (L : Setup d) (W : ObjSys d) : Prop where
  data : dataOf d W.calls = surrData W.sys.st
  cols : NoMultiColumn W.calls
  des : ¬ Bad (designs (thisRun W.sys.st.log))
  len : L.cfg.numPts ≤ (designs (thisRun W.sys.st.log)).length

theorem cols_append {a b : List (Surrogate.Op d)} (h1 : NoMultiColumn a) (h2 : NoMultiColumn b) : NoMultiColumn (a ++ b) := by
  intro xx fx h
  rcases List.mem_append.mp h with h | h
  · exact h1 _ _ h
  · exact h2 _ _ h

theorem cols_known (E : List (Pt d × Val)) : NoMultiColumn (E.map addKnown) := by
  intro xx fx h
  obtain ⟨e, _, he⟩ := List.mem_map.mp h
  simp only [addKnown, Surrogate.Op.add.injEq] at he
  rw [← he.2]
  trivial

theorem cols_add (E : List (Pt d × Val)) : NoMultiColumn (E.map fun e => addCall e.1 e.2) := by
  intro xx fx h
  obtain ⟨e, _, he⟩ := List.mem_map.mp h
  simp only [addCall, Surrogate.Op.add.injEq] at he
  rw [← he.2]
  trivial

theorem cols_sample (cfg : Config (Pt d)) (s : State (Pt d)) : NoMultiColumn (sampleCalls cfg s) := by
  unfold sampleCalls
  by_cases hX : s.X = []
  · rw [if_pos hX]; exact cols_append (a := [.reset]) (by intro xx fx h; simp at h) (cols_known _)
  · rw [if_neg hX]; intro xx fx h; simp at h

theorem dataOf_addCalls (c : List (Surrogate.Op d)) (E : List (Pt d × Val)) :
    dataOf d (c ++ E.map fun e => addCall e.1 e.2) = dataOf d c ++ E.map fun e => (e.1, ((e.2 : ℚ) : ℝ)) := by
  induction E using List.reverseRecOn with
  | nil => simp
  | append_singleton E e ih =>
    rw [List.map_append, ← List.append_assoc, List.map_singleton, dataOf_addCall, ih]
    simp

theorem ObjReach.inv (ok : ProbOk L.prob) {W : ObjSys d} (h : ObjReach Bad L K f W) : ObjInv Bad L W := by
  induction h with
  | create D hD hn =>
    refine ⟨?_, ?_, ?_, ?_⟩
    · have := dataOf_known ([.reset] : List (Surrogate.Op d)) (knownExtras L.cfg)
      simp only [List.singleton_append] at this
      simp only [objCreate, this, surrData, Sys.create, create_eq]
      rfl
    · exact cols_append (a := [.reset]) (by intro xx fx h; simp at h) (cols_known _)
    · refine fun hh => hn (Hereditary.mono ?_ hh)
      simp only [objCreate, Sys.create, create_eq, thisRun, designs, List.foldl_cons, List.foldl_nil, thisRunStep,
        List.flatMap_cons, List.flatMap_nil, List.append_nil]
      refine List.Subset.trans ?_ (List.subset_append_left _ _)
      show D ⊆ (List.range L.cfg.numPts).map fun i => D.getD i L.prob.lb
      rw [map_getD_range (hD.spec ok).1]
      exact fun x hx => hx
    · simp [objCreate, Sys.create, create_eq, thisRun, designs, thisRunStep]
  | @step W W' e _ hr hs ih =>
    cases objStep_moved hs with
    | same m pre add hl hm hs hx hpre hc =>
      refine ⟨?_, ?_, ?_, ?_⟩
      · rw [hc, dataOf_addCalls]
        have : dataOf d (W.calls ++ pre) = dataOf d W.calls := by
          rcases hpre with rfl | ⟨rfl, _⟩
          · simp
          · exact dataOf_predict _ _
        rw [this, ih.data, surrData, surrData, hs, List.map_append]
      · rw [hc]
        refine cols_append (cols_append ih.cols ?_) (cols_add _)
        rcases hpre with rfl | ⟨rfl, _⟩ <;> (intro xx fx h; simp at h)
      · rw [hl, thisRun_plain _ _ hm, designs_append, designs_plain m hm, List.append_nil]
        exact ih.des
      · rw [hl, thisRun_plain _ _ hm, designs_append, designs_plain m hm, List.append_nil]
        exact ih.len
    | restart r he q ev ev' pre hl hm hq hs hpre hc =>
      refine ⟨?_, ?_, ?_, ?_⟩
      · rw [hc, sampleCalls, dataOf_reset, surrData, hs]
        split_ifs with hX
        · have := dataOf_known ([] : List (Surrogate.Op d)) (knownExtras L.cfg)
          exact this
        · rfl
      · rw [hc]
        refine cols_append (cols_append ih.cols ?_) (cols_sample _ _)
        rcases hpre with rfl | ⟨rfl, _⟩ <;> (intro xx fx h; simp at h)
      · refine fun hh => (hr r he).2 (Hereditary.mono ?_ hh)
        rw [hl, thisRun_plain _ _ hm, designs_append, designs_plain ev' hm, List.append_nil, thisRun_concat]
        rw [map_getD_range ((hr r he).1.1.spec ok).1] at hq
        simpa [thisRunStep, designs] using hq
      · rw [hl, thisRun_plain _ _ hm, designs_append, designs_plain ev' hm, List.append_nil, thisRun_concat]
        have hsp := (hr r he).1.1.spec ok
        rw [map_getD_range hsp.1] at hq
        have : r.design.length ≤ q.length := (hsp.2.1.subperm hq).length_le
        simpa [thisRunStep, designs, hsp.1] using this

/-! ## The answer of the auxiliary problem -/

theorem answer_some (ok : ProbOk L.prob) (hs : Sane L.cfg) (hL : MethodOk L) (hK : Answers Bad L.method K) {W : ObjSys d} (h : ObjReach Bad L K f W)
    (hx : ¬ Bad W.sys.st.curX) (hne : W.sys.st.curX ≠ []) (hff : ¬ Failed Bad W.calls)
    (n : ℕ) (r : Rnd d) : gen L (K W.calls) W.sys.st n r ≠ none := by
  have hi := h.inv ok
  have hre := (h.loop hL).reach
  obtain ⟨cur, e1, e2, e3, e4, _⟩ := hre.cur.data
  have hsub : W.sys.st.curX ⊆ (dataOf d W.calls).map Prod.fst := by
    rw [hi.data, surrData, e3, e1]
    intro x hx
    simp only [List.map_map, List.map_append]
    exact List.mem_append_right _ hx
  have hdne : dataOf d W.calls ≠ [] := by
    intro h0
    obtain ⟨x, hx⟩ := List.exists_mem_of_ne_nil _ hne
    have := hsub hx
    rw [h0] at this
    simp at this
  obtain ⟨hm, hstd⟩ := hK W.calls (surrData W.sys.st) hi.cols hdne
    (fun hh => hx (Hereditary.mono hsub hh)) hff
  obtain ⟨pred, hpred⟩ := Option.ne_none_iff_exists'.mp hm
  unfold gen
  cases hX : W.sys.st.curX with
  | nil => exact absurd hX hne
  | cons x0 xs =>
    have hlen : W.sys.st.curFX.length = xs.length + 1 := by
      have : W.sys.st.curX.length = W.sys.st.curFX.length := by rw [e1, e2]; simp
      rw [← this, hX]; rfl
    have hfX : W.sys.st.fX ≠ [] := by
      intro h0
      have hcl := hre.book.fX
      rw [h0] at hcl
      have h1 := (List.append_eq_nil_iff.1 hcl.symm).2
      simp only [List.map_eq_nil_iff] at h1
      have h2 : currentRun W.sys.st.log = [] := by
        rw [currentRun, List.filterMap_eq_nil_iff]
        intro e he
        cases e with
        | completed x k v a =>
          exfalso
          have : (x, v) ∈ completions W.sys.st.log := List.mem_filterMap.mpr ⟨_, he, rfl⟩
          rw [h1] at this
          simp at this
        | _ => rfl
      rw [h2, List.sublist_nil] at e4
      rw [e4] at e1
      exact hne e1
    simp only
    rw [dif_pos ⟨hlen, hfX⟩]
    generalize (fun i : Fin (xs.length + 1) => ((W.sys.st.curFX[i]'(by rw [hlen]; exact i.2) : ℚ) : ℝ)) = fX
    unfold genWith
    have hsr : ∀ sc, L.cfg.srbf = some sc → ∃ z ws nx, W.sys.st.srbf = some z ∧
        getWeights sc.weights z.nextWeight n = some (ws, nx) := by
      intro sc hsc
      obtain ⟨⟨z, hz, hnw⟩, _⟩ := hre.weights hsc
      have hl : 0 < sc.weights.length := List.length_pos_iff.2 (hs.weights sc hsc)
      obtain ⟨l, nx, hw⟩ := getWeights_some (ws := sc.weights) (next := z.nextWeight) n
        (by rw [hnw]; exact Nat.mod_lt _ hl)
      exact ⟨z, l, nx, hz, hw⟩
    have hm := hL
    unfold MethodOk at hm
    cases hme : L.method with
    | srbf =>
      rw [hme] at hm
      obtain ⟨sc, hsc⟩ := Option.ne_none_iff_exists'.mp hm
      obtain ⟨z, ws, nx, hz, hw⟩ := hsr sc hsc
      simp only [hsc, hz, hpred, hw, Option.map_some]
      simp
    | dycors =>
      rw [hme] at hm
      obtain ⟨sc, hsc⟩ := Option.ne_none_iff_exists'.mp hm
      obtain ⟨z, ws, nx, hz, hw⟩ := hsr sc hsc
      simp only [hsc, hz, hpred, hw, Option.bind_some]
      rw [Ne, Option.map_eq_none_iff]
      unfold candidateDycors
      simp only
      rw [dif_pos]
      · simp
      · intro j
        obtain ⟨y, hy, _⟩ := dycorsCand_prefix (xbestOf (fun i => (x0 :: xs)[i]) fX)
          (scalefactors L.prob ((z.radius : ℚ) : ℝ) (List.finRange d)) (List.finRange d) (fun i h => by simp)
          (dycorsMask (List.finRange d).length (probOf (State.perturbProb L.cfg d W.sys.st)) (r.u j) (r.forced j)) (r.draws j)
        rw [hy]; rfl
    | ei t e =>
      obtain ⟨sd, hsd⟩ := Option.ne_none_iff_exists'.mp (hstd (.inl ⟨t, e, hme⟩))
      simp [hpred, hsd]
    | lcb k t e =>
      obtain ⟨sd, hsd⟩ := Option.ne_none_iff_exists'.mp (hstd (.inr ⟨k, t, e, hme⟩))
      simp [hpred, hsd]

theorem sample_reset (cfg : Config (Pt d)) (s : State (Pt d)) :
    Surrogate.Op.reset ∈ sampleCalls cfg s ∧ ∀ x, Surrogate.Op.predict x ∉ sampleCalls cfg s := by
  unfold sampleCalls
  refine ⟨by simp, fun x hx => ?_⟩
  split at hx <;> simp [addKnown] at hx

theorem data_curX (hL : MethodOk L) (ok : ProbOk L.prob) {W : ObjSys d} (h : ObjReach Bad L K f W) :
    W.sys.st.curX ⊆ (dataOf d W.calls).map Prod.fst := by
  obtain ⟨cur, e1, e2, e3, e4, _⟩ := (h.loop hL).reach.cur.data
  rw [(h.inv ok).data, surrData, e3, e1]
  intro x hx
  simp only [List.map_map, List.map_append]
  exact List.mem_append_right _ hx

/-- One event: no failed fit as long as predictions are made with the whole design. -/
theorem step_noFail (hL : MethodOk L) (ok : ProbOk L.prob) {W W' : ObjSys d} {e : Ev d} (h : ObjReach Bad L K f W)
    (hs : objStep L K f W e = some W') (hff : ¬ Failed Bad W.calls)
    (hw : wantsPoints L.cfg W.sys.st → designs (thisRun W.sys.st.log) ⊆ W.sys.st.curX) : ¬ Failed Bad W'.calls := by
  cases objStep_moved hs with
  | same m pre add hl hm hs hx hpre hc =>
    rw [hc]
    intro hf
    obtain ⟨_, hf⟩ := failed_append hf (by simp [addCall])
    rcases hpre with rfl | ⟨rfl, hwp, _⟩
    · exact hff (by simpa using hf)
    · obtain ⟨_, hf | ⟨_, _, _, hf⟩⟩ := failed_snoc hf
      · exact hff hf
      · exact (h.inv ok).des (Hereditary.mono (List.Subset.trans (hw hwp) (data_curX hL ok h)) hf)
  | restart r he q ev ev' pre hl hm hq hs hpre hc =>
    rw [hc]
    intro hf
    obtain ⟨h1, h2⟩ := sample_reset L.cfg W.sys.st
    exact (failed_append hf h2).1 h1

theorem sync_asked (ha : L.cfg.asynchronous = false) {w : Sys (Pt d)} (h : Reach L.cfg w) (hw : wantsPoints L.cfg w.st)
    (hd : droppedBy false (thisRun w.st.log) = []) (hc : crashedBy (thisRun w.st.log) = []) :
    designs (thisRun w.st.log) ⊆ w.st.curX := by
  obtain ⟨_, _, _, hq, hp⟩ := hw
  have hp : w.st.pendingEvals = 0 := by simpa [ha] using hp
  have h1 := h.runLedger.asked hq (.inl ha)
  rw [h.runLedger.idle hp, ha, hd, hc] at h1
  simp only [List.append_nil] at h1
  exact ((List.sublist_append_left _ _).subperm.trans h1).subset

theorem sync_noFail (hL : MethodOk L) (ok : ProbOk L.prob) (ha : L.cfg.asynchronous = false) {W : ObjSys d}
    (h : ObjReach Bad L K f W) (hd : droppedBy false (thisRun W.sys.st.log) = []) (hc : crashedBy (thisRun W.sys.st.log) = []) :
    ¬ Failed Bad W.calls := by
  induction h with
  | create D hD hn =>
    intro hf
    have hf : Failed Bad ([] ++ (objCreate L D).calls) := hf
    obtain ⟨_, o₁, x, o₂, he, _⟩ := failed_append hf (by simp [objCreate, addKnown])
    simp at he
  | @step W W' e h hr hs ih =>
    cases objStep_moved hs with
    | same m pre add hl hm _ _ _ _ =>
      rw [hl, thisRun_plain _ _ hm, droppedBy_append, List.append_eq_nil_iff] at hd
      rw [hl, thisRun_plain _ _ hm, crashedBy_append, List.append_eq_nil_iff] at hc
      exact step_noFail hL ok h hs (ih hd.1 hc.1) fun hw => sync_asked ha (h.loop hL).reach hw hd.1 hc.1
    | restart r he q ev ev' pre hl hm hq _ hpre hc' =>
      rw [hc']
      intro hf
      obtain ⟨h1, h2⟩ := sample_reset L.cfg W.sys.st
      exact (failed_append hf h2).1 h1

theorem covered (ok : ProbOk L.prob) (hs : Sane L.cfg) {W : ObjSys d} (h : ObjReach Bad L K f W)
    (hx : designs (thisRun W.sys.st.log) ⊆ W.sys.st.curX) : ¬ Bad W.sys.st.curX ∧ W.sys.st.curX ≠ [] := by
  refine ⟨fun hb => (h.inv ok).des (Hereditary.mono hx hb), fun h0 => ?_⟩
  rw [h0] at hx
  have := (h.inv ok).len
  rw [List.subset_nil.mp hx] at this
  have := hs.design
  simp at *
  omega

theorem propose_some (ok : ProbOk L.prob) (hs : Sane L.cfg) (hL : MethodOk L) (hK : Answers Bad L.method K) {W : ObjSys d}
    (h : ObjReach Bad L K f W) (hff : ¬ Failed Bad W.calls)
    (hw : wantsPoints L.cfg W.sys.st → ¬ Bad W.sys.st.curX ∧ W.sys.st.curX ≠ []) (r : Rnd d) :
    ∃ g a s' W', answer L (K W.calls) W.sys.st r = some g ∧
      W.sys.st.proposeAction L.cfg (oracleOf L r.design g) = some (a, s') ∧
      objStep L K f W (.propose r) = some W' ∧ W.sys.step L.cfg (.propose (oracleOf L r.design g)) = some W'.sys := by
  have hg : answer L (K W.calls) W.sys.st r ≠ none := by
    unfold answer
    split_ifs with hwp
    · exact answer_some ok hs hL hK h (hw hwp).1 (hw hwp).2 hff _ r
    · simp
  obtain ⟨g, hg⟩ := Option.ne_none_iff_exists'.mp hg
  obtain ⟨a, s', ha, _⟩ := C11_answer hs (h.loop hL).reach (oracleOf L r.design g)
  have : ∃ w', W.sys.step L.cfg (.propose (oracleOf L r.design g)) = some w' := by
    simp only [Sys.step, ha]
    cases a <;> exact ⟨_, rfl⟩
  obtain ⟨w', hw'⟩ := this
  refine ⟨g, a, s', ⟨w', W.calls ++ callsOf L f W.sys w' (.propose r)⟩, hg, ha, ?_, hw'⟩
  simp only [objStep, loopStep, hg, Option.bind_some, hw', Option.map_some]

/-- Every schedule: the calls the strategy makes leave in the object exactly the data of the current run: the results of the
evaluations accepted after the last restart during which the sampling radius was not changed, in the order of completion, and
before them the extra points with known value until the first restart. -/
theorem C118_data (hL : MethodOk L) (ok : ProbOk L.prob) {W : ObjSys d} (h : ObjReach Bad L K f W) :
    NoMultiColumn W.calls ∧ dataOf d W.calls = ((if restarted W.sys.st.log then [] else known L.cfg.extras) ++
      arrived W.sys.st.log).map fun e => (e.1, ((e.2 : ℚ) : ℝ)) := by
  refine ⟨(h.inv ok).cols, ?_⟩
  rw [(h.inv ok).data, surrData, (C14_exact (h.loop hL).reach).2.2]

/-- Both modes, any number of workers, any schedule with aborted, killed and lost evaluations, any objective: if the points
evaluated in this run are not `Bad`, and were not at an earlier prediction of this run, `propose_action` does not raise. -/
theorem C118_any (ok : ProbOk L.prob) (hs : Sane L.cfg) (hL : MethodOk L) (hK : Answers Bad L.method K)
    {W : ObjSys d} (h : ObjReach Bad L K f W) (hne : W.sys.st.curX ≠ []) (hb : ¬ Bad W.sys.st.curX)
    (hff : ¬ Failed Bad W.calls) (r : Rnd d) : objStep L K f W (.propose r) ≠ none := by
  obtain ⟨_, _, _, W', _, _, h1, _⟩ := propose_some ok hs hL hK h hff (fun _ => ⟨hb, hne⟩) r
  rw [h1]; simp

/-- Synchronous mode, any surrogate object that answers for data that are not `Bad`, any number of workers, any schedule, any
objective: as long as no adaptive evaluation of this run was aborted and none was lost in a crash, `propose_action` does not
raise. -/
theorem C118_sync (ok : ProbOk L.prob) (hs : Sane L.cfg) (hL : MethodOk L) (hK : Answers Bad L.method K)
    (ha : L.cfg.asynchronous = false) {W : ObjSys d} (h : ObjReach Bad L K f W)
    (hd : droppedBy false (thisRun W.sys.st.log) = []) (hc : crashedBy (thisRun W.sys.st.log) = []) (r : Rnd d) :
    objStep L K f W (.propose r) ≠ none := by
  obtain ⟨_, _, _, W', _, _, h1, _⟩ := propose_some ok hs hL hK h (sync_noFail hL ok ha h hd hc)
    (fun hw => covered ok hs h (sync_asked ha (h.loop hL).reach hw hd hc)) r
  rw [h1]; simp

/-! ## The serial run -/

/-- Between two rounds of the serial loop, after `n` evaluations: every point of the design of this run is evaluated or queued. -/
structure Round (Bad : List (Pt d) → Prop) (L : Setup d) (K : Obj d) (f : Pt d → Val) (n : ℕ) (W : ObjSys d) : Prop where
  reach : ObjReach Bad L K f W
  at_ : AtRound L.cfg f n W.sys
  noFail : ¬ Failed Bad W.calls
  cov : ∀ y ∈ designs (thisRun W.sys.st.log), y ∈ W.sys.st.batchQueue ∨ y ∈ W.sys.st.curX

theorem Round.covers {n : ℕ} {W : ObjSys d} (h : Round Bad L K f n W) (hw : wantsPoints L.cfg W.sys.st) :
    designs (thisRun W.sys.st.log) ⊆ W.sys.st.curX := by
  intro y hy
  rcases h.cov y hy with h1 | h1
  · rw [hw.2.2.2.1] at h1; simp at h1
  · exact h1

theorem Round.next (ok : ProbOk L.prob) (hs : Sane L.cfg) (hr : L.cfg.useRestarts = true) (hL : MethodOk L)
    (hK : Answers Bad L.method K) {M : ℕ} (hM : L.cfg.maxEvals = M) {n : ℕ} {W : ObjSys d} (h : Round Bad L K f n W) (r : Rnd d)
    (hrnd : RndOk L W.sys.st r ∧ ¬ Bad r.design) :
    (n < M → ∃ W1 W2 W3, objStep L K f W (.propose r) = some W1 ∧ W1.sys.st.log.getLast? ≠ some .terminated ∧
      objStep L K f W1 (.accept 0) = some W2 ∧ objStep L K f W2 (.complete 0) = some W3 ∧ Round Bad L K f (n + 1) W3) ∧
    (M ≤ n → ∃ W1, objStep L K f W (.propose r) = some W1 ∧ W1.sys.st.log.getLast? = some .terminated ∧
      completions W1.sys.st.log = completions W.sys.st.log ∧ W1.sys.inflight = []) := by
  obtain ⟨g, a, s', W1, hg, ha, hW1, hst⟩ := propose_some ok hs hL hK h.reach h.noFail (fun hw => covered ok hs h.reach (h.covers hw)) r
  have hi : W.sys.inflight = [] := by simp [Sys.inflight, h.at_.props, h.at_.recs]
  obtain ⟨a', s'', ha', h1, h2⟩ := C80_next hs hr (by omega) h.at_.reach h.at_.clean hi (oracleOf L r.design g)
  rw [ha] at ha'
  simp only [Option.some.injEq, Prod.mk.injEq] at ha'
  obtain ⟨rfl, rfl⟩ := ha'
  rw [h.at_.count] at h1 h2
  refine ⟨fun hlt => ?_, fun hge => ?_⟩
  · obtain ⟨x, k, rfl⟩ := h1 (by omega)
    obtain ⟨w3, hw3, hat⟩ := h.at_.round ha
    have hR1 : ObjReach Bad L K f W1 := .step _ h.reach (fun r' he => by cases he; exact hrnd) hW1
    have hF1 := step_noFail hL ok h.reach hW1 h.noFail h.covers
    -- the single states
    have e1 : W1.sys = { W.sys with st := s'.note (.proposed x k), props := W.sys.props ++ [{ x := x, kind := k }] } := by
      simp only [Sys.step, ha, Option.some.injEq] at hst
      exact hst.symm
    have hlt1 : s'.evLast < s'.evNext := by
      have := (hR1.loop hL).reach.ids.lt
      rw [e1] at this
      exact this
    -- acceptance
    obtain ⟨w2, hw2⟩ : ∃ w2 : Sys (Pt d), w2 = ⟨((s'.note (.proposed x k)).note (.accepted x k s'.evNext)).onAccept, [],
      [⟨x, k, s'.evNext, (s'.note (.proposed x k)).log.length⟩]⟩ := ⟨_, rfl⟩
    have hs2 : W1.sys.step L.cfg (.accept 0) = some w2 := by
      rw [e1]
      simp only [Sys.step, h.at_.props, h.at_.recs, List.nil_append, List.getElem?_cons_zero, List.eraseIdx_cons_zero, hw2]
      rfl
    have ho2 : objStep L K f W1 (.accept 0) = some ⟨w2, W1.calls⟩ := by
      simp only [objStep, loopStep, hs2, Option.map_some, callsOf, List.append_nil]
    have hR2 : ObjReach Bad L K f ⟨w2, W1.calls⟩ := .step _ hR1 (fun r' he => by cases he) ho2
    -- completion
    obtain ⟨ev, hev⟩ : ∃ ev : Event (Pt d), ev = .completed x k (f x) (s'.note (.proposed x k)).log.length := ⟨_, rfl⟩
    obtain ⟨c1, c2, c3, m, c4, c5⟩ := onCompleted_kept (cfg := L.cfg) (w2.st.note ev) x k (f x) s'.evNext
    have hs3 : w2.step L.cfg (.complete 0 (f x)) =
        some ⟨(w2.st.note ev).onCompleted L.cfg x k (f x) s'.evNext, [], []⟩ := by
      simp only [Sys.step, hw2, hev, List.getElem?_cons_zero, List.eraseIdx_cons_zero]
    have hsteps : w3 = ⟨(w2.st.note ev).onCompleted L.cfg x k (f x) s'.evNext, [], []⟩ := by
      have := hw3
      simp only [Sys.steps] at this
      rw [hst] at this
      simp only [hs2, hs3, Option.some.injEq] at this
      exact this.symm
    rw [← hsteps] at hs3
    obtain ⟨c, hc3⟩ : ∃ c, objStep L K f ⟨w2, W1.calls⟩ (.complete 0) = some ⟨w3, c⟩ := by
      refine ⟨W1.calls ++ callsOf L f w2 w3 (.complete 0), ?_⟩
      simp only [objStep, loopStep]
      have : w2.recs[0]? = some ⟨x, k, s'.evNext, (s'.note (.proposed x k)).log.length⟩ := by rw [hw2]; rfl
      rw [this]
      simp only [Option.bind_some, hs3, Option.map_some]
    have hR3 : ObjReach Bad L K f ⟨w3, c⟩ := .step _ hR2 (fun r' he => by cases he) hc3
    -- no failed fit
    have hF2 : ¬ Failed Bad W1.calls := hF1
    have hF3 : ¬ Failed Bad c := by
      have hm3 := objStep_moved hc3
      cases hm3 with
      | same m' pre add hl hm hs' hx hpre hcc =>
        have : pre = [] := by
          rcases hpre with h0 | ⟨_, _, r', he⟩
          · exact h0
          · cases he
        subst this
        intro hf
        have hcc : c = W1.calls ++ [] ++ add.map fun e => addCall e.1 e.2 := hcc
        rw [hcc] at hf
        obtain ⟨_, hf⟩ := failed_append hf (by simp [addCall])
        exact hF2 (by simpa using hf)
      | restart r' he => cases he
    refine ⟨W1, ⟨w2, W1.calls⟩, ⟨w3, c⟩, hW1, ?_, ho2, hc3, hR3, hat, hF3, ?_⟩
    · rw [e1]
      simp [State.note]
    · have hq3 : w3.st.batchQueue = s'.batchQueue := by
        rw [hsteps]; show (State.onCompleted _ _ _ _ _ _).batchQueue = _
        rw [c3, hw2]; rfl
      have hx3 : w3.st.curX = s'.curX ++ [x] := by
        rw [hsteps]; show (State.onCompleted _ _ _ _ _ _).curX = _
        rw [c2, hw2]; exact if_pos hlt1
      obtain ⟨m3, hm3, hl3⟩ : ∃ m3, NoStart m3 ∧ w3.st.log = s'.log ++ m3 := by
        refine ⟨[.proposed x k] ++ [.accepted x k s'.evNext] ++ [ev] ++ m, ?_, ?_⟩
        · rw [hev]
          refine (((NoStart.one (by simp) (by simp)).append (.one (by simp) (by simp))).append (.one (by simp) (by simp))).append
            fun e he => ?_
          rcases c5 e he with ⟨g', rfl⟩ | rfl <;> exact ⟨by simp, by simp⟩
        · rw [hsteps]; show (State.onCompleted _ _ _ _ _ _).log = _
          rw [c4, hw2]
          simp [State.note, State.onAccept]
      show ∀ y ∈ designs (thisRun w3.st.log), y ∈ w3.st.batchQueue ∨ y ∈ w3.st.curX
      rw [hq3, hx3, hl3, thisRun_plain _ _ hm3, designs_append, designs_plain m3 hm3, List.append_nil]
      intro y hy
      have hfin : (y ∈ s'.batchQueue ∨ ∃ k', Action.eval x k = Action.eval y k') ∨ y ∈ s'.curX := by
        cases proposeAction_kept ha with
        | same mk hl hm hs' hx hq =>
          rw [hl, thisRun_plain _ _ (OnlyGenerated.noStart hm), designs_append,
            designs_plain mk (OnlyGenerated.noStart hm), List.append_nil] at hy
          rcases h.cov y hy with h1 | h1
          · exact .inl (hq y h1)
          · exact .inr (by rw [hx]; exact h1)
        | restart mk q hd hl hm hs' hx hq =>
          rw [hl, thisRun_concat] at hy
          exact .inl (hq y (by simpa [thisRunStep, designs] using hy))
      rcases hfin with (h1 | ⟨k', h1⟩) | h1
      · exact .inl h1
      · cases h1; exact .inr (by simp)
      · exact .inr (by simp [h1])
  · obtain rfl := h2 (by omega)
    have e1 : W1.sys = { W.sys with st := s'.note .terminated } := by
      simp only [Sys.step, ha, Option.some.injEq] at hst
      exact hst.symm
    refine ⟨W1, hW1, ?_, ?_, ?_⟩
    · rw [e1]; simp [State.note]
    · rw [e1]
      simp only [State.note, completions_append, (proposeAction_ext ha).completions]
      simp [completions]
    · rw [e1]; exact hi

theorem Round.start (ok : ProbOk L.prob) {D : List (Pt d)} (hD : DesignOf L.prob L.cfg.numPts D) (hn : ¬ Bad D) :
    Round Bad L K f 0 (objCreate L D) where
  reach := .create D hD hn
  at_ := by
    refine ⟨.create _, rfl, rfl, ?_, ?_, ?_⟩ <;> simp [objCreate, Sys.create, State.create, completions, isLoss]
  noFail := by
    intro hf
    have hf : Failed Bad ([] ++ (objCreate L D).calls) := hf
    obtain ⟨_, o₁, x, o₂, he, _⟩ := failed_append hf (by simp [objCreate, addKnown])
    simp at he
  cov := by
    intro y hy
    left
    simpa [objCreate, Sys.create, create_eq, thisRun, thisRunStep, designs] using hy

theorem objSerial_going {r : State (Pt d) → Rnd d} {rs : List (State (Pt d) → Rnd d)} {W W1 W2 W3 : ObjSys d}
    (e1 : objStep L K f W (.propose (r W.sys.st)) = some W1) (e2 : W1.sys.st.log.getLast? ≠ some .terminated)
    (e3 : objStep L K f W1 (.accept 0) = some W2) (e4 : objStep L K f W2 (.complete 0) = some W3) :
    objSerial L K f (r :: rs) W = objSerial L K f rs W3 := by
  rw [objSerial, e1, Option.bind_some]
  generalize W1.sys.st.log.getLast? = o at e2
  rw [e3, Option.bind_some, e4, Option.bind_some]
  cases o with
  | none => rfl
  | some e => cases e <;> first | rfl | exact absurd rfl e2

theorem objSerial_from (ok : ProbOk L.prob) (hs : Sane L.cfg) (hr : L.cfg.useRestarts = true) (hL : MethodOk L)
    (hK : Answers Bad L.method K) {M : ℕ} (hM : L.cfg.maxEvals = M) (rs : List (State (Pt d) → Rnd d))
    (hrs : ∀ r ∈ rs, ∀ W, ObjReach Bad L K f W → RndOk L W.sys.st (r W.sys.st) ∧ ¬ Bad (r W.sys.st).design)
    {n : ℕ} {W : ObjSys d} (hn : n ≤ M) (h : Round Bad L K f n W) :
    ∃ W' b, objSerial L K f rs W = some (W', b) ∧ ObjReach Bad L K f W' ∧ W'.sys.inflight = [] ∧
      (completions W'.sys.st.log).length = min (n + rs.length) M ∧ (∀ q ∈ completions W'.sys.st.log, q.2 = f q.1) ∧
      (b = true ↔ M < n + rs.length) := by
  induction rs generalizing n W with
  | nil =>
    refine ⟨W, false, rfl, h.reach, by simp [Sys.inflight, h.at_.props, h.at_.recs], ?_, h.at_.values, ?_⟩
    · rw [h.at_.count]; simp [hn]
    · simpa using hn
  | cons r rs ih =>
    have hrnd := hrs r (by simp) W h.reach
    obtain ⟨h1, h2⟩ := h.next ok hs hr hL hK hM (r W.sys.st) hrnd
    rcases Nat.lt_or_ge n M with hlt | hge
    · obtain ⟨W1, W2, W3, e1, e2, e3, e4, hR⟩ := h1 hlt
      obtain ⟨W', b, hw', hA, hi, hc, hv, hb⟩ := ih (fun r hr => hrs r (by simp [hr])) (by omega) hR
      refine ⟨W', b, ?_, hA, hi, ?_, hv, ?_⟩
      · rw [objSerial_going e1 e2 e3 e4]; exact hw'
      · rw [hc]; simp; omega
      · rw [hb]; simp; omega
    · have hnM : n = M := by omega
      obtain ⟨W1, e1, e2, e3, e4⟩ := h2 hge
      have hR1 : ObjReach Bad L K f W1 := .step _ h.reach (fun r' he => by cases he; exact hrnd) e1
      refine ⟨W1, true, ?_, hR1, e4, ?_, ?_, ?_⟩
      · simp only [objSerial, e1, Option.bind_some, e2]
      · rw [e3, h.at_.count]; simp; omega
      · rw [e3]; exact h.at_.values
      · simp [hnM]

/-- A serial run of SRBF, DYCORS, EI or LCB with restarts, in both modes, with a surrogate object that answers for data that
are not `Bad`, for every objective, all random outcomes and all designs that are not `Bad`: the run never raises and
never stalls, evaluates exactly `max_evals` points, all of them feasible, and ends. -/
theorem C118_serial (ok : ProbOk L.prob) (hs : Sane L.cfg) (hr : L.cfg.useRestarts = true)
    (hL : MethodOk L) (hx : ∀ e ∈ L.cfg.extras, Feasible L.prob e.1) (hK : Answers Bad L.method K) {M : ℕ}
    (hM : L.cfg.maxEvals = M) (D : List (Pt d)) (hD : DesignOf L.prob L.cfg.numPts D) (hn : ¬ Bad D)
    (rs : List (State (Pt d) → Rnd d))
    (hrs : ∀ r ∈ rs, ∀ W, ObjReach Bad L K f W → RndOk L W.sys.st (r W.sys.st) ∧ ¬ Bad (r W.sys.st).design) :
    ∃ W b, objSerial L K f rs (objCreate L D) = some (W, b) ∧
      (completions W.sys.st.log).length = min rs.length M ∧
      (∀ q ∈ completions W.sys.st.log, q.2 = f q.1 ∧ Feasible L.prob q.1) ∧ (b = true ↔ M < rs.length) := by
  obtain ⟨W, b, h1, h2, h3, h4, h5, h6⟩ := objSerial_from ok hs hr hL hK hM rs hrs (Nat.zero_le _) (Round.start ok hD hn)
  rw [Nat.zero_add] at h4 h6
  refine ⟨W, b, h1, h4, fun q hq => ⟨h5 q hq, ?_⟩, h6⟩
  have hloop := h2.loop hL
  refine (C74_feasible ok hs.batch hx hloop).2.2.2.2 q.1 ?_
  rw [hloop.reach.book.X]
  exact List.mem_append_right _ (List.mem_map_of_mem hq)

/-! ## The RBF interpolant -/

instance : Hereditary (OnHyperplane (d := d)) where
  mono h hB := by
    obtain ⟨w, b, hw, hx⟩ := hB
    exact ⟨w, b, hw, fun x hx' => hx x (h hx')⟩

/-- The default RBF interpolant (cubic kernel, linear tail, `eta > 0`) is such an object for SRBF and DYCORS. -/
theorem rbf_answers {m : Method} (hm : m = .srbf ∨ m = .dycors) (lb ub : Pt d) (hb : ∀ i, lb i < ub i) (eta : ℝ) (heta : 0 < eta)
    (trans : List ℝ → List ℝ) (lu : ℕ → Surrogate.Mat → Surrogate.LuOut) (chol : ℕ → Surrogate.Mat → Option Surrogate.Mat)
    (hlu : Surrogate.LuSpec lu) (hchol : Surrogate.CholSpec chol) :
    Answers OnHyperplane m (rbfObj ⟨lb, ub, Surrogate.cubicKernel, Surrogate.linearTail d, eta, trans, lu, chol⟩) := by
  intro calls D hcol hne hhyp hff
  refine ⟨?_, ?_⟩
  · have h : ∀ x, (Surrogate.predict ⟨lb, ub, Surrogate.cubicKernel, Surrogate.linearTail d, eta, trans, lu, chol⟩
        (Surrogate.rrun ⟨lb, ub, Surrogate.cubicKernel, Surrogate.linearTail d, eta, trans, lu, chol⟩ calls) x).2.isSome = true := by
      intro x
      rw [Option.isSome_iff_ne_none, Ne, C77_cubic lb ub hb eta heta.le trans lu chol hlu hchol calls hcol x (.inl heta)]
      tauto
    simp only [rbfObj, dif_pos h]
    simp
  · rintro (⟨t, e, h⟩ | ⟨k, t, e, h⟩) <;> rcases hm with rfl | rfl <;> cases h

/-- The parameters of the RBF interpolant with its default kernel, tail and regularisation. -/
noncomputable def defaultPar (p : OptProb d) (eta : ℝ) (trans : List ℝ → List ℝ) (lu : ℕ → Surrogate.Mat → Surrogate.LuOut)
    (chol : ℕ → Surrogate.Mat → Option Surrogate.Mat) : Surrogate.Par d :=
  ⟨p.lb, p.ub, Surrogate.cubicKernel, Surrogate.linearTail d, eta, trans, lu, chol⟩

variable {eta : ℝ} {trans : List ℝ → List ℝ} {lu : ℕ → Surrogate.Mat → Surrogate.LuOut}
  {chol : ℕ → Surrogate.Mat → Option Surrogate.Mat}

/-- What an `RBFInterpolant` (any kernel and tail) used by a strategy stores at any time: the points and values of the current
run. -/
theorem C118_rbf_data {p : Surrogate.Par d} (hL : MethodOk L) (ok : ProbOk L.prob) {Bad : List (Pt d) → Prop} [Hereditary Bad]
    {W : ObjSys d} (h : ObjReach Bad L (rbfObj p) f W) :
    (Surrogate.rrun p W.calls).X = ((if restarted W.sys.st.log then [] else known L.cfg.extras) ++ arrived W.sys.st.log).map Prod.fst ∧
    (Surrogate.rrun p W.calls).fX = ((if restarted W.sys.st.log then [] else known L.cfg.extras) ++
      arrived W.sys.st.log).map (fun e => ((e.2 : ℚ) : ℝ)) := by
  obtain ⟨h1, h2⟩ := C118_data hL ok h
  have := C46_history p.lb p.ub (fun _ => none) (Surrogate.fit p) (fit_keepsData p) none W.calls h1
  have hX : (Surrogate.rrun p W.calls).X = _ := this.X
  have hf : (Surrogate.rrun p W.calls).fX = _ := this.fX
  rw [hX, hf, h2]
  simp only [List.map_map]
  exact ⟨rfl, rfl⟩

/-- SRBF and DYCORS with the default RBF interpolant, synchronous mode, any number of workers and any schedule: as long as no
adaptive evaluation of this run was aborted and none was lost in a crash, `propose_action` does not raise. -/
theorem C118_rbf_sync (ok : ProbOk L.prob) (hs : Sane L.cfg) (hL : MethodOk L) (hm : L.method = .srbf ∨ L.method = .dycors)
    (heta : 0 < eta) (hlu : Surrogate.LuSpec lu) (hchol : Surrogate.CholSpec chol) (ha : L.cfg.asynchronous = false)
    {W : ObjSys d} (h : ObjReach OnHyperplane L (rbfObj (defaultPar L.prob eta trans lu chol)) f W)
    (hd : droppedBy false (thisRun W.sys.st.log) = []) (hc : crashedBy (thisRun W.sys.st.log) = []) (r : Rnd d) :
    objStep L (rbfObj (defaultPar L.prob eta trans lu chol)) f W (.propose r) ≠ none :=
  C118_sync ok hs hL (rbf_answers hm _ _ ok.lt eta heta trans lu chol hlu hchol) ha h hd hc r

/-- SRBF and DYCORS with the default RBF interpolant, restarts, run by the serial controller, in both modes. -/
theorem C118_rbf_serial (ok : ProbOk L.prob) (hs : Sane L.cfg) (hr : L.cfg.useRestarts = true) (hL : MethodOk L)
    (hm : L.method = .srbf ∨ L.method = .dycors) (hx : ∀ e ∈ L.cfg.extras, Feasible L.prob e.1)
    (heta : 0 < eta) (hlu : Surrogate.LuSpec lu) (hchol : Surrogate.CholSpec chol) {M : ℕ} (hM : L.cfg.maxEvals = M)
    (D : List (Pt d)) (hD : DesignOf L.prob L.cfg.numPts D) (hn : ¬ OnHyperplane D) (rs : List (State (Pt d) → Rnd d))
    (hrs : ∀ r ∈ rs, ∀ W, ObjReach OnHyperplane L (rbfObj (defaultPar L.prob eta trans lu chol)) f W →
      RndOk L W.sys.st (r W.sys.st) ∧ ¬ OnHyperplane (r W.sys.st).design) :
    ∃ W b, objSerial L (rbfObj (defaultPar L.prob eta trans lu chol)) f rs (objCreate L D) = some (W, b) ∧
      (completions W.sys.st.log).length = min rs.length M ∧
      (∀ q ∈ completions W.sys.st.log, q.2 = f q.1 ∧ Feasible L.prob q.1) ∧ (b = true ↔ M < rs.length) :=
  C118_serial ok hs hr hL hx (rbf_answers hm _ _ ok.lt eta heta trans lu chol hlu hchol) hM D hD hn rs hrs

/-- The corners of the box are not on a hyperplane. -/
theorem corners_span {p : OptProb d} (ok : ProbOk p) : ¬ OnHyperplane (twoFactorialPoints d (some (p.lb, p.ub)) p.intVar) := by
  classical
  rintro ⟨w, c, hw0, hw⟩
  apply hw0
  have hm := (C44_box p.lb p.ub p.intVar ok.lt fun i hi => by
    obtain ⟨l, hl⟩ := ok.lbInt i hi
    obtain ⟨u, hu⟩ := ok.ubInt i hi
    exact ⟨l, u, hl, hu⟩).2.2
  funext k
  have h1 := hw p.lb ((hm _).mpr fun j => .inl rfl)
  have h2 := hw (Function.update p.lb k (p.ub k)) ((hm _).mpr fun j => by
    by_cases hj : j = k
    · subst hj; simp
    · simp [hj])
  have h3 : ∑ j, w j * (Function.update p.lb k (p.ub k) j - p.lb j) = 0 := by
    simp only [mul_sub, Finset.sum_sub_distrib]; linarith
  rw [Finset.sum_eq_single k] at h3
  · rw [Function.update_self] at h3
    rcases mul_eq_zero.mp h3 with h4 | h4
    · exact h4
    · have := ok.lt k; linarith
  · intro j _ hj; simp [hj]
  · simp

/-- The same with the two-factorial design and no condition on the random outcomes but that they are possible: also with
integer variables, the whole run with the default RBF interpolant succeeds. -/
theorem C118_twofactorial (ok : ProbOk L.prob) (hs : Sane L.cfg) (hr : L.cfg.useRestarts = true) (hL : MethodOk L)
    (hm : L.method = .srbf ∨ L.method = .dycors) (hx : ∀ e ∈ L.cfg.extras, Feasible L.prob e.1)
    (heta : 0 < eta) (hlu : Surrogate.LuSpec lu) (hchol : Surrogate.CholSpec chol) {M : ℕ} (hM : L.cfg.maxEvals = M)
    (hnum : twoFactorialInit d = some L.cfg.numPts) (rs : List (State (Pt d) → Rnd d))
    (hrs : ∀ r ∈ rs, ∀ W, ObjReach OnHyperplane L (rbfObj (defaultPar L.prob eta trans lu chol)) f W →
      RndOk L W.sys.st (r W.sys.st) ∧ (r W.sys.st).design = twoFactorialPoints d (some (L.prob.lb, L.prob.ub)) L.prob.intVar) :
    ∃ W b, objSerial L (rbfObj (defaultPar L.prob eta trans lu chol)) f rs
        (objCreate L (twoFactorialPoints d (some (L.prob.lb, L.prob.ub)) L.prob.intVar)) = some (W, b) ∧
      (completions W.sys.st.log).length = min rs.length M ∧
      (∀ q ∈ completions W.sys.st.log, q.2 = f q.1 ∧ Feasible L.prob q.1) ∧ (b = true ↔ M < rs.length) :=
  C118_rbf_serial ok hs hr hL hm hx heta hlu hchol hM _ (.inr (.inr ⟨hnum, rfl⟩)) (corners_span ok) rs
    fun r hr W hW => ⟨(hrs r hr W hW).1, by rw [(hrs r hr W hW).2]; exact corners_span ok⟩

/-! ## The hypotheses are met -/

/-- SRBF on the unit interval with restarts. -/
noncomputable def wholeSetup (m : Method) : Setup 1 :=
  ⟨unitProb, { loopCfg [] with useRestarts := true, srbf := some { dim := 1, weights := [3 / 10, 1 / 2, 8 / 10, 95 / 100] } }, m⟩

theorem ObjReach.curX_feasible (ok : ProbOk L.prob) (hs : Sane L.cfg) (hL : MethodOk L) (hx : ∀ e ∈ L.cfg.extras, Feasible L.prob e.1)
    {W : ObjSys d} (h : ObjReach OnHyperplane L K f W) : ∀ x ∈ W.sys.st.curX, Feasible L.prob x := by
  have hl := h.loop hL
  intro x hx'
  refine (C74_feasible ok hs.batch hx hl).2.2.2.2 x ?_
  obtain ⟨cur, h1, h2, _⟩ := C13_isolation hl.reach
  rw [(C03_history hl.reach).1, List.map_append]
  refine List.mem_append_right _ ?_
  rw [h2] at hx'
  obtain ⟨e, he, rfl⟩ := List.mem_map.mp hx'
  refine List.mem_map_of_mem ?_
  have := h1.subset he
  obtain ⟨ev, he1, he2⟩ := List.mem_filterMap.mp this
  refine List.mem_filterMap.mpr ⟨ev, he1, ?_⟩
  cases ev <;> simp at he2 ⊢
  obtain ⟨_, rfl⟩ := he2
  rfl

/-- The outcome of all draws is the mean, the design is the two-factorial one: possible in every state. -/
theorem midRnd_possible {K : Obj 1} {f : Pt 1 → Val} {m : Method} (hm : m = .srbf ∨ m = .dycors) {W : ObjSys 1} (h : ObjReach OnHyperplane (wholeSetup m) K f W) :
    RndOk (wholeSetup m) W.sys.st midRnd := by
  have ok : ProbOk (wholeSetup m).prob := unitProb_ok
  have hs : Sane (wholeSetup m).cfg := ⟨by norm_num [wholeSetup, loopCfg], .inl rfl, fun sc h => by cases h; simp⟩
  have hL : MethodOk (wholeSetup m) := by rcases hm with rfl | rfl <;> simp [MethodOk, wholeSetup]
  refine ⟨design_unit _ rfl rfl, rfl, ?_, fun _ _ => ⟨le_refl (0 : ℝ), one_pos⟩, fun k X fX z hX _ hz j i => ?_⟩
  · intro g hg q i
    rw [List.mem_singleton.mp hg]; norm_num [midRun]
  · have hr := radius_pos (L := wholeSetup m) hs.batch (h.loop hL).reach z hz
    have hr' : (0 : ℝ) < ((z.radius : ℚ) : ℝ) := by exact_mod_cast hr
    obtain ⟨hb, _⟩ := h.curX_feasible ok hs hL (by simp [wholeSetup, loopCfg]) (xbestOf X fX) (by
      rw [hX]; exact (List.mem_ofFn' _ _).mpr ⟨_, rfl⟩)
    have hb := hb i
    have hσ : 0 ≤ scalefactors (wholeSetup m).prob ((z.radius : ℚ) : ℝ) (List.finRange 1) i := by
      simp only [scalefactors, wholeSetup, unitProb]
      split_ifs <;> simp [hr'.le]
    show DrawOk _ _ _ i 0
    exact ⟨div_nonpos_of_nonpos_of_nonneg (by linarith [hb.1]) hσ, div_nonneg (by linarith [hb.2]) hσ⟩

/-- A run of twelve rounds, for every objective: ten evaluations, then the end. -/
example (f : Pt 1 → Val) {m : Method} (hm : m = .srbf ∨ m = .dycors) : ∃ (lu : ℕ → Surrogate.Mat → Surrogate.LuOut) (chol : ℕ → Surrogate.Mat → Option Surrogate.Mat) (W : ObjSys 1),
    objSerial (wholeSetup m) (rbfObj (defaultPar unitProb 1e-6 id lu chol)) f (List.replicate 12 fun _ => midRnd)
      (objCreate (wholeSetup m) [fun _ => 0, fun _ => 1]) = some (W, true) ∧ (completions W.sys.st.log).length = 10 := by
  obtain ⟨lu, chol, h1, h2, _⟩ := Surrogate.exists_library
  have ok : ProbOk (wholeSetup m).prob := unitProb_ok
  have hs : Sane (wholeSetup m).cfg := ⟨by norm_num [wholeSetup, loopCfg], .inl rfl, fun sc h => by cases h; simp⟩
  have hL : MethodOk (wholeSetup m) := by rcases hm with rfl | rfl <;> simp [MethodOk, wholeSetup]
  have hspan : ¬ OnHyperplane [(fun _ => 0 : Pt 1), fun _ => 1] := by
    rintro ⟨w, c, hw, h⟩
    have e0 := h (fun _ => 0) (by simp)
    have e1 := h (fun _ => 1) (by simp)
    simp at e0 e1
    apply hw
    funext i
    rw [Subsingleton.elim i 0, e1, ← e0]; rfl
  obtain ⟨W, b, e, hc, _, hb⟩ := C118_rbf_serial (L := wholeSetup m) (f := f) (eta := 1e-6) (trans := id) (M := 10) ok hs rfl hL hm
    (by simp [wholeSetup, loopCfg]) (by norm_num) h1 h2 rfl _ (design_unit _ rfl rfl) hspan (List.replicate 12 fun _ => midRnd)
    (fun r hr W hW => by
      rw [List.eq_of_mem_replicate hr]
      exact ⟨midRnd_possible hm hW, hspan⟩)
  have : b = true := hb.mpr (by simp)
  subst this
  exact ⟨lu, chol, W, e, by rw [hc]; simp⟩

end Verif.Props
