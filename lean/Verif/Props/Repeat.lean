import Verif.Loop.Repeat
import Verif.Props.Global
import Mathlib.MeasureTheory.Measure.Prod

/-! # Property C132: new points -/

namespace Verif.Props

open Verif.Num Verif.Utils Verif.Cand Verif.Design Verif.Strategy Verif.Spec Verif.Loop MeasureTheory ProbabilityTheory
open scoped ENNReal

variable {d m n : ℕ}

theorem truncLaw_countable {a b : ℝ} {C : Set ℝ} (hC : C.Countable) : truncLaw a b C = 0 := by
  have : NullSingletonClass (gaussianReal 0 1) := nullSingletonClass_gaussianReal one_ne_zero
  exact cond_absolutelyContinuous (hC.measure_zero _)

/-- The draws for which the number for candidate `j` and variable `i` is in `C`. -/
def slice (C : Set ℝ) (j : Fin (m + 1)) (i : Fin d) : Set (Fin (m + 1) → Pt d) := {z | z j i ∈ C}

theorem drawLaw_slice {p : OptProb d} (ok : ProbOk p) {xbest σ : Pt d} (hσ : ∀ i, 0 < σ i) {C : Set ℝ} (hC : C.Countable)
    (j : Fin (m + 1)) (i : Fin d) : drawLaw m p xbest σ (slice C j i) = 0 := by
  have : ∀ i, IsProbabilityMeasure (truncLaw ((p.lb i - xbest i) / σ i) ((p.ub i - xbest i) / σ i)) :=
    fun i => truncLaw_prob (range_lt ok hσ i)
  unfold drawLaw
  have h2 := (measurePreserving_eval (fun i : Fin d => truncLaw ((p.lb i - xbest i) / σ i) ((p.ub i - xbest i) / σ i)) i).comp
    (measurePreserving_eval (fun _ : Fin (m + 1) => Measure.pi fun i =>
      truncLaw ((p.lb i - xbest i) / σ i) ((p.ub i - xbest i) / σ i)) j)
  rw [show slice C j i = (Function.eval i ∘ Function.eval j) ⁻¹' C from rfl, h2.measure_preimage hC.measurableSet.nullMeasurableSet,
    truncLaw_countable hC]

/-- The draws for which the changed variable `i` of a candidate has the value of a point of `T`. -/
def repeatDraws (T : Set (Pt d)) (xbest σ : Pt d) (i : Fin d) : Set ℝ := (fun x : Pt d => (x i - xbest i) / σ i) '' T

/-- The exceptional draws: for some candidate and some variable the value is that of a point of `T`. -/
def exceptional (T : Set (Pt d)) (m : ℕ) (xbest σ : Pt d) : Set (Fin (m + 1) → Pt d) :=
  ⋃ j, ⋃ i, slice (repeatDraws T xbest σ i) j i

theorem exceptional_null {p : OptProb d} (ok : ProbOk p) {xbest σ : Pt d} (hσ : ∀ i, 0 < σ i) {T : Set (Pt d)} (hT : T.Countable)
    (m : ℕ) : drawLaw m p xbest σ (exceptional T m xbest σ) = 0 :=
  measure_iUnion_null fun j => measure_iUnion_null fun i => drawLaw_slice ok hσ (hT.image _) j i

theorem exceptional_measurable {T : Set (Pt d)} (hT : T.Countable) (m : ℕ) (xbest σ : Pt d) :
    MeasurableSet (exceptional T m xbest σ) := by
  refine MeasurableSet.iUnion fun j => MeasurableSet.iUnion fun i => ?_
  have : Measurable fun z : Fin (m + 1) → Pt d => z j i := by fun_prop
  exact this (hT.image fun x : Pt d => (x i - xbest i) / σ i).measurableSet

theorem slice_mem {T : Set (Pt d)} {xbest σ : Pt d} {z : Fin (m + 1) → Pt d} {x : Pt d} (hx : x ∈ T) {j : Fin (m + 1)} {i : Fin d}
    (hσ : 0 < σ i) (h : x i = truncnorm (xbest i) (σ i) (z j i)) : z ∈ exceptional T m xbest σ := by
  refine Set.mem_iUnion.mpr ⟨j, Set.mem_iUnion.mpr ⟨i, x, hx, ?_⟩⟩
  show (x i - xbest i) / σ i = z j i
  rw [h, truncnorm, add_sub_cancel_left, mul_div_cancel_left₀ _ hσ.ne']

theorem srbf_exceptional {p : OptProb d} (ok : ProbOk p) {i : Fin d} (hi : i ∉ p.intVar) {T : Set (Pt d)}
    (X : Fin (n + 1) → Pt d) (fX : Fin (n + 1) → ℝ) {r : ℝ} (hr : 0 < r) (pred : Pt d → ℝ) (weights : List ℝ)
    (Xpend : List (Pt d)) (dtol : ℝ) (z : Fin (m + 1) → Pt d)
    (h : ∃ x ∈ candidateSrbf p pred X fX weights Xpend r (List.finRange d) dtol z, x ∈ T) :
    z ∈ exceptional T m (xbestOf X fX) (scalefactors p r (List.finRange d)) := by
  obtain ⟨x, hx, hxT⟩ := h
  unfold candidateSrbf weightedDistanceMerit at hx
  obtain ⟨j, _, rfl⟩ := List.mem_map.mp hx
  refine slice_mem hxT (j := j) (i := i) (scale_pos ok hr _ i) ?_
  beta_reduce
  rw [roundVars_apply, if_neg hi, srbfCand, if_pos (List.mem_finRange i)]

theorem dycors_exceptional {p : OptProb d} (ok : ProbOk p) (hd : 1 ≤ d) (hp : p.intVar = []) {T : Set (Pt d)} (X : Fin (n + 1) → Pt d)
    (xbest : Pt d) {r : ℝ} (hr : 0 < r) (pred : Pt d → ℝ) (weights : List ℝ) (prob : ℝ)
    (Xpend : List (Pt d)) (dtol : ℝ) (u : Fin (m + 1) → ℕ → ℝ) (forced : Fin (m + 1) → ℕ) (hf : ∀ j, d = 1 ∨ forced j < d - 1)
    (z : Fin (m + 1) → Pt d) {res : List (Pt d)}
    (h : candidateDycors p pred X weights prob Xpend r (List.finRange d) dtol xbest u forced z = some res) (hT : ∃ x ∈ res, x ∈ T) :
    z ∈ exceptional T m xbest (scalefactors p r (List.finRange d)) := by
  unfold candidateDycors at h
  simp only [dycorsCand_full, List.length_finRange, Option.isSome_some, implies_true, dite_true, Option.get_some, hp, roundVars_nil,
    Option.some.injEq] at h
  subst h
  obtain ⟨x, hx, hxT⟩ := hT
  unfold weightedDistanceMerit at hx
  obtain ⟨j, _, rfl⟩ := List.mem_map.mp hx
  obtain ⟨i, hi⟩ : ∃ i : Fin d, dycorsMask d prob (u j) (forced j) i = true := by
    unfold dycorsMask
    split_ifs with h1 h2
    · exact ⟨⟨0, by omega⟩, rfl⟩
    · refine ⟨⟨forced j, by have := hf j; omega⟩, by simp⟩
    · push Not at h2
      obtain ⟨c, hc, hc'⟩ := h2
      exact ⟨⟨c, hc⟩, decide_eq_true hc'⟩
  refine slice_mem hxT (j := j) (i := i) (scale_pos ok hr _ i) ?_
  beta_reduce
  rw [if_pos hi]

/-- `candidate_srbf`, if at least one variable is continuous: almost surely no selected point is in a given countable set -- for
example the set of all points evaluated so far.  For purely discrete problems see `C132_discrete_refuted`. -/
theorem C132_srbf_partial {p : OptProb d} (ok : ProbOk p) (hc : ∃ i, i ∉ p.intVar) (T : Set (Pt d)) (hT : T.Countable)
    (X : Fin (n + 1) → Pt d) (fX : Fin (n + 1) → ℝ) {r : ℝ} (hr : 0 < r) (pred : Pt d → ℝ) (weights : List ℝ)
    (Xpend : List (Pt d)) (dtol : ℝ) (m : ℕ) :
    drawLaw m p (xbestOf X fX) (scalefactors p r (List.finRange d))
      {z | ∃ x ∈ candidateSrbf p pred X fX weights Xpend r (List.finRange d) dtol z, x ∈ T} = 0 := by
  obtain ⟨i, hi⟩ := hc
  exact measure_mono_null (fun z hz => srbf_exceptional ok hi X fX hr pred weights Xpend dtol z hz)
    (exceptional_null ok (scale_pos ok hr _) hT m)

/-- `candidate_dycors` around any point, if all variables are continuous; full statement: if at least one variable is continuous, see
`C132_dycors_refuted`. -/
theorem C132_dycors_partial {p : OptProb d} (ok : ProbOk p) (hd : 1 ≤ d) (hp : p.intVar = []) (T : Set (Pt d)) (hT : T.Countable)
    (X : Fin (n + 1) → Pt d) (xbest : Pt d) {r : ℝ} (hr : 0 < r) (pred : Pt d → ℝ) (weights : List ℝ) (prob : ℝ)
    (Xpend : List (Pt d)) (dtol : ℝ) (m : ℕ) (forced : (Fin (m + 1) → Pt d) × (Fin (m + 1) → Pt d) → Fin (m + 1) → ℕ)
    (hf : ∀ z j, d = 1 ∨ forced z j < d - 1) :
    dycorsLaw m p xbest (scalefactors p r (List.finRange d))
      {z | ∃ l, candidateDycors p pred X weights prob Xpend r (List.finRange d) dtol xbest
          (fun j c => if h : c < d then z.1 j ⟨c, h⟩ else 0) (forced z) z.2 = some l ∧ ∃ x ∈ l, x ∈ T} = 0 := by
  have hσ := scale_pos ok hr (List.finRange d)
  have := drawLaw_prob ok hσ m (xbest := xbest)
  refine measure_mono_null (t := Set.univ ×ˢ exceptional T m xbest (scalefactors p r (List.finRange d))) ?_ ?_
  · rintro ⟨u, z⟩ ⟨l, hl, hx⟩
    exact ⟨trivial, dycors_exceptional ok hd hp X xbest hr pred weights prob Xpend dtol _ _ (hf _) z hl hx⟩
  · unfold dycorsLaw
    rw [Measure.prod_prod, exceptional_null ok hσ hT m, mul_zero]

/-! ## Whole runs -/

theorem srbf_generates {L : Setup d} (hb : BatchOk L.cfg) (hsc : L.cfg.srbf ≠ none) {w w' : Sys (Pt d)} (h : Reach L.cfg w)
    (hw : wantsPoints L.cfg w.st) {o : Oracle (Pt d)} (hs : w.step L.cfg (.propose o) = some w') :
    adaptivePoints w'.st.log = adaptivePoints w.st.log ++ (List.range (wanted L.cfg)).map o.pts := by
  obtain ⟨h1, h2, h3, h4, h5⟩ := hw
  obtain ⟨sc, hsc⟩ := Option.ne_none_iff_exists'.mp hsc
  obtain ⟨z, hz⟩ : ∃ z, w.st.srbf = some z := by
    have := h.book.srbf
    rw [hsc] at this
    exact Option.isSome_iff_exists.mp (by simpa using this)
  have hpos : 0 < wanted L.cfg := by
    unfold wanted
    rcases hb with hb | hb
    · simp [hb]
    · split_ifs <;> omega
  obtain ⟨k, hk⟩ : ∃ k, wanted L.cfg = k + 1 := ⟨wanted L.cfg - 1, by omega⟩
  have key : ∀ (a : Action (Pt d)) (s' : State (Pt d)), w.st.proposeAction L.cfg o = some (a, s') →
      a = .eval (o.pts k) .adapt ∧ adaptivePoints s'.log = adaptivePoints w.st.log ++ (List.range (wanted L.cfg)).map o.pts := by
    intro a s' ha
    rw [proposeAction_going h1 h2, h3, h4] at ha
    simp only [Bool.false_eq_true, if_false, List.isEmpty_nil, if_true, State.adaptBranch] at ha
    have hgen : ∀ s1 : State (Pt d), ({ w.st with phase := .adaptive } : State (Pt d)).generateEvals L.cfg o (wanted L.cfg) = some s1 →
        s1.afterGenerate L.cfg o = some (a, s') →
          a = .eval (o.pts k) .adapt ∧ adaptivePoints s'.log = adaptivePoints w.st.log ++ (List.range (wanted L.cfg)).map o.pts := by
      intro s1 hs1 ha
      rcases generateEvals_cases hs1 with ⟨ws, z', rfl, _⟩ | ⟨_, _, hn⟩
      · unfold State.afterGenerate at ha
        rw [if_neg (by simp [h3])] at ha
        unfold State.adaptProposal at ha
        simp only [h4, List.nil_append, hk, List.range_succ, List.map_append, List.map_cons, List.map_nil, popLast_append,
          Option.some.injEq, Prod.mk.injEq] at ha
        refine ⟨ha.1.symm, ?_⟩
        have hl : s'.log = w.st.log ++ [Event.generated ((List.range k).map o.pts ++ [o.pts k]) ws] := by rw [← ha.2]; rfl
        rw [hl, hk, List.range_succ, List.map_append, adaptivePoints_append]
        congr 1
        simp [adaptivePoints]
      · rcases hn with hn | hn
        · rw [hsc] at hn; cases hn
        · rw [show ({ w.st with phase := .adaptive } : State (Pt d)).srbf = w.st.srbf from rfl, hz] at hn; cases hn
    unfold wanted at hgen ⊢
    split_ifs at ha with c1 c2
    · rw [if_pos c1] at hgen ⊢
      split at ha
      · cases ha
      · exact hgen _ (by assumption) ha
    · rw [if_neg c1] at hgen ⊢
      split at ha
      · cases ha
      · exact hgen _ (by assumption) ha
    · exact absurd (by simpa using h5.resolve_left c1) c2
  simp only [Sys.step] at hs
  rcases hp : w.st.proposeAction L.cfg o with _ | ⟨a, s'⟩
  · rw [hp] at hs; cases hs
  · obtain ⟨rfl, hlog⟩ := key a s' hp
    rw [hp] at hs
    simp only [Option.some.injEq] at hs
    subst hs
    simp only [State.note, adaptivePoints_append, hlog]
    simp [adaptivePoints]

/-- What is needed of the problem: for SRBF a continuous variable, for DYCORS only continuous ones. -/
def HasCont (L : Setup d) : Prop :=
  (L.method = .srbf ∧ ∃ i, i ∉ L.prob.intVar) ∨ (L.method = .dycors ∧ 1 ≤ d ∧ L.prob.intVar = [])

theorem ask_exceptional {L : Setup d} (hm : HasCont L) (hL : CandRun L) {S : Surr d} {D : List (Pt d)}
    {w w' : Sys (Pt d)} (h : LoopReach L w) (hw : wantsPoints L.cfg w.st) {z0 : Srbf} (hz0 : w.st.srbf = some z0)
    (hr0 : 0 < ((z0.radius : ℚ) : ℝ)) {T : Set (Pt d)} {forced : Fin (m + 1) → ℕ} (hf : ∀ j, d = 1 ∨ forced j < d - 1) {z : Outcome m d}
    (hs : askStep L S D w forced z = some w') (hn : NewIn T w.st w'.st) :
    z.2 ∈ exceptional T m (bestAt w.st) (scalefactors L.prob ((z0.radius : ℚ) : ℝ) (List.finRange d)) := by
  unfold askStep at hs
  rw [Option.bind_eq_some_iff] at hs
  obtain ⟨g, hg, hs⟩ := hs
  simp only [answer, if_pos hw] at hg
  obtain ⟨new, hnew, x, hx, hxT⟩ := hn
  rw [srbf_generates hL.batch hL.srbf h.reach hw hs, List.append_cancel_left_eq] at hnew
  subst hnew
  obtain ⟨j, hj, rfl⟩ := List.mem_map.mp hx
  rw [List.mem_range] at hj
  have hin : ∀ res : List (Pt d), res.length = wanted L.cfg → (oracleOf L D (some res)).pts j ∈ res := by
    intro res hl
    unfold oracleOf
    simp only [Option.getD_some]
    rw [List.getD_eq_getElem _ _ (by omega)]
    exact List.getElem_mem _
  rcases hm with ⟨hm, i, hi⟩ | ⟨hm, hd, hp⟩
  · obtain ⟨k, X, fX, z1, ws, pred, e1, e2, e3, e4, rfl⟩ := gen_srbf hm hg
    rw [hz0, Option.some.injEq] at e3
    subst e3
    rw [bestAt_eq e1 e2]
    refine srbf_exceptional hL.prob hi X fX hr0 pred ws w.st.Xpend 1e-3 z.2 ⟨_, hin _ ?_, hxT⟩
    unfold candidateSrbf weightedDistanceMerit
    rw [List.length_map]
    unfold wdmIdx
    rw [wdmLoop_length, e4]
  · obtain ⟨k, X, fX, z1, ws, pred, e1, e2, e3, e4, e5⟩ := gen_dycors hm hg
    rw [hz0, Option.some.injEq] at e3
    subst e3
    rw [bestAt_eq e1 e2]
    rw [Option.map_eq_some_iff] at e5
    obtain ⟨res, e5, rfl⟩ := e5
    refine dycors_exceptional hL.prob hd hp X (xbestOf X fX) hr0 pred ws _ w.st.Xpend 1e-3 _ forced hf z.2 e5 ⟨_, hin _ ?_, hxT⟩
    unfold candidateDycors at e5
    simp only [dycorsCand_full, Option.isSome_some, implies_true, dite_true, Option.some.injEq] at e5
    rw [← e5]
    unfold weightedDistanceMerit
    rw [List.length_map]
    unfold wdmIdx
    rw [wdmLoop_length, e4]

/-- Whole runs of SRBF (with at least one continuous variable) or DYCORS (all variables continuous), with any surrogate, objective
values, restarts, failures, crashes and any order of events, chosen by an adversary: almost surely no generated point ever belongs
to a countable set that may be chosen anew in every state. -/
theorem C132_run_partial {L : Setup d} (hm : HasCont L) (hL : CandRun L) (T : State (Pt d) → Set (Pt d))
    (hT : ∀ s, (T s).Countable) (P : Plan L m) (hP : P.Valid) (w : Sys (Pt d)) (h : LoopReach L w) :
    everChance (fun s s' => NewIn (T s) s s') P w = 0 := by
  have hm' : L.method = .srbf ∨ L.method = .dycors := hm.imp And.left And.left
  induction P generalizing w with
  | stop => rfl
  | env e next ih =>
    unfold everChance
    split
    · rfl
    · rename_i w' hs
      exact ih hP w' (envStep_reach h e hs)
  | ask S D hD forced next ih =>
    obtain ⟨hf, hP⟩ := hP
    unfold everChance
    split_ifs with hw
    · obtain ⟨z0, hz0, hr1, hr2⟩ := radius_range hL h hw
      have hr0 : 0 < ((z0.radius : ℚ) : ℝ) := lt_of_lt_of_le (by norm_num) hr1
      have hσ := scale_pos hL.prob hr0 (List.finRange d)
      have hlaw : candLaw L m w.st = dycorsLaw m L.prob (bestAt w.st) (scalefactors L.prob ((z0.radius : ℚ) : ℝ) (List.finRange d)) := by
        unfold candLaw; rw [hz0]
      rw [hlaw]
      have hpr := drawLaw_prob hL.prob hσ m (xbest := bestAt w.st)
      set E := exceptional (T w.st) m (bestAt w.st) (scalefactors L.prob ((z0.radius : ℚ) : ℝ) (List.finRange d)) with hE
      have hEm : MeasurableSet E := exceptional_measurable (hT w.st) m _ _
      have hE0 : drawLaw m L.prob (bestAt w.st) (scalefactors L.prob ((z0.radius : ℚ) : ℝ) (List.finRange d)) E = 0 :=
        exceptional_null hL.prob hσ (hT w.st) m
      have hR := ranges_measurable L.prob m (bestAt w.st) (scalefactors L.prob ((z0.radius : ℚ) : ℝ) (List.finRange d))
      have hzero : ∀ z : Outcome m d, z ∈ allIn m d 1 ×ˢ
          ranges L.prob m (bestAt w.st) (scalefactors L.prob ((z0.radius : ℚ) : ℝ) (List.finRange d)) → ∀ w',
          askStep L S D w (forced z) z = some w' → everChance (fun s s' => NewIn (T s) s s') (next z) w' = 0 := by
        intro z hz w' hs
        exact ih z (hP z) w' (askStep_reach hm' hD h (fun _ => ⟨hz.1, fun y' hy' => by
          rw [hz0, Option.some.injEq] at hy'; subst hy'; exact hz.2⟩) hs)
      rw [← nonpos_iff_eq_zero]
      unfold dycorsLaw
      refine (upperInt_bound (κ := 1) (c := 1) (B := Set.univ ×ˢ Eᶜ) (MeasurableSet.univ.prod hEm.compl)
        ((allIn_measurable m d 1).prod hR) ?_ ?_ ?_ ?_).trans (by simp)
      · rw [Measure.prod_prod, drawLaw_ranges hL.prob hσ m, allIn_chance m d le_rfl]
        simp
      · rw [Measure.prod_prod, (prob_compl_eq_one_iff hEm).mpr hE0]
        simp
      · intro z hz hzT
        split
        · rfl
        · rename_i w' hs
          rw [if_neg fun hn => hz.2 (ask_exceptional hm hL h hw hz0 hr0 (hf z) hs hn)]
          exact hzero z hzT w' hs
      · intro z hzT
        split
        · exact zero_le
        · rename_i w' hs
          split_ifs
          · exact le_rfl
          · rw [hzero z hzT w' hs]; exact zero_le
    · split
      · rfl
      · rename_i w' hs
        exact ih 0 (hP 0) w' (askStep_reach hm' hD h (fun hp => absurd hp hw) hs)

/-- In particular: almost surely no generated point has been proposed before, has been evaluated or given by the user, is in flight or
has been in the queue. -/
theorem C132_new_partial {L : Setup d} (hm : HasCont L) (hL : CandRun L) (P : Plan L m) (hP : P.Valid) (w : Sys (Pt d))
    (h : LoopReach L w) :
    everChance (fun s s' => NewIn {x | x ∈ proposals s.log ∨ x ∈ s.X ∨ x ∈ s.Xpend ∨ x ∈ sources s.log} s s') P w = 0 := by
  refine C132_run_partial hm hL (fun s => {x | x ∈ proposals s.log ∨ x ∈ s.X ∨ x ∈ s.Xpend ∨ x ∈ sources s.log}) (fun s => ?_) P hP w h
  refine Set.Countable.mono (fun x hx => ?_) (proposals s.log ++ s.X ++ s.Xpend ++ sources s.log).finite_toSet.countable
  simpa [or_assoc] using hx

/-! ## Where points are repeated -/

theorem wdm_all_same {cand : Fin (m + 1) → Pt d} {dtol : ℝ} (ws : List ℝ) (fvals : Fin (m + 1) → Fl) (dmerit : Fin (m + 1) → ℝ)
    (h : ∀ j, dmerit j < dtol) : wdmLoop cand dtol ws fvals dmerit = List.replicate ws.length 0 := by
  induction ws generalizing fvals dmerit with
  | nil => rfl
  | cons w ws ih =>
    have hk : ∀ j, (merit w dtol fvals dmerit j) = .inf := fun j => by simp only [merit, if_pos (h j)]
    have h0 : flArgmin (merit w dtol fvals dmerit) = 0 := by
      refine argmin_unique _ _ (fun j => ?_) (fun j hj => absurd hj (by simp))
      beta_reduce
      rw [hk, hk]
    unfold wdmLoop
    simp only [h0, List.length_cons, List.replicate_succ]
    rw [ih]
    exact fun j => (min_le_left _ _).trans_lt (h j)

theorem eucl_lt_of_near {x y : Pt d} {δ : ℝ} (hδ : 0 < δ) (h : ∀ i, |x i - y i| ≤ δ / (d + 1)) : eucl x y < δ := by
  unfold eucl
  rw [Real.sqrt_lt' hδ]
  have hd : (0 : ℝ) < d + 1 := by positivity
  have h1 : ∀ i ∈ Finset.univ, (x i - y i) ^ 2 ≤ (δ / (d + 1)) ^ 2 := fun i _ => by
    rw [← sq_abs]
    exact pow_le_pow_left₀ (abs_nonneg _) (h i) 2
  refine (Finset.sum_le_sum h1).trans_lt ?_
  rw [Finset.sum_const, Finset.card_univ, Fintype.card_fin, nsmul_eq_mul, div_pow, mul_div_assoc', div_lt_iff₀ (by positivity)]
  nlinarith [pow_pos hδ 2, mul_pos (pow_pos hδ 2) hd, mul_nonneg (pow_pos hδ 2).le (Nat.cast_nonneg (α := ℝ) d)]

/-- `candidate_srbf`, for every problem, surrogate and history: with positive probability the batch consists of copies of a single
point, namely if all candidates are closer than `dtol` to the best point. -/
theorem C132_batch_refuted {p : OptProb d} (ok : ProbOk p) (X : Fin (n + 1) → Pt d) (fX : Fin (n + 1) → ℝ)
    (hX : ∀ k, Feasible p (X k)) {r : ℝ} (hr : 0 < r) (pred : Pt d → ℝ) (weights : List ℝ) (hw : 2 ≤ weights.length)
    (Xpend : List (Pt d)) {dtol : ℝ} (ht : 0 < dtol) (m : ℕ) :
    0 < drawLaw m p (xbestOf X fX) (scalefactors p r (List.finRange d))
      {z | ¬ (candidateSrbf p pred X fX weights Xpend r (List.finRange d) dtol z).Nodup} := by
  have hε : 0 < min (dtol / (d + 1)) (1 / 4) := lt_min (by positivity) (by norm_num)
  have hy : Feasible p (xbestOf X fX) := hX _
  refine ((stepChance_pos ok m hε (ρ := r) (R := r)).trans_le (drawLaw_hits ok hy.1 hy.1 hε hr le_rfl le_rfl m)).trans_le
    (measure_mono fun z hz => ?_)
  have hnear := hits_near (scale_pos ok hr (List.finRange d)) hy ((min_le_right _ _).trans_lt (by norm_num)) hz
  simp only [Set.mem_setOf_eq, candidateSrbf, weightedDistanceMerit, wdmIdx]
  rw [wdm_all_same]
  · rw [List.map_replicate, List.nodup_replicate]
    omega
  · intro j
    rw [minDist_eq]
    refine (nearestDist_le (y := xbestOf X fX) ?_).trans_lt (eucl_lt_of_near ht fun i => (hnear j i).trans (min_le_left _ _))
    have : X 0 :: (List.ofFn (fun k : Fin n => X k.succ) ++ Xpend) = List.ofFn X ++ Xpend := by
      rw [List.ofFn_succ, List.cons_append]
    rw [this]
    exact List.mem_append_left _ ((List.mem_ofFn' _ _).mpr ⟨_, rfl⟩)

theorem round_back {p : OptProb d} {x y : Pt d} (hy : Feasible p y) {i : Fin d} (hi : i ∈ p.intVar) (h : |x i - y i| ≤ 1 / 4) :
    roundVars x p.intVar p.lb p.ub i = y i := by
  rw [roundVars_apply, if_pos hi]
  obtain ⟨v, hv⟩ := hy.2 i hi
  have hb := hy.1 i
  have h1 := abs_sub_rint_le (x i)
  rw [hv] at h
  have h2 : |((rint (x i) : ℤ) : ℝ) - v| < 1 := by
    rw [abs_le] at h h1
    rw [abs_lt]
    constructor <;> linarith
  have h3 : |rint (x i) - v| < 1 := by exact_mod_cast h2
  rw [Int.abs_lt_one_iff] at h3
  rw [show rint (x i) = v by omega, ← hv, clip, max_eq_left hb.1, min_eq_left hb.2]

/-- `candidate_srbf`, if all variables are integers: with positive probability all selected points are the best point found so far. -/
theorem C132_discrete_refuted {p : OptProb d} (ok : ProbOk p) (hp : ∀ i, i ∈ p.intVar) (X : Fin (n + 1) → Pt d)
    (fX : Fin (n + 1) → ℝ) (hX : ∀ k, Feasible p (X k)) {r : ℝ} (hr : 0 < r) (pred : Pt d → ℝ) (weights : List ℝ)
    (Xpend : List (Pt d)) (dtol : ℝ) (m : ℕ) :
    0 < drawLaw m p (xbestOf X fX) (scalefactors p r (List.finRange d))
      {z | candidateSrbf p pred X fX weights Xpend r (List.finRange d) dtol z = List.replicate weights.length (xbestOf X fX)} := by
  have hy : Feasible p (xbestOf X fX) := hX _
  refine ((stepChance_pos ok m (by norm_num : (0 : ℝ) < 1 / 4) (ρ := r) (R := r)).trans_le
    (drawLaw_hits ok hy.1 hy.1 (by norm_num) hr le_rfl le_rfl m)).trans_le (measure_mono fun z hz => ?_)
  simp only [Set.mem_setOf_eq, candidateSrbf, weightedDistanceMerit]
  rw [List.eq_replicate_iff]
  refine ⟨by rw [List.length_map]; unfold wdmIdx; rw [wdmLoop_length], fun x hx => ?_⟩
  obtain ⟨j, _, rfl⟩ := List.mem_map.mp hx
  funext i
  have hz1 := target_near (scale_pos ok hr (List.finRange d) i) (hz j trivial i trivial)
  refine round_back hy (hp i) ?_
  unfold srbfCand
  rw [if_pos (List.mem_finRange i)]
  exact hz1

/-- The uniform draws for which in every candidate only variable `i0` is changed. -/
def onlyOne (m : ℕ) (i0 : Fin d) (q : ℝ) : Set (Fin (m + 1) → Pt d) :=
  Set.pi Set.univ fun _ => Set.pi Set.univ fun i => if i = i0 then Set.Ico 0 q else Set.Ico q 1

theorem onlyOne_pos (m : ℕ) (i0 : Fin d) {q : ℝ} (h0 : 0 < q) (h1 : q < 1) :
    (Measure.pi fun _ : Fin (m + 1) => Measure.pi fun _ : Fin d => unifLaw) (onlyOne m i0 q) ≠ 0 := by
  unfold onlyOne
  rw [Measure.pi_pi]
  refine Finset.prod_ne_zero_iff.mpr fun _ _ => ?_
  rw [Measure.pi_pi]
  refine Finset.prod_ne_zero_iff.mpr fun i _ => ?_
  split_ifs
  · rw [unifLaw_Ico h1.le, ne_eq, ENNReal.ofReal_eq_zero, not_le]; exact h0
  · unfold unifLaw
    rw [Measure.restrict_apply measurableSet_Ico, Set.inter_eq_self_of_subset_left (Set.Ico_subset_Ico_left h0.le), Real.volume_Ico,
      ne_eq, ENNReal.ofReal_eq_zero, not_le]
    linarith

/-- `candidate_dycors`, if there is an integer variable, whatever the other variables, and the perturbation probability is between 0
and 1: with positive probability all selected points are the point around which was searched, the best point found so far. -/
theorem C132_dycors_refuted {p : OptProb d} (ok : ProbOk p) {i0 : Fin d} (hi : i0 ∈ p.intVar) (hd : d ≠ 1) {xbest : Pt d}
    (hb : Feasible p xbest) (X : Fin (n + 1) → Pt d) {r : ℝ} (hr : 0 < r) (pred : Pt d → ℝ) (weights : List ℝ) {prob : ℝ}
    (h0 : 0 < prob) (h1 : prob < 1) (Xpend : List (Pt d)) (dtol : ℝ) (m : ℕ) (forced : Fin (m + 1) → ℕ) :
    0 < dycorsLaw m p xbest (scalefactors p r (List.finRange d))
      {z | candidateDycors p pred X weights prob Xpend r (List.finRange d) dtol xbest
          (fun j c => if h : c < d then z.1 j ⟨c, h⟩ else 0) forced z.2 = some (List.replicate weights.length xbest)} := by
  have hσ := scale_pos ok hr (List.finRange d)
  have := drawLaw_prob ok hσ m (xbest := xbest)
  have hq : (0 : ℝ) < 1 / 4 := by norm_num
  refine lt_of_lt_of_le (ENNReal.mul_pos (onlyOne_pos m i0 h0 h1)
    ((stepChance_pos ok m hq (ρ := r) (R := r)).trans_le (drawLaw_hits ok hb.1 hb.1 hq hr le_rfl le_rfl m)).ne') ?_
  unfold dycorsLaw
  rw [← Measure.prod_prod]
  refine measure_mono ?_
  rintro ⟨u, z⟩ ⟨hu, hz⟩
  simp only [Set.mem_setOf_eq, candidateDycors, dycorsCand_full, List.length_finRange, Option.isSome_some, implies_true, dite_true,
    Option.get_some, Option.some.injEq, weightedDistanceMerit]
  rw [List.eq_replicate_iff]
  refine ⟨by rw [List.length_map]; unfold wdmIdx; rw [wdmLoop_length], fun x hx => ?_⟩
  obtain ⟨j, _, rfl⟩ := List.mem_map.mp hx
  have hmask : ∀ i : Fin d, dycorsMask d prob (fun c => if h : c < d then u j ⟨c, h⟩ else 0) (forced j) i = decide (i = i0) := by
    intro i
    have hul : ∀ c : Fin d, (if h : c.1 < d then u j ⟨c.1, h⟩ else 0) < prob ↔ c = i0 := by
      intro c
      have := hu j trivial c trivial
      beta_reduce at this
      rw [dif_pos c.2]
      by_cases hc : c = i0
      · rw [if_pos hc] at this
        exact ⟨fun _ => hc, fun _ => this.2⟩
      · rw [if_neg hc] at this
        exact ⟨fun h => absurd h (not_lt.mpr this.1), fun h => absurd h hc⟩
    unfold dycorsMask
    rw [if_neg hd, if_neg fun h => h i0 i0.2 ((hul i0).mpr rfl)]
    simp only [hul i]
  funext i
  simp only [hmask, decide_eq_true_eq]
  by_cases hii : i ∈ p.intVar
  · refine round_back hb hii ?_
    beta_reduce
    split_ifs
    · exact target_near (hσ i) (hz j trivial i trivial)
    · simp
  · rw [roundVars_apply, if_neg hii, if_neg]
    rintro rfl
    exact hii hi

/-! ## The hypotheses are met -/

theorem Plan.valid_one {L : Setup 1} (P : Plan L m) : P.Valid := by
  induction P with
  | stop => trivial
  | env e next ih => exact ih
  | ask S D hD forced next ih => exact ⟨fun _ _ => .inl rfl, ih⟩

theorem miss_le_ever {L : Setup d} (P : Plan L m) (w : Sys (Pt d)) :
    missChance (fun _ => True) (fun _ => False) P 1 w ≤ everChance (fun _ _ => True) P w := by
  induction P generalizing w with
  | stop => simp [missChance]
  | env e next ih =>
    unfold missChance everChance
    rw [if_neg one_ne_zero]
    cases hs : envStep L w e with
    | none => exact le_rfl
    | some w' => exact ih _
  | ask S D hD forced next ih =>
    unfold missChance everChance
    rw [if_neg one_ne_zero]
    split_ifs with hw
    · refine le_iInf fun g => le_iInf fun hg => le_iInf fun hle => upperInt_le hg fun z => le_trans ?_ (hle z)
      beta_reduce
      cases hs : askStep L S D w (forced z) z with
      | none => exact zero_le
      | some w' =>
        simp only [and_false, exists_false, if_false, Nat.sub_self, if_true]
        cases next z <;> simp [missChance]
    · cases hs : askStep L S D w (forced 0) 0 with
      | none => exact le_rfl
      | some w' => exact ih _ _

/-- SRBF on the unit interval: there is a plan for which points are generated almost surely. -/
example (m : ℕ) : ∃ (w : Sys (Pt 1)) (P : Plan (wholeSetup .srbf) m), LoopReach (wholeSetup .srbf) w ∧ P.Valid ∧
    1 ≤ everChance (fun _ _ => True) P w ∧
    everChance (fun s s' => NewIn {x | x ∈ proposals s.log ∨ x ∈ s.X ∨ x ∈ s.Xpend ∨ x ∈ sources s.log} s s') P w = 0 := by
  obtain ⟨w, P, h, h1⟩ := points_generated (L := wholeSetup .srbf) rfl unitProb_ok rfl rfl (by simp) rfl (design_unit _ rfl rfl)
    (by simp [wholeSetup, loopCfg]) (by simp [wholeSetup, loopCfg]) ⟨fun _ => some fun _ => 0, fun _ => some fun _ => 1⟩
    (fun _ => by simp) m
  exact ⟨w, P, h, Plan.valid_one P, h1.symm.le.trans (miss_le_ever P w),
    C132_new_partial (.inl ⟨rfl, 0, by simp [wholeSetup, unitProb]⟩)
      ⟨by simp [wholeSetup], .inl rfl, unitProb_ok, by simp [wholeSetup, loopCfg]⟩ P (Plan.valid_one P) w h⟩

/-- DYCORS on the unit square meets the conditions. -/
example : HasCont (Setup.withBudget lastSetup 10) ∧ CandRun (Setup.withBudget lastSetup 10) :=
  ⟨.inr ⟨rfl, by norm_num, rfl⟩, by simp [lastSetup, Setup.withBudget], .inl rfl, areaProb_ok, by simp [lastSetup, Setup.withBudget]⟩

/-- A batch of two points on the unit interval. -/
example (pred : Pt 1 → ℝ) (m : ℕ) : 0 < drawLaw m unitProb (xbestOf (fun _ : Fin 1 => (0 : Pt 1)) fun _ => 0)
    (scalefactors unitProb (1 / 5) (List.finRange 1))
    {z | ¬ (candidateSrbf unitProb pred (fun _ : Fin 1 => (0 : Pt 1)) (fun _ => 0) [3 / 10, 1 / 2] [] (1 / 5) (List.finRange 1) 1e-3
      z).Nodup} :=
  C132_batch_refuted unitProb_ok _ _ (fun _ => ⟨fun i => by simp [unitProb], fun i hi => by simp [unitProb] at hi⟩) (by norm_num) pred _
    le_rfl [] (by norm_num) m

/-- One variable with the values 0 and 1. -/
example (pred : Pt 1 → ℝ) (m : ℕ) : 0 < drawLaw m bitProb (xbestOf (fun _ : Fin 1 => (0 : Pt 1)) fun _ => 0)
    (scalefactors bitProb (1 / 5) (List.finRange 1))
    {z | candidateSrbf bitProb pred (fun _ : Fin 1 => (0 : Pt 1)) (fun _ => 0) [3 / 10] [] (1 / 5) (List.finRange 1) 1e-3 z =
      List.replicate 1 (xbestOf (fun _ : Fin 1 => (0 : Pt 1)) fun _ => 0)} :=
  C132_discrete_refuted bitProb_ok (fun i => by simp [bitProb, Subsingleton.elim i 0]) _ _
    (fun _ => ⟨fun i => by simp [bitProb], fun i _ => ⟨0, by simp⟩⟩) (by norm_num) pred _ [] _ m

/-- An integer and a continuous variable. -/
example (pred : Pt 2 → ℝ) (m : ℕ) : 0 < dycorsLaw m (⟨0, 1, [0]⟩ : OptProb 2) 0 (scalefactors ⟨0, 1, [0]⟩ (1 / 5) (List.finRange 2))
    {z | candidateDycors (⟨0, 1, [0]⟩ : OptProb 2) pred (fun _ : Fin 1 => 0) [3 / 10] (1 / 2) [] (1 / 5) (List.finRange 2) 1e-3 0
      (fun j c => if h : c < 2 then z.1 j ⟨c, h⟩ else 0) (fun _ => 0) z.2 = some (List.replicate 1 0)} :=
  C132_dycors_refuted (p := ⟨0, 1, [0]⟩) ⟨fun i => by simp, fun i _ => ⟨0, by simp⟩, fun i _ => ⟨1, by simp⟩⟩ (i0 := 0) (by simp) (by norm_num)
    ⟨fun i => by simp, fun i _ => ⟨0, by simp⟩⟩ _ (by norm_num) pred _ (by norm_num) (by norm_num) [] _ m _

end Verif.Props
