import Verif.Loop.SopPlay
import Verif.Props.Global
import Verif.Props.SopPoint

/-! # Property C125 for SOP -/

namespace Verif.Props

open Verif.Num Verif.Utils Verif.Cand Verif.Design Verif.Strategy Verif.Spec Verif.Loop Verif.Sop MeasureTheory ProbabilityTheory
open scoped ENNReal

variable {d m : ℕ}

/-! ## The searches of one call -/

theorem assign_filter : ∀ {cs cs' : List (Center d)} {ce : Center d} {x : Pt d}, (cs.find? fun ce => ce.newPoint.isNone) = some ce →
    assignPoint cs x = some cs' → (cs.filter fun ce => ce.newPoint.isNone) = ce :: cs'.filter fun ce => ce.newPoint.isNone := by
  intro cs
  induction cs with
  | nil => intro cs' ce x h; cases h
  | cons c cs ih =>
    intro cs' ce x h1 h2
    cases hc : c.newPoint with
    | none =>
      simp only [assignPoint, hc, Option.some.injEq] at h2
      subst h2
      rw [List.find?_cons_of_pos (by simp [hc]), Option.some.injEq] at h1
      subst h1
      rw [List.filter_cons_of_pos (by simp [hc]), List.filter_cons_of_neg (by simp)]
    | some y =>
      simp only [assignPoint, hc, Option.map_eq_some_iff] at h2
      obtain ⟨cs1, h2, rfl⟩ := h2
      rw [List.find?_cons_of_neg (by simp [hc])] at h1
      rw [List.filter_cons_of_neg (by simp [hc]), List.filter_cons_of_neg (by simp [hc])]
      exact ih h1 h2

theorem sopPoints_get {L : SopSetup d} {S : Surr d} {s : State (Pt d)} {evals : List (SopRec d)} (rs : List (CandRnd d))
    {cs : List (Center d)} {pts : List (Pt d)} (h : sopPoints L S s evals cs rs = some pts) {k : ℕ} {r : CandRnd d}
    (hk : rs[k]? = some r) : ∃ ce rec x, (cs.filter fun ce => ce.newPoint.isNone)[k]? = some ce ∧ evals[ce.index]? = some rec ∧
      pts[k]? = some x ∧ sopPoint L S s ce.xc rec.sigma r = some x := by
  induction rs generalizing cs pts k with
  | nil => cases hk
  | cons r0 rs ih =>
    simp only [sopPoints, Option.bind_eq_some_iff, Option.map_eq_some_iff] at h
    obtain ⟨ce, h1, rec, h2, x, h3, cs', h4, xs, h5, rfl⟩ := h
    rw [assign_filter h1 h4]
    cases k with
    | zero =>
      simp only [List.getElem?_cons_zero, Option.some.injEq] at hk
      subst hk
      exact ⟨ce, rec, x, by simp, h2, by simp, h3⟩
    | succ k =>
      simp only [List.getElem?_cons_succ] at hk ⊢
      exact ih h5 hk

theorem candsOk_of {L : SopSetup d} {S : Surr d} {s : State (Pt d)} {evals : List (SopRec d)} (rs : List (CandRnd d))
    {cs : List (Center d)}
    (h : ∀ (k : ℕ) (r : CandRnd d) (ce : Center d) (rec : SopRec d), rs[k]? = some r → (cs.filter fun ce => ce.newPoint.isNone)[k]? = some ce → evals[ce.index]? = some rec →
      (∀ j c, 0 ≤ r.u j c ∧ r.u j c < 1) ∧
      (∀ j i, DrawOk L.prob ce.xc (scalefactors L.prob ((rec.sigma : ℚ) : ℝ) (List.finRange d)) i (r.draws j i))) :
    CandsOk L S s evals cs rs := by
  induction rs generalizing cs with
  | nil => trivial
  | cons r rs ih =>
    intro ce rec h1 h2
    have hf : ∃ l, (cs.filter fun ce => ce.newPoint.isNone) = ce :: l := by
      obtain ⟨cs', h3⟩ := assignPoint_isSome 0 ⟨ce, List.mem_of_find?_eq_some h1,
        by simpa using List.find?_some h1⟩
      exact ⟨_, assign_filter h1 h3⟩
    obtain ⟨l, hl⟩ := hf
    obtain ⟨a1, a2⟩ := h 0 r ce rec (by simp) (by rw [hl]; rfl) h2
    refine ⟨a1, a2, fun x cs' _ h4 => ih fun k r' ce' rec' e1 e2 e3 => ?_⟩
    refine h (k + 1) r' ce' rec' (by simpa using e1) ?_ e3
    rw [assign_filter h1 h4]
    simpa using e2

/-! ## What is known of the searches -/

/-- What is needed of the set-up. -/
structure SopRunOk (L : SopSetup d) : Prop where
  srbf : L.base.srbf = none
  batch : BatchOk L.base
  prob : ProbOk L.prob
  extras : ∀ e ∈ L.base.extras, Feasible L.prob e.1

/-- The centers are feasible and the radii between 1/40 and 1/5. -/
theorem search_ok {L : SopSetup d} (hL : SopRunOk L) {w : SopSys d} (h : SopLoopReach L w) :
    ∀ q ∈ sopSearches L w, Feasible L.prob q.1 ∧ 1 / 40 ≤ ((q.2 : ℚ) : ℝ) ∧ ((q.2 : ℚ) : ℝ) ≤ 1 / 5 := by
  have hs' : L.cfg.base.srbf = none := hL.srbf
  intro q hq
  unfold sopSearches at hq
  split at hq
  · cases hq
  · rename_i z2 hz2
    rw [Option.bind_eq_some_iff] at hz2
    obtain ⟨z1, h1, h2⟩ := hz2
    obtain ⟨e1, i1⟩ := firstRanks_keeps h1 (h.reach.cinv hs')
    have e2 := (updateCenterList_keeps h2).1
    have i2 := (updateCenterList_cinv h2 i1).1
    have e : z2.evals = w.sop.evals := by rw [e2, e1]
    have hall := C90_feasible hL.prob hL.srbf hL.extras h
    obtain ⟨ce, hce, rfl⟩ := List.mem_map.mp hq
    obtain ⟨v, hv⟩ := i2.at_ ce (List.mem_of_mem_filter hce)
    unfold archive at hv
    rw [List.getElem?_map] at hv
    obtain ⟨rec, hrec, hv⟩ := Option.map_eq_some_iff.mp hv
    have hxc : rec.x = ce.xc := congrArg Prod.fst hv
    have hmem : rec ∈ w.sop.evals := e ▸ List.mem_of_getElem? hrec
    refine ⟨hxc ▸ hall.2.2.2.2.2.1 rec hmem, ?_⟩
    simp only [hrec, Option.map_some, Option.getD_some]
    obtain ⟨b1, _, b3⟩ := C54_bounds hs' h.reach rec hmem
    have b1' : rec.nfail ≤ 3 := b1
    rw [b3]
    interval_cases rec.nfail <;> norm_num

theorem searchLaw_prob {L : SopSetup d} (hL : SopRunOk L) {w : SopSys d} (h : SopLoopReach L w) (m k : ℕ) :
    IsProbabilityMeasure (searchLaw L m (sopSearches L w)[k]?) := by
  cases hk : (sopSearches L w)[k]? with
  | none => unfold searchLaw; infer_instance
  | some q =>
    obtain ⟨xc, sigma⟩ := q
    obtain ⟨_, h1, _⟩ := search_ok hL h _ (List.mem_of_getElem? hk)
    have hr : 0 < ((sigma : ℚ) : ℝ) := lt_of_lt_of_le (by norm_num) h1
    have := drawLaw_prob hL.prob (scale_pos hL.prob hr (List.finRange d)) m (xbest := xc)
    unfold searchLaw dycorsLaw
    infer_instance

theorem sopEnvStep_reach {L : SopSetup d} {w w' : SopSys d} (h : SopLoopReach L w) (e : Env) (hs : sopEnvStep L w e = some w') :
    SopLoopReach L w' := by
  cases e with
  | accept i => exact .other (.accept i) h (by simp) hs
  | reject i => exact .other (.reject i) h (by simp) hs
  | complete i v => exact .other (.complete i v) h (by simp) hs
  | abort i => exact .other (.abort i) h (by simp) hs
  | update i => exact .other (.update i) h (by simp) hs
  | resume => cases hs; exact .resume h

/-- The range of the draws of one search. -/
def searchRange (L : SopSetup d) (m : ℕ) : Option (Pt d × ℚ) → Set (Outcome m d)
  | some (xc, sigma) => allIn m d 1 ×ˢ ranges L.prob m xc (scalefactors L.prob ((sigma : ℚ) : ℝ) (List.finRange d))
  | none => Set.univ

/-- The draws of one search with which a point within `ε` of `y` is found, if the perturbation probability is at least `q`. -/
def searchHits (L : SopSetup d) (m : ℕ) (q ε : ℝ) (y : Pt d) : Option (Pt d × ℚ) → Set (Outcome m d)
  | some (xc, sigma) => allIn m d q ×ˢ hits L.prob m xc (scalefactors L.prob ((sigma : ℚ) : ℝ) (List.finRange d)) y ε
  | none => Set.univ

theorem sopDraws_cands (L : SopSetup d) (D : List (Pt d)) (forced : Fin (wanted L.base) → Fin (m + 1) → ℕ) (z : SopOutcome L m)
    (k : Fin (wanted L.base)) : (sopDraws L D forced z).cands k.1 =
      { m := m
        draws := (z k).2
        u := fun j c => if h : c < d then (z k).1 j ⟨c, h⟩ else 0
        forced := forced k } := by
  simp only [sopDraws, k.2, dite_true]

theorem sopAsk_reach {L : SopSetup d} {S : Surr d} {D : List (Pt d)} (hD : DesignOf L.prob L.base.numPts D) {w w' : SopSys d}
    (h : SopLoopReach L w) {forced : Fin (wanted L.base) → Fin (m + 1) → ℕ} {z : SopOutcome L m}
    (hz : wantsPoints L.base w.sys.st → ∀ k, z k ∈ searchRange L m (sopSearches L w)[k.1]?)
    (hs : sopAsk L S D w forced z = some w') : SopLoopReach L w' := by
  by_cases hw : wantsPoints L.base w.sys.st
  · refine sopLoopStep_reach (L := L) (S := S) (f := fun _ => 0) h (.propose (sopDraws L D forced z)) ?_ hs
    intro r hr
    rw [← SEv.propose.inj hr]
    refine ⟨hD, fun z1 z2 hz1 hz2 => candsOk_of _ ?_⟩
    intro k r' ce rec e1 e2 e3
    rw [List.getElem?_map, Option.map_eq_some_iff] at e1
    obtain ⟨k', hk', rfl⟩ := e1
    obtain ⟨hk1, hk2⟩ := List.getElem?_eq_some_iff.mp hk'
    rw [List.length_range] at hk1
    rw [List.getElem_range] at hk2
    subst hk2
    have hsearch : (sopSearches L w)[k]? = some (ce.xc, rec.sigma) := by
      unfold sopSearches
      simp only [hz1, Option.bind_some, hz2]
      rw [List.getElem?_map, e2]
      simp [e3]
    have := hz hw ⟨k, hk1⟩
    simp only [hsearch] at this
    obtain ⟨t1, t2⟩ := this
    rw [sopDraws_cands L D forced z ⟨k, hk1⟩]
    refine ⟨fun j c => ?_, fun j i => t2 j trivial i trivial⟩
    dsimp only
    split_ifs with hc
    · exact t1 j trivial ⟨c, hc⟩ trivial
    · exact ⟨le_rfl, one_pos⟩
  · simp only [sopAsk, sopAnswer, if_neg hw, Option.bind_some] at hs
    exact .propose D [] h hD (fun hp => absurd hp hw) (fun _ => rfl) hs

theorem wanted_pos {L : SopSetup d} (hL : SopRunOk L) : 0 < wanted L.base := by
  unfold wanted
  rcases hL.batch with hb | hb
  · simp [hb]
  · split_ifs <;> omega

/-- If the last search hits the target, the proposed point is close to it. -/
theorem sopAsk_near {L : SopSetup d} (hL : SopRunOk L) {S : Surr d} {D : List (Pt d)} {w w' : SopSys d} (h : SopLoopReach L w)
    (hw : wantsPoints L.base w.sys.st) {q ε : ℝ} (hq : q ≤ probOf (State.perturbProb L.base d w.sys.st)) (hε : ε < 1 / 2) {y : Pt d}
    (hy : Feasible L.prob y) {forced : Fin (wanted L.base) → Fin (m + 1) → ℕ} {z : SopOutcome L m} {k : Fin (wanted L.base)}
    (hk : k.1 + 1 = wanted L.base) (hz : z k ∈ searchHits L m q ε y (sopSearches L w)[k.1]?)
    (hs : sopAsk L S D w forced z = some w') :
    (sopSearches L w)[k.1]? ≠ none ∧ ∃ x, (proposals w'.sys.st.log).getLast? = some x ∧ ∀ i, |x i - y i| ≤ ε := by
  unfold sopAsk at hs
  rw [Option.bind_eq_some_iff] at hs
  obtain ⟨pts, hg, hs⟩ := hs
  simp only [sopAnswer, if_pos hw, sopGen, Option.bind_eq_some_iff] at hg
  obtain ⟨z1, hz1, z2, hz2, hg⟩ := hg
  obtain ⟨ce, rec, x, e1, e2, e3, e4⟩ := sopPoints_get _ hg (k := k.1) (r := (sopDraws L D forced z).cands k.1)
    (by rw [List.getElem?_map, List.getElem?_range k.2]; rfl)
  have hsearch : (sopSearches L w)[k.1]? = some (ce.xc, rec.sigma) := by
    unfold sopSearches
    simp only [hz1, Option.bind_some, hz2]
    rw [List.getElem?_map, e1]
    simp [e2]
  refine ⟨by rw [hsearch]; simp, x, ?_, ?_⟩
  · have hs' : L.cfg.base.srbf = none := hL.srbf
    cases step_propose hs' (h.reach.inv hs').conv hs with
    | term ht =>
      obtain ⟨t1, t2, _⟩ := hw
      rcases ht with ht | ht
      · rw [t1] at ht; cases ht
      · exact absurd ht (not_le.mpr t2)
    | queue x' q' hq' _ => rw [hw.2.2.2.1] at hq'; simp at hq'
    | gen x' q' z' hpts _ _ _ _ =>
      have hx : x' = x := by
        have hlen : q'.length + 1 = wanted L.base := by
          have := congrArg List.length hpts
          simp only [List.length_map, List.length_range, List.length_append, List.length_cons, List.length_nil] at this
          rw [← this]; rfl
        have h2 := congrArg (fun l => l[k.1]?) hpts
        rw [List.getElem?_append_right (by omega), show k.1 - q'.length = 0 by omega, List.getElem?_cons_zero, List.getElem?_map,
          List.getElem?_range (show k.1 < genCount L.cfg.base from k.2)] at h2
        simp only [Option.map_some, Option.some.injEq, sopOracle] at h2
        rw [← h2, List.getD_eq_getElem?_getD, e3]
        rfl
      subst hx
      simp only [proposeLast, State.note, State.makeProposal, Strategy.proposals_append]
      rw [show proposals [Event.proposed x' .adapt] = [x'] from rfl, List.getLast?_append]
      rfl
    | genNone z' hn _ _ _ _ =>
      have : wanted L.base = 0 := hn
      have := wanted_pos hL
      omega
    | wait _ _ ha hp =>
      rcases hw.2.2.2.2 with h1 | h1
      · rw [show L.cfg.base.asynchronous = L.base.asynchronous from rfl, h1] at ha; cases ha
      · exact absurd h1 hp
  · rw [hsearch] at hz
    obtain ⟨hz1', hz2'⟩ := hz
    obtain ⟨hc, hr1, _⟩ := search_ok hL h _ (List.mem_of_getElem? hsearch)
    have hr0 : 0 < ((rec.sigma : ℚ) : ℝ) := lt_of_lt_of_le (by norm_num) hr1
    unfold sopPoint at e4
    split at e4
    · cases e4
    · rw [Option.bind_eq_some_iff] at e4
      obtain ⟨pred, _, e4⟩ := e4
      rw [Option.bind_eq_some_iff] at e4
      obtain ⟨l, hl, hx⟩ := e4
      have hcand := sopDraws_cands L D forced z k
      rw [hcand] at hl
      simp only at hl
      rw [dycors_all] at hl
      · rw [Option.some.injEq] at hl
        subst hl
        have hmem := List.mem_of_mem_head? hx
        unfold weightedDistanceMerit at hmem
        obtain ⟨b, _, hb⟩ := List.mem_map.mp hmem
        intro i
        rw [← hb]
        exact hits_near (scale_pos hL.prob hr0 _) hy hε hz2' b i
      · intro j i
        simp only [i.2, dite_true]
        exact (hz1' j trivial i trivial).2.trans_le hq

/-- Whole runs: `good` states are those in which the perturbation probability is at least `q`. -/
theorem sopMiss_bound {L : SopSetup d} (hL : SopRunOk L) (m : ℕ) {ε q : ℝ} (hε : 0 < ε) (hε4 : ε ≤ 1 / 4) (hq1 : q ≤ 1)
    {good : State (Pt d) → Prop}
    (hgood : ∀ w, SopLoopReach L w → wantsPoints L.base w.sys.st → good w.sys.st → q ≤ probOf (State.perturbProb L.base d w.sys.st))
    {y : Pt d} (hy : Feasible L.prob y) (P : SopPlan L m) (n : ℕ) (w : SopSys d) (h : SopLoopReach L w) :
    sopMiss good (fun x => ∀ i, |x i - y i| ≤ ε) P n w ≤
      (1 - (ENNReal.ofReal q ^ d) ^ (m + 1) * stepChance L.prob m ε (1 / 40) (1 / 5)) ^ n := by
  set κ := (ENNReal.ofReal q ^ d) ^ (m + 1) * stepChance L.prob m ε (1 / 40) (1 / 5) with hκ
  induction P generalizing n w with
  | stop =>
    unfold sopMiss
    split_ifs with h0
    · rw [h0, pow_zero]
    · exact zero_le
  | env e next ih =>
    unfold sopMiss
    split_ifs with h0
    · rw [h0, pow_zero]
    · split
      · exact zero_le
      · rename_i w' hs
        exact ih n w' (sopEnvStep_reach h e hs)
  | ask S D hD forced next ih =>
    unfold sopMiss
    split_ifs with h0 hw hg
    · rw [h0, pow_zero]
    · obtain ⟨n, rfl⟩ : ∃ k, n = k + 1 := ⟨n - 1, by omega⟩
      have hpos := wanted_pos hL
      obtain ⟨last, hlast⟩ : ∃ k : Fin (wanted L.base), k.1 + 1 = wanted L.base := ⟨⟨wanted L.base - 1, by omega⟩, by simp; omega⟩
      by_cases hne : (sopSearches L w)[last.1]? = none
      · refine (upperInt_le (g := fun _ => 0) measurable_const fun z => ?_).trans (by simp)
        cases hs : sopAsk L S D w (forced z) z with
        | none => exact le_rfl
        | some w' => exact absurd hne (sopAsk_near hL h hw (q := q) (ε := ε) (hgood w h hw hg) (by linarith) hy hlast (by
            rw [hne]; trivial) hs).1
      · obtain ⟨⟨xc, sigma⟩, hq⟩ := Option.ne_none_iff_exists'.mp hne
        have hprob := searchLaw_prob hL h m
        have hpr : IsProbabilityMeasure (sopLaw L m w) := by
          unfold sopLaw
          have : ∀ k : Fin (wanted L.base), IsProbabilityMeasure (searchLaw L m (sopSearches L w)[k.1]?) := fun k => hprob k
          infer_instance
        have hsf : ∀ k : Fin (wanted L.base), IsProbabilityMeasure (searchLaw L m (sopSearches L w)[k.1]?) := fun k => hprob k
        obtain ⟨hc, hr1, hr2⟩ := search_ok hL h _ (List.mem_of_getElem? hq)
        have hr0 : 0 < ((sigma : ℚ) : ℝ) := lt_of_lt_of_le (by norm_num) hr1
        have hσ := scale_pos hL.prob hr0 (List.finRange d)
        have hpd := drawLaw_prob hL.prob hσ m (xbest := xc)
        rw [pow_succ', Nat.add_sub_cancel]
        refine upperInt_bound (B := Set.pi Set.univ fun k => if k = last then searchHits L m q ε y (sopSearches L w)[k.1]? else Set.univ)
          (T := Set.pi Set.univ fun k : Fin (wanted L.base) => searchRange L m (sopSearches L w)[k.1]?) ?_ ?_ ?_ ?_ ?_ ?_
        · refine MeasurableSet.univ_pi fun k => ?_
          split_ifs with hk
          · rw [hk, hq]
            exact (allIn_measurable m d q).prod (hits_measurable ..)
          · exact MeasurableSet.univ
        · refine MeasurableSet.univ_pi fun k => ?_
          cases (sopSearches L w)[k.1]? with
          | none => exact MeasurableSet.univ
          | some p => exact (allIn_measurable m d 1).prod (ranges_measurable ..)
        · unfold sopLaw
          rw [Measure.pi_pi]
          refine Finset.prod_eq_one fun k _ => ?_
          cases hk : (sopSearches L w)[k.1]? with
          | none => rw [← hk, searchRange.eq_def]; rw [hk]; simp [searchLaw]
          | some p =>
            obtain ⟨xc', sigma'⟩ := p
            obtain ⟨_, hs1, _⟩ := search_ok hL h _ (List.mem_of_getElem? hk)
            have hs0 : 0 < ((sigma' : ℚ) : ℝ) := lt_of_lt_of_le (by norm_num) hs1
            have hσ' := scale_pos hL.prob hs0 (List.finRange d)
            have := drawLaw_prob hL.prob hσ' m (xbest := xc')
            simp only [searchLaw, searchRange, dycorsLaw]
            rw [Measure.prod_prod, drawLaw_ranges hL.prob hσ' m, allIn_chance m d le_rfl]
            simp
        · unfold sopLaw
          rw [Measure.pi_pi, Finset.prod_eq_single last]
          · rw [if_pos rfl, hq]
            simp only [searchLaw, searchHits, dycorsLaw]
            rw [Measure.prod_prod, allIn_chance m d hq1]
            exact mul_le_mul' le_rfl (drawLaw_hits hL.prob hc.1 hy.1 hε (by norm_num) hr1 hr2 m)
          · intro k _ hk
            rw [if_neg hk, measure_univ]
          · exact fun h' => absurd (Finset.mem_univ _) h'
        · intro z hz _
          have hz' := hz last trivial
          beta_reduce at hz'
          rw [if_pos rfl] at hz'
          split
          · rfl
          · rename_i w' hs
            exact if_pos (sopAsk_near hL h hw (hgood w h hw hg) (by linarith) hy hlast hz' hs).2
        · intro z hz
          split
          · exact zero_le
          · rename_i w' hs
            split_ifs
            · exact zero_le
            · exact ih z n w' (sopAsk_reach hD h (fun _ k => hz k trivial) hs)
    · exact zero_le
    · split
      · exact zero_le
      · rename_i w' hs
        exact ih 0 n w' (sopAsk_reach hD h (fun hp => absurd hp hw) hs)

/-- A larger neighbourhood is missed less often. -/
theorem sopMiss_mono {L : SopSetup d} {good : State (Pt d) → Prop} {near near' : Pt d → Prop} (hn : ∀ x, near x → near' x)
    (P : SopPlan L m) (n : ℕ) (w : SopSys d) : sopMiss good near' P n w ≤ sopMiss good near P n w := by
  induction P generalizing n w with
  | stop => exact le_rfl
  | env e next ih =>
    unfold sopMiss
    split_ifs
    · exact le_rfl
    · split
      · exact le_rfl
      · exact ih _ _
  | ask S D hD forced next ih =>
    unfold sopMiss
    split_ifs
    · exact le_rfl
    · refine le_iInf fun g => le_iInf fun hg => le_iInf fun hle => upperInt_le hg fun z => ?_
      refine le_trans ?_ (hle z)
      beta_reduce
      cases hs : sopAsk L S D w (forced z) z with
      | none => exact le_rfl
      | some w' =>
        simp only
        by_cases h1 : ∃ x, (proposals w'.sys.st.log).getLast? = some x ∧ near x
        · obtain ⟨x, hx, hx'⟩ := h1
          rw [if_pos ⟨x, hx, hn x hx'⟩]
          exact zero_le
        · rw [if_neg h1]
          split_ifs
          · exact zero_le
          · exact ih _ _ _
    · exact le_rfl
    · split
      · exact le_rfl
      · exact ih _ _ _

/-- SOP: full statement as for SRBF.  Proved for whole runs with budgets of at least two adaptive evaluations, any number of centers,
synchronous or not, for the events of the first `n` generations before which nothing was rejected, aborted or lost in a crash and
no point was in flight twice; otherwise the perturbation probability may be NaN (as for DYCORS, `C125_dycors_refuted`). -/
theorem C125_sop_partial {p : OptProb d} (ok : ProbOk p) (hd : 1 ≤ d) (m : ℕ) {ε : ℝ} (hε : 0 < ε) :
    ∃ κ : ℝ≥0∞, 0 < κ ∧ ∀ L : SopSetup d, L.prob = p → L.base.srbf = none → BatchOk L.base →
      (∀ e ∈ L.base.extras, Feasible p e.1) → (L.base.numPts : ℤ) + 2 ≤ L.base.maxEvals →
      ∀ y, Feasible p y → ∀ (P : SopPlan L m) (n : ℕ) (w : SopSys d), SopLoopReach L w →
      sopMiss (fun s => (∀ e ∈ s.log, isLoss e = false) ∧ ∀ l, l <+: s.log → (openPoints l).Nodup)
        (fun x => ∀ i, |x i - y i| ≤ ε) P n w ≤ (1 - κ) ^ n := by
  have hε' : 0 < min ε (1 / 4) := lt_min hε (by norm_num)
  have hd' : (0 : ℝ) < d := by exact_mod_cast hd
  refine ⟨(ENNReal.ofReal (1 / d) ^ d) ^ (m + 1) * stepChance p m (min ε (1 / 4)) (1 / 40) (1 / 5), ?_, ?_⟩
  · refine ENNReal.mul_pos (pow_ne_zero _ (pow_ne_zero _ ?_)) (stepChance_pos ok m hε').ne'
    rw [ne_eq, ENNReal.ofReal_eq_zero, not_le]; positivity
  rintro L rfl hm hb hx hM y hy P n w h
  refine (sopMiss_mono (fun x hx i => (hx i).trans (min_le_left ε (1 / 4))) P n w).trans
    (sopMiss_bound ⟨hm, hb, ok, hx⟩ m hε' (min_le_right _ _) (by rw [div_le_one hd']; exact_mod_cast hd) (fun w hw hp hg => ?_) hy P n w h)
  obtain ⟨p, h1, h2, _⟩ := C25_reachable_partial hd hM hw.reach.base hp.2.2.2.1 hg.1 hg.2
  have h1' : State.perturbProb L.base d w.sys.st = .fin p := h1
  rw [h1']
  exact h2

/-! ## A concrete state -/

theorem two_open {a b : Pt 1} (hne : a ≠ b) (q : List (Pt 1)) (i j : ℕ) (u v : Val) (s t : ℕ) :
    ∀ l, l <+: [Event.start q, .proposed a .init, .proposed b .init, .accepted a .init i, .accepted b .init j,
      .completed a .init u s, .completed b .init v t] → (openPoints l).Nodup := by
  intro l hp
  obtain ⟨k, hk⟩ : ∃ k, k = l.length := ⟨_, rfl⟩
  have h1 := List.prefix_iff_eq_take.mp hp
  have h2 := hp.length_le
  simp only [List.length_cons, List.length_nil] at h2
  rw [← hk] at h1 h2
  rw [h1]
  interval_cases k <;> simp [openPoints, openStep, hne, hne.symm]

/-- The design of `pairSetup` has been evaluated and nothing has been lost. -/
theorem pair_good : ∃ w : SopSys 1, SopLoopReach pairSetup w ∧ wantsPoints pairSetup.base w.sys.st ∧
    (∀ e ∈ w.sys.st.log, isLoss e = false) ∧ ∀ l, l <+: w.sys.st.log → (openPoints l).Nodup := by
  have hD : DesignOf pairSetup.prob pairSetup.base.numPts [fun _ => 0, fun _ => 1] := design_unit unitProb rfl rfl
  have c0 : SopLoopReach pairSetup _ := .create _ hD
  have c1 := SopLoopReach.propose _ [] c0 hD (fun h => by cases h.2.2.2.1) (fun _ => rfl) rfl
  have c2 := SopLoopReach.propose _ [] c1 hD (fun h => by cases h.2.2.2.1) (fun _ => rfl) rfl
  have c3 := SopLoopReach.other (.accept 0) c2 (by simp) rfl
  have c4 := SopLoopReach.other (.accept 0) c3 (by simp) rfl
  have c5 := SopLoopReach.other (.complete 0 0) c4 (by simp) rfl
  have c6 := SopLoopReach.other (.complete 0 1) c5 (by simp) rfl
  refine ⟨_, c6, ⟨rfl, by decide, rfl, rfl, .inr rfl⟩, ?_⟩
  generalize hlog : SopSys.sys _ = s
  have hl : s.st.log = [.start [fun _ => 0, fun _ => 1], .proposed (fun _ => 1) .init, .proposed (fun _ => 0) .init,
      .accepted (fun _ => 1) .init 1, .accepted (fun _ => 0) .init 2, .completed (fun _ => 1) .init 0 3,
      .completed (fun _ => 0) .init 1 4] := by rw [← hlog]; rfl
  rw [hl]
  constructor
  · simp [isLoss]
  · intro l hp
    have hne : (fun _ => 1 : Pt 1) ≠ fun _ => 0 := fun h => by simpa using congrFun h 0
    exact two_open hne _ _ _ _ _ _ _ l hp

/-- So a point within 1/10 of 1/2 is missed in `n` generations of synchronous SOP with probability at most `(1 - κ) ^ n`. -/
example (m : ℕ) : ∃ κ : ℝ≥0∞, 0 < κ ∧ ∃ w : SopSys 1, SopLoopReach pairSetup w ∧ wantsPoints pairSetup.base w.sys.st ∧
    ∀ (P : SopPlan pairSetup m) (n : ℕ), sopMiss (fun s => (∀ e ∈ s.log, isLoss e = false) ∧ ∀ l, l <+: s.log → (openPoints l).Nodup)
      (fun x => ∀ i, |x i - 1 / 2| ≤ 1 / 10) P n w ≤ (1 - κ) ^ n := by
  obtain ⟨κ, hκ, H⟩ := C125_sop_partial unitProb_ok le_rfl m (ε := 1 / 10) (by norm_num)
  obtain ⟨w, h1, h2, _⟩ := pair_good
  refine ⟨κ, hκ, w, h1, h2, fun P n => H pairSetup rfl rfl (.inr (by decide)) (by simp [pairSetup]) (by decide) (fun _ => 1 / 2) ?_ P n w h1⟩
  exact ⟨fun i => by norm_num [unitProb], fun i hi => by simp [unitProb] at hi⟩

end Verif.Props
