import Verif.Loop.Apart
import Verif.Props.Exact
import Verif.Props.Loop

/-! # Property C130: the points evaluated by EI and LCB keep their distance -/

set_option linter.unusedSectionVars false

namespace Verif.Props

open Verif.Num Verif.Utils Verif.Cand Verif.Design Verif.Strategy Verif.Spec Verif.Loop

variable {d : ℕ} {L : Setup d}

/-- The number of cells of a grid on the box whose cells have a diameter of at most `δ`. -/
noncomputable def cells (lb ub : Pt d) (δ : ℝ) : ℕ := ∏ i, (⌊(ub i - lb i) * √d / δ⌋₊ + 1)

theorem cell_close {x y : Pt d} {lb : Pt d} {δ : ℝ} (hδ : 0 < δ) (hx : ∀ i, lb i ≤ x i) (hy : ∀ i, lb i ≤ y i)
    (h : ∀ i, ⌊(x i - lb i) * √d / δ⌋₊ = ⌊(y i - lb i) * √d / δ⌋₊) (hd : 0 < d) : eucl x y < δ := by
  have hd' : (0 : ℝ) < d := by exact_mod_cast hd
  have hs : (0 : ℝ) < √d := Real.sqrt_pos.mpr hd'
  have one : ∀ i, (x i - y i) ^ 2 < δ ^ 2 / d := by
    intro i
    have nx : 0 ≤ (x i - lb i) * √d / δ := div_nonneg (mul_nonneg (sub_nonneg.mpr (hx i)) hs.le) hδ.le
    have ny : 0 ≤ (y i - lb i) * √d / δ := div_nonneg (mul_nonneg (sub_nonneg.mpr (hy i)) hs.le) hδ.le
    have a1 := Nat.floor_le nx
    have a2 := Nat.lt_floor_add_one ((x i - lb i) * √d / δ)
    have b1 := Nat.floor_le ny
    have b2 := Nat.lt_floor_add_one ((y i - lb i) * √d / δ)
    rw [h i] at a1 a2
    have c : |(x i - lb i) * √d / δ - (y i - lb i) * √d / δ| < 1 := abs_lt.mpr ⟨by linarith, by linarith⟩
    have e : (x i - lb i) * √d / δ - (y i - lb i) * √d / δ = (x i - y i) * √d / δ := by ring
    rw [e] at c
    have c2 := (sq_lt_one_iff_abs_lt_one _).mpr c
    have e2 : ((x i - y i) * √d / δ) ^ 2 = (x i - y i) ^ 2 * d / δ ^ 2 := by
      rw [div_pow, mul_pow, Real.sq_sqrt hd'.le]
    rw [e2, div_lt_one (by positivity)] at c2
    rwa [lt_div_iff₀ hd']
  unfold eucl
  rw [Real.sqrt_lt' hδ]
  haveI : Nonempty (Fin d) := ⟨⟨0, hd⟩⟩
  calc ∑ i, (x i - y i) ^ 2 < ∑ _i : Fin d, δ ^ 2 / d := Finset.sum_lt_sum_of_nonempty Finset.univ_nonempty fun i _ => one i
    _ = δ ^ 2 := by
      rw [Finset.sum_const, Finset.card_univ, Fintype.card_fin, nsmul_eq_mul]
      field_simp

/-- Points of the box that keep the distance `δ` are not more than there are cells. -/
theorem packing {l : List (Pt d)} {lb ub : Pt d} {δ : ℝ} (hδ : 0 < δ) (hl : l.Nodup) (hb : ∀ x ∈ l, InBox lb ub x)
    (hs : ∀ x ∈ l, ∀ y ∈ l, x ≠ y → δ ≤ eucl x y) : l.length ≤ cells lb ub δ := by
  classical
  rcases Nat.eq_zero_or_pos d with hd | hd
  · subst hd
    have : cells lb ub δ = 1 := by simp [cells]
    rw [this]
    match l, hl with
    | [], _ => simp
    | [_], _ => simp
    | x :: y :: t, hl => exact absurd (Subsingleton.elim x y) (by simp at hl; exact hl.1.1)
  have hsq : (0 : ℝ) ≤ √d := Real.sqrt_nonneg _
  let f : {x // x ∈ l.toFinset} → (i : Fin d) → Fin (⌊(ub i - lb i) * √d / δ⌋₊ + 1) := fun x i =>
    ⟨⌊(x.1 i - lb i) * √d / δ⌋₊, Nat.lt_succ_of_le (Nat.floor_le_floor (by
      have := (hb x.1 (List.mem_toFinset.mp x.2) i).2
      gcongr))⟩
  have hf : Function.Injective f := by
    intro x y hxy
    by_contra hne
    have hx := List.mem_toFinset.mp x.2
    have hy := List.mem_toFinset.mp y.2
    have := hs x.1 hx y.1 hy (fun h => hne (Subtype.ext h))
    have h2 := cell_close hδ (fun i => (hb x.1 hx i).1) (fun i => (hb y.1 hy i).1)
      (fun i => congrArg Fin.val (congrFun hxy i)) hd
    linarith
  have := Fintype.card_le_of_injective f hf
  rw [Fintype.card_coe, List.toFinset_card_of_nodup hl, Fintype.card_pi] at this
  simpa [cells] using this

/-- The evaluations of a run: completed, in flight, or decided on. -/
def evaluations (w : Sys (Pt d)) : List (Pt d) := (completions w.st.log).map Prod.fst ++ w.inflight ++ w.st.batchQueue

theorem alive_iff (w : Sys (Pt d)) (x : Pt d) : Alive w x ↔ x ∈ evaluations w := by
  unfold Alive evaluations Sys.inflight
  simp only [List.mem_append]
  tauto

/-- EI (with a positive tolerance) and LCB, up to the first restart, with pairwise different initial points: no point is evaluated
twice, and any two evaluations, of which at least one was chosen by the strategy, are at least `dtol` apart. -/
theorem C130_apart (ok : ProbOk L.prob) (hm : Separating L.method) {w : Sys (Pt d)} (h : LoopReach L w)
    (hn : ∀ q, Event.restart q ∉ w.st.log) (hd : ∀ q, Event.start q ∈ w.st.log → q.Nodup) :
    (evaluations w).Nodup ∧ ∀ x ∈ evaluations w, ∀ y ∈ evaluations w, x ≠ y →
      x ∈ adaptivePoints w.st.log ∨ y ∈ adaptivePoints w.st.log → sepDist L.method ≤ eucl x y := by
  obtain ⟨h1, h2⟩ := h.far ok hm hn hd
  constructor
  · have ho := h.reach.once h1
    rw [List.nodup_iff_count]
    intro x
    have := ho.count x
    simp only [evaluations, Sys.inflight, List.count_append]
    omega
  · have hs : ∀ x y : Pt d, sepDist L.method ≤ eucl x y → sepDist L.method ≤ eucl y x := fun x y hxy => by rwa [eucl_comm]
    have ha := h.reach.apart hs (fun x hx => by rw [eucl_self] at hx; linarith [hm.pos]) hn h2
    rintro x hx y hy hne (hc | hc)
    · exact ha x y ((alive_iff w x).mpr hx) ((alive_iff w y).mpr hy) hne hc
    · exact hs _ _ (ha y x ((alive_iff w y).mpr hy) ((alive_iff w x).mpr hx) hne.symm hc)

/-- The bound behind `C130_bound`, for every moment of the run. -/
theorem counted_bound {lb ub : Pt d} {δ : ℝ} (hδ : 0 < δ) {cfg : Config (Pt d)} {v : Sys (Pt d)}
    (hv : Counted (fun x y => δ ≤ eucl x y) cfg v) (hn : ∀ q, Event.restart q ∉ v.st.log) (h1 : FreshRun v.st.log)
    (h2 : FarRun (fun x y => δ ≤ eucl x y) v.st.log) (hb : ∀ x ∈ sources v.st.log, InBox lb ub x) :
    (evaluations v).length ≤ cfg.numPts + (unknown cfg.extras).length + cells lb ub δ := by
  classical
  have ho := hv.once h1
  have ha := hv.apart hn h2
  have nd : (evaluations v).Nodup := by
    rw [List.nodup_iff_count]
    intro x
    have := ho.count x
    simp only [evaluations, Sys.inflight, List.count_append]
    omega
  have src : ∀ x ∈ evaluations v, x ∈ sources v.st.log := by
    intro x hx
    simp only [evaluations, List.mem_append] at hx
    rcases hx with (hx | hx) | hx
    · refine hv.sourced.completions x ?_
      obtain ⟨⟨a, b⟩, hab, rfl⟩ := List.mem_map.mp hx
      simp only [completions, List.mem_filterMap] at hab
      obtain ⟨e, he, hab⟩ := hab
      refine List.mem_map.mpr ⟨(a, some b), List.mem_filterMap.mpr ⟨e, he, ?_⟩, rfl⟩
      cases e <;> simp_all
    · exact hv.sourced.inflight x hx
    · exact hv.sourced.queue x hx
  obtain ⟨D, hD⟩ := hv.extras.start
  have hstart : ∀ x ∈ sources v.st.log, x ∈ adaptivePoints v.st.log ∨
      x ∈ (List.range cfg.numPts).map D ++ unknownExtras cfg := by
    intro x hx
    simp only [sources, List.mem_flatMap] at hx
    obtain ⟨e, he, hx⟩ := hx
    cases e with
    | start q =>
      right
      cases hl : v.st.log with
      | nil => rw [hl] at he; simp at he
      | cons a t =>
        have h3 := hv.extras.starts q
        rw [hl] at hD he h3
        simp only [List.head?_cons, Option.some.injEq] at hD
        rcases List.mem_cons.mp he with he | he
        · rw [← he] at hD
          simp only [Event.start.injEq] at hD
          rw [← hD]; exact hx
        · exact absurd he h3
    | restart q => exact absurd he (hn q)
    | generated q ws =>
      left
      exact List.mem_flatMap.mpr ⟨_, he, hx⟩
    | _ => simp at hx
  have split := (evaluations v).length_eq_length_filter_add (fun x => decide (x ∈ adaptivePoints v.st.log))
  have p1 : ((evaluations v).filter fun x => decide (x ∈ adaptivePoints v.st.log)).length ≤ cells lb ub δ := by
    refine packing hδ (nd.filter _) (fun x hx => hb x (src x (List.mem_filter.mp hx).1)) fun x hx y hy hne => ?_
    have hx' := List.mem_filter.mp hx
    have hy' := List.mem_filter.mp hy
    exact ha x y ((alive_iff v x).mpr hx'.1) ((alive_iff v y).mpr hy'.1) hne (by simpa using hx'.2)
  have p2 : ((evaluations v).filter fun x => !decide (x ∈ adaptivePoints v.st.log)).length ≤
      cfg.numPts + (unknown cfg.extras).length := by
    have hsub : ((evaluations v).filter fun x => !decide (x ∈ adaptivePoints v.st.log)) ⊆
        (List.range cfg.numPts).map D ++ unknownExtras cfg := by
      intro x hx
      have hx' := List.mem_filter.mp hx
      rcases hstart x (src x hx'.1) with h | h
      · simp [h] at hx'
      · exact h
    have := ((nd.filter fun x => !decide (x ∈ adaptivePoints v.st.log)).subperm hsub).length_le
    simpa [unknown_eq] using this
  omega

/-- EI (with a positive tolerance) and LCB, up to the first restart, with pairwise different initial points and feasible extra
points: the number of evaluations has a bound that does not depend on `max_evals`, namely the initial points plus the number of
cells of diameter at most `dtol` that cover the box. -/
theorem C130_bound (ok : ProbOk L.prob) (hm : Separating L.method) (hbs : BatchOk L.cfg)
    (hx : ∀ e ∈ L.cfg.extras, Feasible L.prob e.1) {w : Sys (Pt d)} (h : LoopReach L w)
    (hn : ∀ q, Event.restart q ∉ w.st.log) (hd : ∀ q, Event.start q ∈ w.st.log → q.Nodup) :
    (evaluations w).length ≤ L.cfg.numPts + (unknown L.cfg.extras).length + cells L.prob.lb L.prob.ub (sepDist L.method) := by
  obtain ⟨h1, h2⟩ := h.far ok hm hn hd
  have hc := (h.reach.counted (R := fun x y => sepDist L.method ≤ eucl x y) (fun x y hxy => by rwa [eucl_comm])
    fun x hx => by rw [eucl_self] at hx; linarith [hm.pos]).inv
  exact counted_bound hm.pos hc hn h1 h2 fun x hh => (((h.reachF ok hbs hx).sources hx).1 x hh).1

/-- So in a run without restarts, a budget above that bound is never used up: EI/LCB never return a terminate action (and the
controller waits for ever, see `C11_refuted`). -/
theorem C130_never_terminates (ok : ProbOk L.prob) (hm : Separating L.method) (hbs : BatchOk L.cfg)
    (hx : ∀ e ∈ L.cfg.extras, Feasible L.prob e.1) (hur : L.cfg.useRestarts = false)
    (hmax : ((L.cfg.numPts + (unknown L.cfg.extras).length + cells L.prob.lb L.prob.ub (sepDist L.method) : ℕ) : ℤ) < L.cfg.maxEvals)
    {w : Sys (Pt d)} (h : LoopReach L w) (hd : ∀ q, Event.start q ∈ w.st.log → q.Nodup) (o : Oracle (Pt d)) (s' : State (Pt d)) :
    w.st.proposeAction L.cfg o ≠ some (.terminate, s') := by
  have hn := h.reach.noRestart hur
  obtain ⟨h1, h2⟩ := h.far ok hm hn hd
  have hc := h.reach.counted (R := fun x y => sepDist L.method ≤ eucl x y) (fun x y hxy => by rwa [eucl_comm])
    fun x hx => by rw [eucl_self] at hx; linarith [hm.pos]
  have hf := ((h.reachF ok hbs hx).sources hx).1
  have key : ∀ v : Sys (Pt d), Counted (fun x y => sepDist L.method ≤ eucl x y) L.cfg v → v.st.log <+: w.st.log →
      v.st.numEvals + v.st.pendingEvals < L.cfg.maxEvals := by
    rintro v hv ⟨m, hp⟩
    have hb := counted_bound (lb := L.prob.lb) (ub := L.prob.ub) hm.pos hv (fun q hq => hn q (by rw [← hp]; exact List.mem_append_left _ hq))
      (h1.of_eq hp.symm) (h2.of_eq hp.symm) fun x hh => (hf x (by
        rw [← hp, sources_append]; exact List.mem_append_left _ hh)).1
    have hbk := hv.extras.book
    rw [hbk.num, hbk.pending]
    simp only [evaluations, Sys.inflight, List.length_append, List.length_map] at hb
    omega
  intro hp
  rcases (proposeAction_terminate_iff hp).1 with ht | ht
  · obtain ⟨v, a, b, c⟩ := hc.moment ht
    have := key v a b
    omega
  · have := key w hc.inv (List.prefix_refl _)
    omega

/-- The hypotheses of the theorems of this section are met by a run with chosen points: LCB on the unit interval with `dtol = 0.5`
and a budget of 10 evaluations, of which at most 5 can be used. -/
example : cells unitProb.lb unitProb.ub (1 / 2) = 3 ∧ ∃ w, LoopReach ⟨unitProb, loopCfg [], .lcb 2 (some 0) (1 / 2)⟩ w ∧
    w.inflight = [fun _ => 1 / 2] ∧ (completions w.st.log).map Prod.fst = [fun _ => 1, fun _ => 0] ∧
    (∀ q, Event.restart q ∉ w.st.log) ∧ (∀ q, Event.start q ∈ w.st.log → q.Nodup) := by
  refine ⟨by norm_num [cells, unitProb, Fin.prod_univ_one], ?_⟩
  obtain ⟨w, h1, h2, h3, _⟩ := loop_demo unitProb (.lcb 2 (some 0) (1 / 2)) [] (by simp) (fun _ => 0) (fun _ => 1) (fun _ => 1 / 2) 0 0
    (design_unit _ rfl rfl) (fun s a b c e => lcb_gen_at (1 / 2) le_rfl [] 0 (by simp [known, lowest]) s a b c e)
  have ok := unitProb_ok
  have hf := h1.fresh ok (by norm_num [Separating]) rfl (by simp [loopCfg])
  refine ⟨w, h1, h2, h3, h1.reach.noRestart rfl, fun q hq => ?_⟩
  obtain ⟨a, b, hab⟩ := List.append_of_mem hq
  exact hf a (.start q) (by rw [hab]; exact ⟨b, by simp⟩)

example : BatchOk (loopCfg []) ∧ Separating (.lcb 2 (some 0) (1 / 2)) ∧ (2 + (unknown (loopCfg []).extras).length + 3 : ℤ) < (loopCfg []).maxEvals :=
  ⟨.inl rfl, by norm_num [Separating], by norm_num [loopCfg, unknown]⟩

end Verif.Props
