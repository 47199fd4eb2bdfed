import Verif.Units.Surr
import Verif.Props.Loop
import Verif.Strategy.Induct

/-! # Property C100: the units of the objective -/

namespace Verif.Props

open Verif.Num Verif.Utils Verif.Cand Verif.Design Verif.Strategy Verif.Spec Verif.Loop

variable {d : ℕ}

/-! ## Every run of `loopRun` is a run of the closed loop -/

/-- The draws are in the ranges of the distributions (the truncated normal distribution is centered at the best point). -/
def RndOk (L : Setup d) (s : State (Pt d)) (r : Rnd d) : Prop :=
  DesignOf L.prob L.cfg.numPts r.design ∧ r.runs.length = wanted L.cfg ∧
  (∀ g ∈ r.runs, ∀ q i, 0 ≤ g.unit q i ∧ g.unit q i ≤ 1) ∧ (∀ j c, 0 ≤ r.u j c ∧ r.u j c < 1) ∧
  ∀ (k : ℕ) (X : Fin (k + 1) → Pt d) (fX : Fin (k + 1) → ℝ) (z : Srbf), s.curX = List.ofFn X →
    s.curFX.map (fun v => ((v : ℚ) : ℝ)) = List.ofFn fX → s.srbf = some z →
    ∀ j i, DrawOk L.prob (xbestOf X fX) (scalefactors L.prob ((z.radius : ℚ) : ℝ) (List.finRange d)) i (r.draws j i)

theorem probOf_gt (p : NF) (v : ℝ) (h0 : 0 ≤ v) (h1 : v < 1) : v < probOf p ↔ p.gt v := by
  cases p <;> simp [probOf, NF.gt, h1, h0]

theorem gen_genOf {L : Setup d} (hL : (∃ t e, L.method = .ei t e) ∨ (∃ k t e, L.method = .lcb k t e) → L.cfg.srbf = none)
    {S : Surr d} {s : State (Pt d)} {r : Rnd d} {g : Option (List (Pt d))} (hr : RndOk L s r)
    (h : gen L S s (wanted L.cfg) r = some g) : GenOf L s (wanted L.cfg) g := by
  obtain ⟨_, h2, h3, h4, h5⟩ := hr
  unfold gen at h
  cases hX : s.curX with
  | nil => rw [hX] at h; cases h
  | cons x0 xs =>
    rw [hX] at h
    simp only at h
    split_ifs at h with hc
    have e1 : s.curX = List.ofFn fun i : Fin (xs.length + 1) => (x0 :: xs)[i] := by
      rw [hX]; exact (List.ofFn_getElem (xs := x0 :: xs)).symm
    have e2 : s.curFX.map (fun v => ((v : ℚ) : ℝ)) =
        List.ofFn fun i : Fin (xs.length + 1) => ((s.curFX[i]'(by rw [hc.1]; exact i.2) : ℚ) : ℝ) := by
      apply List.ext_getElem
      · simp [hc.1]
      · intro i h1 h2; simp only [List.getElem_map, List.getElem_ofFn]; rfl
    have h5 := fun z hz => h5 xs.length _ _ z e1 e2 hz
    generalize hf : (fun i : Fin (xs.length + 1) => ((s.curFX[i]'(by rw [hc.1]; exact i.2) : ℚ) : ℝ)) = fX at e2 h5 h
    refine ⟨xs.length, _, fX, e1, e2, ?_⟩
    clear hf
    obtain ⟨prob, cfg, method⟩ := L
    cases method with
    | srbf =>
      simp only [genWith] at h
      split at h
      · rename_i sc z pred hsc hz hp
        rw [Option.map_eq_some_iff] at h
        obtain ⟨⟨ws, next⟩, hw, rfl⟩ := h
        exact ⟨sc, z, ws, next, hsc, hz, hw, r.m, pred, r.draws, fun j i _ => h5 z hz j i, rfl⟩
      · cases h
    | dycors =>
      simp only [genWith] at h
      split at h
      · rename_i sc z pred hsc hz hp
        rw [Option.bind_eq_some_iff] at h
        obtain ⟨⟨ws, next⟩, hw, h⟩ := h
        rw [Option.map_eq_some_iff] at h
        obtain ⟨res, hres, rfl⟩ := h
        exact ⟨sc, z, ws, next, hsc, hz, hw, r.m, pred, r.u, r.forced, r.draws, probOf (State.perturbProb cfg d s), res,
          fun v h0 h1 => probOf_gt _ v h0 h1, h4, fun j i => h5 z hz j i, hres, rfl⟩
      · cases h
    | ei tol dtol =>
      simp only [genWith] at h
      split at h
      · rename_i mean std hm hs
        refine ⟨hL (.inl ⟨tol, dtol, rfl⟩), r.h, mean, std, r.runs, h2, h3, ?_⟩
        cases h
        simp
      · cases h
    | lcb kappa tol dtol =>
      simp only [genWith] at h
      split at h
      · rename_i mean std hm hs
        refine ⟨hL (.inr ⟨kappa, tol, dtol, rfl⟩), r.h, mean, std, r.runs, h2, h3, ?_⟩
        cases h
        simp
      · cases h

/-- Runs of `loopRun` with draws in their ranges are runs of the closed loop, so that all its properties hold for them. -/
theorem loopStep_reach {L : Setup d}
    (hL : (∃ t e, L.method = .ei t e) ∨ (∃ k t e, L.method = .lcb k t e) → L.cfg.srbf = none) {S : Surr d} {f : Pt d → Val}
    {w w' : Sys (Pt d)} (h : LoopReach L w) (e : Ev d) (hr : ∀ r, e = .propose r → RndOk L w.st r)
    (hs : loopStep L S f w e = some w') : LoopReach L w' := by
  cases e with
  | propose r =>
    simp only [loopStep, Option.bind_eq_some_iff] at hs
    obtain ⟨g, hg, hs⟩ := hs
    unfold answer at hg
    by_cases hw : wantsPoints L.cfg w.st
    · rw [if_pos hw] at hg
      exact .propose r.design g h (hr r rfl).1 (fun _ => gen_genOf hL (hr r rfl) hg) (fun hn => absurd hw hn) hs
    · rw [if_neg hw] at hg
      exact .propose r.design g h (hr r rfl).1 (fun hp => absurd hp hw) (fun _ => by cases hg; rfl) hs
  | accept i => exact .other (.accept i) h (by simp) hs
  | reject i => exact .other (.reject i) h (by simp) hs
  | complete i =>
    simp only [loopStep, Option.bind_eq_some_iff] at hs
    obtain ⟨r, _, hs⟩ := hs
    exact .other (.complete i (f r.x)) h (by simp) hs
  | abort i => exact .other (.abort i) h (by simp) hs
  | update i => exact .other (.update i) h (by simp) hs
  | resume => cases hs; exact .resume h

/-! ## Conversion of a run -/

/-- `v ↦ a * v + b`. -/
def unitsMap (a b : ℚ) : Val → Val := fun v => a * v + b

theorem loopStep_units {a b : ℚ} (ha : 0 < a) (L : Setup d) (hb : b = 0 ∨ L.cfg.srbf = none) (S : Surr d) (f : Pt d → Val)
    (w : Sys (Pt d)) (hS : S.ConvertsAt a b (surrData w.st)) (e : Ev d) :
    loopStep (L.units a b) S (fun x => a * f x + b) (w.mapVal (unitsMap a b)) e =
      (loopStep L S f w e).map (Sys.mapVal (unitsMap a b)) := by
  have hk : L.cfg.srbf = none ∨ Keeps (unitsMap a b) := by
    rcases hb with hb | hb
    · right
      have h := keeps_mul ha
      subst hb
      rwa [show unitsMap a 0 = fun v => a * v by funext v; simp [unitsMap]]
    · exact .inl hb
  have hst := fun op => step_map (φ := unitsMap a b) L.cfg hk w op
  cases e with
  | propose r =>
    have ha' : answer (L.units a b) S (w.mapVal (unitsMap a b)).st r = answer L S w.st r := by
      unfold answer
      have hw : wantsPoints (L.units a b).cfg (w.mapVal (unitsMap a b)).st ↔ wantsPoints L.cfg w.st := Iff.rfl
      have hg : gen (L.units a b) S (w.mapVal (unitsMap a b)).st (wanted (L.units a b).cfg) r = gen L S w.st (wanted L.cfg) r :=
        gen_affine ha b L S w.st hS (wanted L.cfg) r
      by_cases hp : wantsPoints L.cfg w.st
      · rw [if_pos hp, if_pos (hw.mpr hp), hg]
      · rw [if_neg hp, if_neg (fun h => hp (hw.mp h))]
    simp only [loopStep, ha']
    cases answer L S w.st r with
    | none => rfl
    | some g => exact hst (.propose (oracleOf L r.design g))
  | accept i => exact hst (.accept i)
  | reject i => exact hst (.reject i)
  | complete i =>
    simp only [loopStep]
    rw [show (w.mapVal (unitsMap a b)).recs = w.recs from rfl]
    cases w.recs[i]? with
    | none => rfl
    | some r => exact hst (.complete i (f r.x))
  | abort i => exact hst (.abort i)
  | update i => exact hst (.update i)
  | resume => simp only [loopStep, Option.map_some]; rw [resumed_map]

theorem loopSteps_units {a b : ℚ} (ha : 0 < a) (L : Setup d) (hb : b = 0 ∨ L.cfg.srbf = none) (S : Surr d) (f : Pt d → Val)
    (es : List (Ev d)) (w : Sys (Pt d))
    (hS : ∀ es' w', es' <+: es → loopSteps L S f w es' = some w' → S.ConvertsAt a b (surrData w'.st)) :
    loopSteps (L.units a b) S (fun x => a * f x + b) (w.mapVal (unitsMap a b)) es =
      (loopSteps L S f w es).map (Sys.mapVal (unitsMap a b)) := by
  induction es generalizing w with
  | nil => rfl
  | cons e es ih =>
    simp only [loopSteps]
    rw [loopStep_units ha L hb S f w (hS [] w (List.nil_prefix) rfl) e]
    cases hw : loopStep L S f w e with
    | none => rfl
    | some w' =>
      simp only [Option.map_some, Option.bind_some]
      refine ih w' fun es' w'' hp h => hS (e :: es') w'' (List.prefix_cons_inj e |>.mpr hp) ?_
      simp only [loopSteps, hw, Option.bind_some, h]

theorem loopRun_units {a b : ℚ} (ha : 0 < a) (L : Setup d) (hb : b = 0 ∨ L.cfg.srbf = none) (S : Surr d) (f : Pt d → Val)
    (D : List (Pt d)) (es : List (Ev d))
    (hS : ∀ es' w', es' <+: es → loopRun L S f D es' = some w' → S.ConvertsAt a b (surrData w'.st)) :
    loopRun (L.units a b) S (fun x => a * f x + b) D es = (loopRun L S f D es).map (Sys.mapVal (unitsMap a b)) := by
  unfold loopRun
  rw [show Sys.create (L.units a b).cfg (oracleOf (L.units a b) D none) =
    (Sys.create L.cfg (oracleOf L D none)).mapVal (unitsMap a b) from create_map _ _ _]
  exact loopSteps_units ha L hb S f es _ hS

theorem proposals_map (φ : Val → Val) (log : List (Event (Pt d))) : proposals (log.map (Event.mapVal φ)) = proposals log := by
  unfold proposals
  rw [List.filterMap_map]
  congr 1
  funext e
  cases e <;> rfl

theorem completions_map (φ : Val → Val) (log : List (Event (Pt d))) :
    completions (log.map (Event.mapVal φ)) = (completions log).map fun c => (c.1, φ c.2) := by
  unfold completions
  rw [List.filterMap_map, List.map_filterMap]
  congr 1
  funext e
  cases e <;> rfl

/-- What an observer sees of a run: the proposals in order, the points in flight, the evaluations completed, whether the
strategy has asked to stop, and whether the next call of `propose_action` proposes, stops or does nothing. -/
structure SameRun (a b : ℚ) (w w' : Sys (Pt d)) : Prop where
  proposals : proposals w'.st.log = proposals w.st.log
  inflight : w'.inflight = w.inflight
  completions : completions w'.st.log = (completions w.st.log).map fun c => (c.1, a * c.2 + b)
  terminated : Event.terminated ∈ w'.st.log ↔ Event.terminated ∈ w.st.log

theorem sameRun_mapVal (a b : ℚ) (w : Sys (Pt d)) : SameRun a b w (w.mapVal (unitsMap a b)) where
  proposals := proposals_map _ _
  inflight := rfl
  completions := completions_map _ _
  terminated := by
    simp only [Sys.mapVal, State.mapVal, List.mem_map]
    constructor
    · rintro ⟨e, he, h⟩
      cases e <;> simp [Event.mapVal] at h
      exact he
    · intro h; exact ⟨_, h, rfl⟩

/-- All strategies: with the same schedule and the same draws, a run for the objective `a * f` (`a > 0`, extra values and
tolerances converted) proposes the same points in the same order as the run for `f`, and one raises an exception iff the other
does. -/
theorem C100_scale_partial {a : ℚ} (ha : 0 < a) (L : Setup d) (S : Surr d) (f : Pt d → Val) (D : List (Pt d)) (es : List (Ev d))
    (hS : ∀ es' w', es' <+: es → loopRun L S f D es' = some w' → S.ConvertsAt a 0 (surrData w'.st)) :
    (loopRun L S f D es = none ↔ loopRun (L.units a 0) S (fun x => a * f x) D es = none) ∧
    ∀ w, loopRun L S f D es = some w → ∃ w', loopRun (L.units a 0) S (fun x => a * f x) D es = some w' ∧ SameRun a 0 w w' := by
  have h := loopRun_units ha L (.inl rfl) S f D es hS
  simp only [add_zero] at h
  rw [h]
  refine ⟨by simp, fun w hw => ⟨_, by rw [hw]; rfl, sameRun_mapVal a 0 w⟩⟩

/-- EI and LCB (which have no step control): the same for the objective `a * f + b`. -/
theorem C100_affine_partial {a b : ℚ} (ha : 0 < a) (L : Setup d) (hm : L.cfg.srbf = none) (S : Surr d) (f : Pt d → Val)
    (D : List (Pt d)) (es : List (Ev d))
    (hS : ∀ es' w', es' <+: es → loopRun L S f D es' = some w' → S.ConvertsAt a b (surrData w'.st)) :
    (loopRun L S f D es = none ↔ loopRun (L.units a b) S (fun x => a * f x + b) D es = none) ∧
    ∀ w, loopRun L S f D es = some w →
      ∃ w', loopRun (L.units a b) S (fun x => a * f x + b) D es = some w' ∧ SameRun a b w w' := by
  have h := loopRun_units ha L (.inr hm) S f D es hS
  rw [h]
  refine ⟨by simp, fun w hw => ⟨_, by rw [hw]; rfl, sameRun_mapVal a b w⟩⟩

/-! ## The surrogates -/

/-- RBF interpolants (every kernel, constant or linear tail, without output transformation or with median capping) convert. -/
theorem C100_rbf (p : Surrogate.Par d) (hlu : Surrogate.LuSpec p.lu) (hchol : Surrogate.CholSpec p.chol)
    (htr : p.trans = (fun f => f) ∨ p.trans = Surrogate.medianCapping)
    (hT : p.tail = Surrogate.constantTail d ∨ p.tail = Surrogate.linearTail d) (hb : ∀ i, p.lb i < p.ub i) {a : ℚ} (ha : 0 < a)
    (b : ℚ) (D : List (Pt d × ℝ)) : (rbfSurr p).ConvertsAt a b D := by
  have haR : (0 : ℝ) < a := by exact_mod_cast ha
  have htr' : AffineTrans p.trans := by
    rcases htr with h | h
    · rw [h]; exact affineTrans_id
    · rw [h]; exact affineTrans_cap
  have h := rbf_convert p hlu hchol htr' hT hb D a b haR
  refine ⟨?_, rfl⟩
  have hiff : (∃ x, (Surrogate.predict p (Surrogate.rrun p (scratch (convert (a : ℝ) b D))) x).2 = none) ↔
      ∃ x, (Surrogate.predict p (Surrogate.rrun p (scratch D)) x).2 = none := by simp only [h, Option.map_eq_none_iff]
  simp only [rbfSurr]
  by_cases hn : ∃ x, (Surrogate.predict p (Surrogate.rrun p (scratch D)) x).2 = none
  · rw [if_pos hn, if_pos (hiff.mpr hn)]; rfl
  · rw [if_neg hn, if_neg (fun h => hn (hiff.mp h))]
    simp only [Option.map_some, Option.some.injEq, h]
    funext x
    push Not at hn
    obtain ⟨s, hs⟩ := Option.ne_none_iff_exists'.mp (hn x)
    rw [hs]; rfl

/-- The Gaussian process converts if the standard deviation of the (transformed) values is at least `1e-6` in both units. -/
theorem C100_gp_partial (lb ub : Pt d) (trans : List ℝ → List ℝ) (htr : trans = (fun f => f) ∨ trans = Surrogate.medianCapping)
    (reg : List (Pt d) → List ℝ → Pt d → ℝ × ℝ) {a : ℚ} (ha : 0 < a) (b : ℚ) (D : List (Pt d × ℝ))
    (h1 : 1 / 10 ^ 6 ≤ stdDev (trans (D.map Prod.snd))) (h2 : 1 / 10 ^ 6 ≤ a * stdDev (trans (D.map Prod.snd))) :
    (gpSurr lb ub trans reg).ConvertsAt a b D := by
  have haR : (0 : ℝ) < a := by exact_mod_cast ha
  have htr' : AffineTrans trans := by
    rcases htr with h | h
    · rw [h]; exact affineTrans_id
    · rw [h]; exact affineTrans_cap
  have hf : trans ((convert (a : ℝ) b D).map Prod.snd) = (trans (D.map Prod.snd)).map fun v => (a : ℝ) * v + b := by
    rw [← htr'.1 a b _ haR]
    simp [convert, List.map_map, Function.comp_def]
  have hX : (convert (a : ℝ) b D).map (fun e => toUnitBox e.1 lb ub) = D.map fun e => toUnitBox e.1 lb ub := by
    simp [convert, List.map_map, Function.comp_def]
  obtain ⟨e1, e2⟩ := gpScale_affine haR b _ h1 h2
  have hne : trans (D.map Prod.snd) ≠ [] := by
    intro h0
    rw [h0] at h1
    norm_num [stdDev] at h1
  constructor
  · simp only [gpSurr, hf, hX, e1, Option.map_some, Option.some.injEq]
    funext x
    unfold Surrogate.gpUnscale
    rw [e2, mean_affine _ _ _ hne]; ring
  · simp only [gpSurr, hf, hX, e1, e2, Option.map_some, Option.some.injEq]
    funext x
    ring

/-- Below that the standardization is not undone: if the regressor reports the prior deviation 1 (far from all data), the
values `0, 1` give a predicted deviation of `1/2`, the same values in units of `1e-9` one of `1e-6`, which is 2000 times too
large. -/
theorem C100_gp_refuted (x : Pt 1) :
    let S := gpSurr (fun _ : Fin 1 => 0) (fun _ => 1) (fun f => f) fun _ _ _ => (0, 1)
    let D : List (Pt 1 × ℝ) := [(fun _ => 0, 0), (fun _ => 1, 1)]
    S.std D = some (fun _ => 1 / 2) ∧ S.std (convert (1 / 10 ^ 9) 0 D) = some fun _ => 1 / 10 ^ 6 := by
  have h1 : stdDev [0, 1] = 1 / 2 := by
    norm_num [stdDev, Surrogate.mean]
    rw [show (4 : ℝ) = 2 ^ 2 by norm_num, Real.sqrt_sq (by norm_num)]; norm_num
  have h2 := stdDev_affine (α := 1 / 10 ^ 9) (by norm_num) 0 [0, 1]
  rw [h1] at h2
  refine ⟨?_, ?_⟩
  · simp only [gpSurr, List.map_cons, List.map_nil, gpSigma_eq, h1]
    norm_num
  · simp only [convert, gpSurr, List.map_cons, List.map_nil, gpSigma_eq] at h2 ⊢
    rw [h2]
    norm_num

/-! ## Adding a constant, with step control -/

/-- Sixteen improvements of 5 units each, one after the other, after a first value `v`. -/
def slowOps (v : Val) : List (Op Nat) :=
  [pr 100, .accept 0, .complete 0 v, pr 100, .accept 0, .complete 0 v] ++
    (List.range 17).flatMap fun k => [pr (100 + k), .accept 0, .complete 0 (v - 5 * k)]

/-- SRBF with the step control, no restarts. -/
def slowCfg : Config Nat := { demoSrbf with useRestarts := false }

/-- SRBF and DYCORS: an improvement counts only if it is at least 0.1 percent of the absolute value of the best value, so that
adding a constant to the objective changes the run.  Two histories with the same proposals, whose values differ by the constant
99900 throughout: in the first the run is over (and without restarts nothing is ever proposed again), in the second it goes
on. -/
theorem C100_shift_refuted : ∃ w w' : Sys Nat,
    (Sys.create slowCfg (orc 0)).steps slowCfg (slowOps 100000) = some w ∧
    (Sys.create slowCfg (orc 0)).steps slowCfg (slowOps 100) = some w' ∧
    (proposals w.st.log = proposals w'.st.log ∧
      completions w.st.log = (completions w'.st.log).map fun c => (c.1, c.2 + 99900)) ∧
    (w.step slowCfg (pr 500)).map Sys.inflight = some [] ∧
    (w'.step slowCfg (pr 500)).map Sys.inflight = some [500] := by
  have key : (match (Sys.create slowCfg (orc 0)).steps slowCfg (slowOps 100000),
      (Sys.create slowCfg (orc 0)).steps slowCfg (slowOps 100) with
    | some w, some w' => decide (proposals w.st.log = proposals w'.st.log) &&
        decide (completions w.st.log = (completions w'.st.log).map fun c => (c.1, c.2 + 99900)) &&
        decide ((w.step slowCfg (pr 500)).map Sys.inflight = some []) &&
        decide ((w'.step slowCfg (pr 500)).map Sys.inflight = some [500])
    | _, _ => false) = true := by decide +kernel
  split at key
  · rename_i w w' h h'
    simp only [Bool.and_eq_true, decide_eq_true_eq] at key
    exact ⟨w, w', h, h', ⟨key.1.1.1, key.1.1.2⟩, key.1.2, key.2⟩
  · cases key

/-! ## A run that meets the hypotheses -/

open Classical in
/-- A surrogate that predicts the mean and the standard deviation of the values, and raises an exception without data. -/
noncomputable def meanSurr : Surr d where
  mean D := if D = [] then none else some fun _ => Surrogate.mean (D.map Prod.snd)
  std D := if D = [] then none else some fun _ => stdDev (D.map Prod.snd)

theorem meanSurr_converts {a : ℚ} (ha : 0 < a) (b : ℚ) (D : List (Pt d × ℝ)) : meanSurr.ConvertsAt a b D := by
  have haR : (0 : ℝ) < a := by exact_mod_cast ha
  by_cases hD : D = []
  · subst hD; exact ⟨by simp [meanSurr, convert], by simp [meanSurr, convert]⟩
  have hD' : convert (a : ℝ) b D ≠ [] := by simpa [convert] using hD
  have hf : (convert (a : ℝ) b D).map Prod.snd = (D.map Prod.snd).map fun v => (a : ℝ) * v + b := by
    simp [convert, List.map_map, Function.comp_def]
  constructor
  · simp only [meanSurr, if_neg hD, if_neg hD', hf, mean_affine _ _ (D.map Prod.snd) (by simpa using hD), Option.map_some]
  · simp only [meanSurr, if_neg hD, if_neg hD', hf, stdDev_affine haR, Option.map_some]

/-- Draws of the example: the design `[0], [1]`, all points of the genetic algorithm `1/2`. -/
noncomputable def midRnd : Rnd 1 where
  design := [fun _ => 0, fun _ => 1]
  m := 0
  draws := fun _ _ => 0
  u := fun _ _ => 0
  forced := fun _ => 0
  h := 0
  runs := [midRun]

theorem midRnd_ok {m : Method} (s : State (Pt 1)) (hs : s.srbf = none) : RndOk ⟨unitProb, loopCfg [], m⟩ s midRnd := by
  refine ⟨design_unit _ rfl rfl, rfl, ?_, fun _ _ => ⟨le_refl (0 : ℝ), one_pos⟩, fun k X fX z _ _ hz => by rw [hs] at hz; cases hz⟩
  intro g hg q i
  rw [List.mem_singleton.mp hg]; norm_num [midRun]

/-- One design point is proposed, accepted and evaluated. -/
theorem Idle.turn {L : Setup d} {S : Surr d} {f : Pt d → Val} {w : Sys (Pt d)} {q : List (Pt d)} {x : Pt d}
    {c : List (Pt d × Val)} (r : Rnd d) (hm : (c.length : ℤ) < L.cfg.maxEvals) (hi : Idle L.cfg w (q ++ [x]) c) :
    ∃ w', loopSteps L S f w [.propose r, .accept 0, .complete 0] = some w' ∧ Idle L.cfg w' q (c ++ [(x, f x)]) := by
  have hw : ¬ wantsPoints L.cfg w.st := by
    rintro ⟨_, _, _, h4, _⟩; rw [hi.queue] at h4; simp at h4
  have h1 : loopStep L S f w (.propose r) = some { w with
      st := (State.makeProposal { w.st with batchQueue := q } x).note (.proposed x .init)
      props := [{ x := x, kind := .init }] } := by
    have : w.st.proposeAction L.cfg (oracleOf L r.design none) =
        some (.eval x .init, State.makeProposal { w.st with batchQueue := q } x) := by
      rw [proposeAction_going hi.term (by rw [hi.num, hi.pend, add_zero]; exact hm)]
      simp only [hi.conv, Bool.false_eq_true, if_false, hi.queue, hi.phase, State.initProposal, popLast]
      simp
    simp only [loopStep, answer, if_neg hw, Option.bind_some, Sys.step, this, hi.props, List.nil_append]
  have chain : ∀ w1 w2 w3, loopStep L S f w (.propose r) = some w1 → loopStep L S f w1 (.accept 0) = some w2 →
      loopStep L S f w2 (.complete 0) = some w3 → loopSteps L S f w [.propose r, .accept 0, .complete 0] = some w3 := by
    intro w1 w2 w3 e1 e2 e3
    simp only [loopSteps, e1, e2, e3, Option.bind_some]
  have h3 := chain _ _ _ h1 rfl (by
    simp only [loopStep, Sys.step, hi.recs, List.nil_append, List.getElem?_cons_zero, hi.props, Option.bind_some]
    rfl)
  refine ⟨_, h3, ?_⟩
  have hev : w.st.evNext > w.st.evLast := by rw [hi.ev]; exact hi.ev'
  constructor <;> simp [State.onCompleted, recordCompleted_eq, State.note, State.onAccept, State.makeProposal, hi.term,
    hi.conv, hi.phase, hi.num, hi.pend, hi.xpend, hi.ev, hi.curX, hi.curFX, hi.fX, hi.X, hi.surr, hi.ev', completions_append,
    hi.log, hi.recs, hi.srbf]
  simp [completions]

noncomputable def cycleEvs : List (Ev 1) := [.propose midRnd, .accept 0, .complete 0]

theorem Idle.cycleRun {L : Setup 1} {S : Surr 1} {f : Pt 1 → Val} {w : Sys (Pt 1)} {q : List (Pt 1)} {x : Pt 1}
    {c : List (Pt 1 × Val)} (hm : (c.length : ℤ) < L.cfg.maxEvals) (hi : Idle L.cfg w (q ++ [x]) c) :
    ∃ w', loopSteps L S f w cycleEvs = some w' ∧ Idle L.cfg w' q (c ++ [(x, f x)]) :=
  hi.turn midRnd hm

theorem loopSteps_append (L : Setup d) (S : Surr d) (f : Pt d → Val) (w : Sys (Pt d)) (es es' : List (Ev d)) :
    loopSteps L S f w (es ++ es') = (loopSteps L S f w es).bind fun w' => loopSteps L S f w' es' := by
  induction es generalizing w with
  | nil => rfl
  | cons e es ih =>
    simp only [List.cons_append, loopSteps]
    cases loopStep L S f w e with
    | none => rfl
    | some w' => exact ih w'

/-- A run of LCB with two evaluated design points and a generated one, which meets the hypotheses of `C100_affine_partial` and
`C100_scale_partial` (and with a design in the ranges of its distributions). -/
theorem units_demo : ∃ w, loopRun ⟨unitProb, loopCfg [], .lcb 2 (some 0) 0.1⟩ meanSurr (fun x => if x 0 = 0 then 0 else 1)
      [fun _ => 0, fun _ => 1] (cycleEvs ++ cycleEvs ++ [.propose midRnd]) = some w ∧
    w.inflight = [fun _ => 1 / 2] ∧ completions w.st.log = [(fun _ => 1, 1), (fun _ => 0, 0)] := by
  set L : Setup 1 := ⟨unitProb, loopCfg [], .lcb 2 (some 0) 0.1⟩ with hL
  set f : Pt 1 → Val := fun x => if x 0 = 0 then 0 else 1 with hf
  have i0 : Idle (loopCfg []) (Sys.create (loopCfg []) (oracleOf L [fun _ => 0, fun _ => 1] none)) ([fun _ => 0] ++ [fun _ => 1]) [] := by
    constructor <;> simp [Sys.create, create_eq, State.blank, unknownExtras, known, loopCfg]
    all_goals rfl
  obtain ⟨w1, e1, i1⟩ := Idle.cycleRun (L := L) (S := meanSurr) (f := f) (by norm_num [hL, loopCfg]) i0
  obtain ⟨w2, e2, i2⟩ := Idle.cycleRun (L := L) (S := meanSurr) (f := f) (q := []) (x := fun _ => 0)
    (by norm_num [hL, loopCfg]) i1
  simp only [hf] at i2
  norm_num at i2
  have hw : wantsPoints (loopCfg []) w2.st :=
    ⟨i2.term, by rw [i2.num, i2.pend]; norm_num [loopCfg], i2.conv, i2.queue, .inl rfl⟩
  have hgen : gen L meanSurr w2.st (wanted L.cfg) midRnd = some (some [fun _ => 1 / 2]) := by
    unfold gen
    rw [i2.curX]
    simp only [List.map_cons, List.map_nil]
    rw [dif_pos ⟨by rw [i2.curFX]; rfl, by rw [i2.fX]; simp⟩]
    have hs : surrData w2.st = [(fun _ => 1, 1), (fun _ => 0, 0)] := by
      simp [surrData, i2.surr, hL, loopCfg, known]
    have hmean : Surrogate.mean [(1 : ℝ), 0] = 1 / 2 := by norm_num [Surrogate.mean]
    have hstd : stdDev [(1 : ℝ), 0] = 1 / 2 := by
      norm_num [stdDev, Surrogate.mean]
      rw [show (4 : ℝ) = 2 ^ 2 by norm_num, Real.sqrt_sq (by norm_num)]; norm_num
    simp only [genWith, hL, hs, meanSurr, List.map_cons, List.map_nil, hmean, hstd, reduceCtorEq, if_false, i2.xpend,
      Option.some.injEq]
    refine lcbGaLoop_one (midRun_best _) ?_
    have hr : roundVars (fun _ => 1 / 2 : Pt 1) unitProb.intVar unitProb.lb unitProb.ub = fun _ => 1 / 2 := by
      simp [roundVars, unitProb]
    rw [hr]
    have hfar : Separated 0.1 (fun _ => 1 / 2 : Pt 1) [fun _ => 1, fun _ => 0] := by
      intro y hy
      simp only [List.mem_cons, List.not_mem_nil, or_false] at hy
      rcases hy with rfl | rfl
      · simp only [eucl, Fin.sum_univ_one]
        rw [Real.sqrt_sq_eq_abs, abs_of_neg (by norm_num)]; norm_num
      · simp only [eucl, Fin.sum_univ_one]
        rw [Real.sqrt_sq_eq_abs]; norm_num [abs_of_pos]
    change lcbMerit (fun _ => (1 / 2 : ℝ)) (fun _ => 1 / 2) 2 (fun _ => 1) [fun _ => 0] 0.1 (fun _ => 1 / 2 : Pt 1) ≤ _
    unfold lcbMerit
    rw [minDist_eq, if_neg (fun hc => absurd ((le_nearestDist_iff (by simp) _).mpr hfar) (not_le.mpr hc.2))]
    rw [WithTop.coe_le_coe, tolOf, i2.fX]
    norm_num [lowest, hL, loopCfg, known]
  have : ∃ s, w2.st.proposeAction (loopCfg []) (oracleOf L midRnd.design (some [fun _ => 1 / 2])) =
      some (.eval (fun _ => 1 / 2) .adapt, s) ∧ completions s.log = completions w2.st.log := by
    rw [proposeAction_going i2.term (by rw [i2.num, i2.pend]; norm_num [loopCfg])]
    simp only [i2.conv, Bool.false_eq_true, if_false, i2.queue, List.isEmpty_nil, if_true, State.adaptBranch,
      loopCfg, State.generateEvals, oracleOf, Option.isNone_some, State.afterGenerate, Bool.and_false,
      State.adaptProposal, popLast]
    refine ⟨_, rfl, ?_⟩
    simp [State.makeProposal, completions]
  obtain ⟨s, h1, h2⟩ := this
  have h3 : loopStep L meanSurr f w2 (.propose midRnd) = some ⟨s.note (.proposed (fun _ => 1 / 2) .adapt),
      w2.props ++ [{ x := fun _ => 1 / 2, kind := .adapt }], w2.recs⟩ := by
    simp only [loopStep, answer]
    rw [if_pos (show wantsPoints L.cfg w2.st from hw), hgen]
    simp only [Option.bind_some, Sys.step]
    rw [show w2.st.proposeAction L.cfg (oracleOf L midRnd.design (some [fun _ => 1 / 2])) = _ from h1]
  refine ⟨⟨s.note (.proposed (fun _ => 1 / 2) .adapt), w2.props ++ [{ x := fun _ => 1 / 2, kind := .adapt }], w2.recs⟩, ?_, ?_, ?_⟩
  · unfold loopRun
    rw [loopSteps_append, loopSteps_append, show loopSteps L meanSurr f (Sys.create L.cfg (oracleOf L [fun _ => 0, fun _ => 1] none)) cycleEvs = some w1 from e1]
    simp only [Option.bind_some, e2, loopSteps, h3]
  · simp [Sys.inflight, i2.props, i2.recs]
  · simp only [State.note, completions_append, h2, i2.log]
    simp [completions]

/-- The same run in other units. -/
example : ∃ w, loopRun (Setup.units 3 (-7) ⟨unitProb, loopCfg [], .lcb 2 (some 0) 0.1⟩) meanSurr
      (fun x => 3 * (if x 0 = 0 then 0 else 1) + -7) [fun _ => 0, fun _ => 1] (cycleEvs ++ cycleEvs ++ [.propose midRnd]) = some w ∧
    w.inflight = [fun _ => 1 / 2] ∧ completions w.st.log = [(fun _ => 1, -4), (fun _ => 0, -7)] := by
  obtain ⟨w, h1, h2, h3⟩ := units_demo
  obtain ⟨w', h', hs⟩ := (C100_affine_partial (a := 3) (b := -7) (by norm_num) _ rfl _ _ _ _
    (fun _ w' _ _ => meanSurr_converts (by norm_num) _ _)).2 w h1
  refine ⟨w', h', hs.inflight.trans h2, hs.completions.trans ?_⟩
  rw [h3]; norm_num

/-- The hypotheses of `C100_rbf` are met (cubic kernel, linear tail, median capping). -/
example : ∃ p : Surrogate.Par 2, Surrogate.LuSpec p.lu ∧ Surrogate.CholSpec p.chol ∧ p.trans = Surrogate.medianCapping ∧
    p.tail = Surrogate.linearTail 2 ∧ ∀ i, p.lb i < p.ub i := by
  obtain ⟨lu, chol, h1, h2, _⟩ := Surrogate.exists_library
  exact ⟨demoPar lu chol Surrogate.medianCapping, h1, h2, rfl, rfl, fun i => by fin_cases i <;> norm_num [demoPar]⟩

/-- The hypotheses of `C100_gp_partial` are met. -/
example : 1 / 10 ^ 6 ≤ stdDev [0, 1] ∧ 1 / 10 ^ 6 ≤ (1000 : ℝ) * stdDev [0, 1] := by
  have h1 : stdDev [0, 1] = 1 / 2 := by
    norm_num [stdDev, Surrogate.mean]
    rw [show (4 : ℝ) = 2 ^ 2 by norm_num, Real.sqrt_sq (by norm_num)]; norm_num
  rw [h1]; norm_num

end Verif.Props
