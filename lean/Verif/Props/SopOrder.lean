import Verif.Sop.Equivar
import Verif.Sop.Witness
import Verif.Props.Variables

/-! # Property C112: SOP's bookkeeping depends on the order of the values only, and on positions relative to the domain -/

namespace Verif.Props

open Verif.Num Verif.Utils Verif.Strategy Verif.Sop Verif.Spec

variable {d : ℕ}

/-- What can happen to a run of SOP: an event for the strategy, or a crash after which it is resumed from a snapshot. -/
inductive SopEv (d : ℕ) where
  | op (o : Strategy.Op (Pt d))
  | crash

/-- Runs the events one after the other; `none`: the strategy raised. -/
noncomputable def sopRun (c : Cfg d) : List (SopEv d) → SopSys d → Option (SopSys d)
  | [], w => some w
  | .op o :: es, w => (w.step c o).bind (sopRun c es)
  | .crash :: es, w => sopRun c es ⟨w.sys.resumed, w.sop⟩

/-- Every variable gets its own unit. -/
def conv (s t : Pt d) (x : Pt d) : Pt d := fun i => s i * x i + t i

/-- The settings in the new units: bounds and extra points are converted, values of extra points by `φ`. -/
def cfgConv (s t : Pt d) (φ : Val → Val) (c : Cfg d) : Cfg d where
  base := { c.base with extras := c.base.extras.map fun e => (conv s t e.1, e.2.map φ) }
  lb := conv s t c.lb
  ub := conv s t c.ub
  ncenters := c.ncenters

/-- The random outcomes, in the new units. -/
def orcConv (s t : Pt d) (o : Oracle (Pt d)) : Oracle (Pt d) where
  design := fun i => conv s t (o.design i)
  pts := fun i => conv s t (o.pts i)
  giveUp := o.giveUp

/-- An event in the new units: drawn points are converted, reported values by `φ`. -/
def evConv (s t : Pt d) (φ : Val → Val) : SopEv d → SopEv d
  | .op (.propose o) => .op (.propose (orcConv s t o))
  | .op (.complete i v) => .op (.complete i (φ v))
  | .op o => .op o
  | .crash => .crash

/-- `w'` is `w` in the new units: all that the user sees is converted, the counters, radii and choices of SOP are the same. -/
structure SopSame (s t : Pt d) (φ : Val → Val) (w w' : SopSys d) : Prop where
  proposals : proposals w'.sys.st.log = (proposals w.sys.st.log).map (conv s t)
  completions : completions w'.sys.st.log = (completions w.sys.st.log).map fun e => (conv s t e.1, φ e.2)
  inflight : w'.sys.inflight = w.sys.inflight.map (conv s t)
  terminated : Event.terminated ∈ w'.sys.st.log ↔ Event.terminated ∈ w.sys.st.log
  points : w'.sop.evals.map (fun r => (r.x, r.fx)) = w.sop.evals.map fun r => (conv s t r.x, φ r.fx)
  memory : w'.sop.evals.map (fun r => (r.nfail, r.ntabu, r.sigma)) = w.sop.evals.map fun r => (r.nfail, r.ntabu, r.sigma)
  centers : w'.sop.centers.map (fun ce => (ce.index, ce.newIndex)) = w.sop.centers.map fun ce => (ce.index, ce.newIndex)

theorem sopSame_map (s t : Pt d) (φ : Val → Val) (w : SopSys d) : SopSame s t φ w (w.map (conv s t) (fun u => u) φ) where
  proposals := by
    change Spec.proposals ((w.sys.st.log.map (Event.mapPt (conv s t))).map (Event.mapVal φ)) = _
    rw [proposals_map, proposals_mapPt]
  completions := by
    change Spec.completions ((w.sys.st.log.map (Event.mapPt (conv s t))).map (Event.mapVal φ)) = _
    rw [completions_map, completions_mapPt, List.map_map]
    rfl
  inflight := inflight_mapPt (g := conv s t) w.sys
  terminated := by
    change Event.terminated ∈ (w.sys.st.log.map (Event.mapPt (conv s t))).map (Event.mapVal φ) ↔ _
    simp only [List.mem_map]
    constructor
    · rintro ⟨e', ⟨e, he, rfl⟩, h⟩
      cases e <;> simp [Event.mapPt, Event.mapVal] at h
      exact he
    · intro h
      exact ⟨_, ⟨_, h, rfl⟩, rfl⟩
  points := by
    change (w.sop.evals.map (SopRec.map (conv s t) φ)).map _ = _
    rw [List.map_map]; rfl
  memory := by
    change (w.sop.evals.map (SopRec.map (conv s t) φ)).map _ = _
    rw [List.map_map]; rfl
  centers := by
    change (w.sop.centers.map (Center.map (conv s t))).map _ = _
    rw [List.map_map]; rfl

theorem conv_converts {s t : Pt d} (hs : ∀ i, 0 < s i) {φ : Val → Val} (hφ : ∀ a b, a < b → φ a < φ b) (c : Cfg d) :
    Converts (conv s t) (fun u => u) φ c (cfgConv s t φ c) where
  inj := fun x y h => by
    funext i
    have := congrFun h i
    simp only [conv, add_left_inj] at this
    exact mul_left_cancel₀ (hs i).ne' this
  iso := fun _ _ => rfl
  mono := fun a b h => hφ a b h
  base := by
    unfold cfgConv Config.mapVal Config.mapPt
    simp [List.map_map, Function.comp_def]
  unit := fun x => by
    funext i
    simp only [toUnitBox, conv, cfgConv]
    rw [show s i * x i + t i - (s i * c.lb i + t i) = s i * (x i - c.lb i) by ring,
      show s i * c.ub i + t i - (s i * c.lb i + t i) = s i * (c.ub i - c.lb i) by ring, mul_div_mul_left _ _ (hs i).ne']
  ncenters := rfl

theorem sopRun_map {s t : Pt d} (hs : ∀ i, 0 < s i) {φ : Val → Val} (hφ : ∀ a b, a < b → φ a < φ b) (c : Cfg d)
    (hp : c.base.srbf = none) (es : List (SopEv d)) (w : SopSys d) :
    sopRun (cfgConv s t φ c) (es.map (evConv s t φ)) (w.map (conv s t) (fun u => u) φ) = (sopRun c es w).map (SopSys.map (conv s t) (fun u => u) φ) := by
  induction es generalizing w with
  | nil => rfl
  | cons e es ih =>
    cases e with
    | op o =>
      have he : evConv s t φ (.op o) = .op (opMap (conv s t) φ o) := by cases o <;> rfl
      rw [List.map_cons, he]
      simp only [sopRun]
      rw [sopStep_map (conv_converts hs hφ c) hp]
      cases w.step c o with
      | none => rfl
      | some w1 => exact ih w1
    | crash =>
      simp only [List.map_cons, evConv, sopRun]
      rw [sopResumed_map]
      exact ih _

/-- Any setup, history of events, crashes, random outcomes and values: change the unit of every variable, and the values by any
strictly increasing function.  The run raises in the one case iff in the other; otherwise SOP proposes the same points (converted),
and has the same centers, failure counts, tabu counts and radii. -/
theorem C112_order (c : Cfg d) (hp : c.base.srbf = none) (s t : Pt d) (hs : ∀ i, 0 < s i) (φ : Val → Val)
    (hφ : ∀ a b, a < b → φ a < φ b) (o : Oracle (Pt d)) (es : List (SopEv d)) :
    (sopRun c es (SopSys.create c o) = none ↔
      sopRun (cfgConv s t φ c) (es.map (evConv s t φ)) (SopSys.create (cfgConv s t φ c) (orcConv s t o)) = none) ∧
    ∀ w, sopRun c es (SopSys.create c o) = some w →
      ∃ w', sopRun (cfgConv s t φ c) (es.map (evConv s t φ)) (SopSys.create (cfgConv s t φ c) (orcConv s t o)) = some w' ∧
        SopSame s t φ w w' := by
  have h := sopRun_map (t := t) hs hφ c hp es (SopSys.create c o)
  rw [← sopCreate_map (conv_converts hs hφ c)] at h
  rw [show sopRun (cfgConv s t φ c) (es.map (evConv s t φ)) (SopSys.create (cfgConv s t φ c) (orcConv s t o)) = _ from h]
  exact ⟨by simp, fun w hw => ⟨_, by rw [hw]; rfl, sopSame_map s t φ w⟩⟩

/-- Every such run is a run of the model used for the other properties of SOP, and every reachable state is the end of one. -/
theorem C112_runs (c : Cfg d) (w : SopSys d) :
    Sop.Reach c w ↔ ∃ o es, sopRun c es (SopSys.create c o) = some w := by
  have happ : ∀ (es fs : List (SopEv d)) w, sopRun c (es ++ fs) w = (sopRun c es w).bind (sopRun c fs) := by
    intro es fs
    induction es with
    | nil => intro w; rfl
    | cons e es ih =>
      intro w
      cases e with
      | op o =>
        simp only [List.cons_append, sopRun]
        cases w.step c o with
        | none => rfl
        | some w1 => exact ih w1
      | crash => simp only [List.cons_append, sopRun]; exact ih _
  constructor
  · intro h
    induction h with
    | create o => exact ⟨o, [], rfl⟩
    | step op _ hs ih =>
      obtain ⟨o, es, h⟩ := ih
      refine ⟨o, es ++ [.op op], ?_⟩
      rw [happ, h]
      simp [sopRun, hs]
    | resume _ ih =>
      obtain ⟨o, es, h⟩ := ih
      refine ⟨o, es ++ [.crash], ?_⟩
      rw [happ, h]
      simp [sopRun]
  · rintro ⟨o, es, h⟩
    have key : ∀ (es : List (SopEv d)) w0 w, Sop.Reach c w0 → sopRun c es w0 = some w → Sop.Reach c w := by
      intro es
      induction es with
      | nil => intro w0 w h0 h; simp only [sopRun, Option.some.injEq] at h; exact h ▸ h0
      | cons e es ih =>
        intro w0 w h0 h
        cases e with
        | op o =>
          simp only [sopRun] at h
          obtain ⟨w1, h1, h2⟩ := Option.bind_eq_some_iff.mp h
          exact ih w1 w (.step o h0 h1) h2
        | crash => simp only [sopRun] at h; exact ih _ w (.resume h0) h
    exact key es _ w (.create o) h

/-- Not vacuous: a run of at least 7 evaluations in which the first point became tabu, seen in centimetres (from another origin)
and with cubed values: the first point is tabu there, too. -/
example : ∃ o es w w', sopRun (wcfg true 1 1) es (SopSys.create (wcfg true 1 1) o) = some w ∧
    sopRun (cfgConv (pt 100) (pt 7) (fun v => v ^ 3) (wcfg true 1 1)) (es.map (evConv (pt 100) (pt 7) fun v => v ^ 3))
      (SopSys.create (cfgConv (pt 100) (pt 7) (fun v => v ^ 3) (wcfg true 1 1)) (orcConv (pt 100) (pt 7) o)) = some w' ∧
    7 ≤ (completions w'.sys.st.log).length ∧ (w'.sop.evals.map SopRec.ntabu)[0]? = some 2 := by
  obtain ⟨w, r0, h, h2⟩ := idle_tabu
  obtain ⟨o, es, hw⟩ := (C112_runs (wcfg true 1 1) w).mp h.calm.reach
  obtain ⟨w', hw', hsame⟩ := (C112_order (wcfg true 1 1) rfl (pt 100) (pt 7) (fun _ => by simp [pt]) (fun v => v ^ 3)
    (fun a b hab => Odd.strictMono_pow (by decide) hab) o es).2 w hw
  refine ⟨o, es, w, w', hw, hw', ?_, ?_⟩
  · rw [hsame.completions, List.length_map]
    rw [← (h.calm.reach.inv rfl).arch, h.arch]
    simp [tabuList]
  · have hm := congrArg (fun l => (l.map fun q : ℕ × ℕ × ℚ => q.2.1)[0]?) hsame.memory
    simp only [List.map_map, Function.comp_def] at hm
    rw [show (w'.sop.evals.map SopRec.ntabu)[0]? = _ from hm, List.getElem?_map, h.first, Option.map_some, h2]

end Verif.Props
