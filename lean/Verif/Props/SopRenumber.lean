import Verif.Units.SopRenum
import Verif.Props.SopUnits
import Verif.Props.Renumber

/-! # Property C144: SOP and the numbering and the orientation of the variables -/

namespace Verif.Props

open Verif.Num Verif.Utils Verif.Cand Verif.Design Verif.Strategy Verif.Spec Verif.Loop Verif.Sop

variable {d m n : ℕ}

/-! ## Numbering -/

/-- SOP on the problem in which variable `i` is variable `π i`: bounds, integer variables and extra points are renumbered. -/
noncomputable def _root_.Verif.Loop.SopSetup.renum (π : Equiv.Perm (Fin d)) (L : SopSetup d) : SopSetup d where
  prob := { lb := fun i => L.prob.lb (π i), ub := fun i => L.prob.ub (π i), intVar := L.prob.intVar.map π.symm }
  base := { L.base with extras := L.base.extras.map fun e => (fun i => e.1 (π i), e.2) }
  ncenters := L.ncenters

theorem renum_converts (π : Equiv.Perm (Fin d)) (L : SopSetup d) :
    Converts (Loop.renum π) (Loop.renum π) (fun v => v) L.cfg (L.renum π).cfg :=
  { inj := renum_injective π
    iso := eucl_renum π
    mono := fun x y h => h
    base := by
      simp only [SopSetup.cfg, SopSetup.renum, Config.mapVal, Config.mapPt, List.map_map, Function.comp_def, Option.map_id']
      rfl
    unit := fun x => rfl
    ncenters := rfl }

/-- SOP, any schedule, crashes and losses, any problem (also with integer variables): with the renumbered draws and design, the run
for the renumbered problem proposes the renumbered points in the same order, and one raises an exception iff the other does. -/
theorem C144_run_partial (π : Equiv.Perm (Fin d)) (L : SopSetup d) (hL : L.base.srbf = none) (S S' : Surr d)
    (f f' : Pt d → Val) (hf : ∀ x, f' (fun i => x (π i)) = f x) (D : List (Pt d)) (es : List (SEv d))
    (hS : ∀ es' w', es' <+: es → sopLoopRun L S f D es' = some w' → S.RenumAt π S' (surrData w'.sys.st)) :
    (sopLoopRun L S f D es = none ↔
      sopLoopRun (L.renum π) S' f' (D.map fun x i => x (π i)) (es.map (SEv.map (fun x i => x (π i)) (CandRnd.renum π))) = none) ∧
    ∀ w, sopLoopRun L S f D es = some w →
      ∃ w', sopLoopRun (L.renum π) S' f' (D.map fun x i => x (π i))
        (es.map (SEv.map (fun x i => x (π i)) (CandRnd.renum π))) = some w' ∧ RenumRun π w.sys w'.sys := by
  have h := sopLoopRun_map (L := L) (L' := L.renum π) (S := S) (S' := S') (f := f) (f' := f') (renum_converts π L) hL hf D es (.inl rfl)
    fun es' w' hpre hw => points_renum π L S S' w'.sys.st (hS es' w' hpre hw)
  rw [show sopLoopRun (L.renum π) S' f' (D.map fun x i => x (π i))
    (es.map (SEv.map (fun x i => x (π i)) (CandRnd.renum π))) = _ from h]
  refine ⟨by simp, fun w hw => ⟨_, by rw [hw]; rfl, ?_⟩⟩
  rw [show (w.map (Loop.renum π) (Loop.renum π) fun v => v).sys = w.sys.mapPt (Loop.renum π) from mapVal_id_sys _]
  exact renumRun_mapPt π w.sys

/-- With an RBF interpolant (any kernel, constant or linear tail, any transformation) nothing is assumed about the surrogate. -/
theorem C144_rbf_partial (π : Equiv.Perm (Fin d)) (p : Surrogate.Par d) (hlu : Surrogate.LuSpec p.lu) (hchol : Surrogate.CholSpec p.chol)
    (hT : p.tail = Surrogate.constantTail d ∨ p.tail = Surrogate.linearTail d) (L : SopSetup d) (hL : L.base.srbf = none)
    (f f' : Pt d → Val) (hf : ∀ x, f' (fun i => x (π i)) = f x) (D : List (Pt d)) (es : List (SEv d)) :
    let S' := rbfSurr { p with lb := fun i => p.lb (π i), ub := fun i => p.ub (π i) }
    (sopLoopRun L (rbfSurr p) f D es = none ↔
      sopLoopRun (L.renum π) S' f' (D.map fun x i => x (π i)) (es.map (SEv.map (fun x i => x (π i)) (CandRnd.renum π))) = none) ∧
    ∀ w, sopLoopRun L (rbfSurr p) f D es = some w →
      ∃ w', sopLoopRun (L.renum π) S' f' (D.map fun x i => x (π i))
        (es.map (SEv.map (fun x i => x (π i)) (CandRnd.renum π))) = some w' ∧ RenumRun π w.sys w'.sys :=
  C144_run_partial π L hL _ _ f f' hf D es fun _ w' _ _ => C123_rbf π p hlu hchol hT (surrData w'.sys.st)

/-! ## Orientation -/

/-- What an observer sees of a run, and of a run in which the variables `i` with `ε i` have the opposite sign. -/
structure MirrorRun (ε : Fin d → Bool) (w w' : Sys (Pt d)) : Prop where
  proposals : proposals w'.st.log = (proposals w.st.log).map fun x i => if ε i then -x i else x i
  inflight : w'.inflight = w.inflight.map fun x i => if ε i then -x i else x i
  completions : completions w'.st.log = (completions w.st.log).map fun e => (fun i => if ε i then -e.1 i else e.1 i, e.2)
  terminated : Event.terminated ∈ w'.st.log ↔ Event.terminated ∈ w.st.log

theorem mirrorRun_mapPt (ε : Fin d → Bool) (w : Sys (Pt d)) : MirrorRun ε w (w.mapPt (mirror ε)) where
  proposals := proposals_mapPt _ _
  inflight := inflight_mapPt _
  completions := completions_mapPt _ _
  terminated := by
    simp only [Sys.mapPt, State.mapPt, List.mem_map]
    constructor
    · rintro ⟨e, he, h⟩
      cases e <;> simp [Event.mapPt] at h
      exact he
    · intro h; exact ⟨_, h, rfl⟩

/-- SOP on the problem in which the variables `i` with `ε i` have the opposite sign: their bounds change sign and places. -/
noncomputable def _root_.Verif.Loop.SopSetup.mirror (ε : Fin d → Bool) (L : SopSetup d) : SopSetup d where
  prob := { lb := fun i => if ε i then -L.prob.ub i else L.prob.lb i
            ub := fun i => if ε i then -L.prob.lb i else L.prob.ub i
            intVar := L.prob.intVar }
  base := { L.base with extras := L.base.extras.map fun e => (fun i => if ε i then -e.1 i else e.1 i, e.2) }
  ncenters := L.ncenters

/-- The position in the unit box. -/
def mirrorUnit (ε : Fin d → Bool) (u : Pt d) : Pt d := fun i => if ε i then 1 - u i else u i

theorem eucl_mirrorUnit (ε : Fin d → Bool) (x y : Pt d) : eucl (mirrorUnit ε x) (mirrorUnit ε y) = eucl x y := by
  unfold eucl mirrorUnit
  congr 1
  refine Finset.sum_congr rfl fun i _ => ?_
  split_ifs <;> ring

theorem toUnitBox_mirror (ε : Fin d → Bool) {lb ub : Pt d} (hb : ∀ i, lb i < ub i) (x : Pt d) :
    toUnitBox (mirror ε x) (fun i => if ε i then -ub i else lb i) (fun i => if ε i then -lb i else ub i) =
      mirrorUnit ε (toUnitBox x lb ub) := by
  funext i
  have := sub_pos.mpr (hb i)
  have h1 := this.ne'
  simp only [toUnitBox, mirror, mirrorUnit]
  split_ifs
  · rw [show -lb i - -ub i = ub i - lb i by ring]
    field_simp
    ring
  · rfl

theorem mirror_converts (ε : Fin d → Bool) (L : SopSetup d) (hb : ∀ i, L.prob.lb i < L.prob.ub i) :
    Converts (Loop.mirror ε) (mirrorUnit ε) (fun v => v) L.cfg (L.mirror ε).cfg :=
  { inj := mirror_injective ε
    iso := eucl_mirrorUnit ε
    mono := fun x y h => h
    base := by
      simp only [SopSetup.cfg, SopSetup.mirror, Config.mapVal, Config.mapPt, List.map_map, Function.comp_def, Option.map_id']
      rfl
    unit := fun x => toUnitBox_mirror ε hb x
    ncenters := rfl }

/-- SOP, any schedule, crashes and losses, any problem (also with integer variables): with the design and the draws of the
truncated normal distributions mirrored, the run for the mirrored problem proposes the mirrored points in the same order, and one
raises an exception iff the other does. -/
theorem C144_orientation_partial (ε : Fin d → Bool) (L : SopSetup d) (hL : L.base.srbf = none)
    (hb : ∀ i, L.prob.lb i < L.prob.ub i) (S S' : Surr d)
    (f f' : Pt d → Val) (hf : ∀ x, f' (fun i => if ε i then -x i else x i) = f x) (D : List (Pt d)) (es : List (SEv d))
    (hD : L.base.numPts ≤ D.length) (hr : ∀ r, SEv.propose r ∈ es → L.base.numPts ≤ r.design.length)
    (hS : ∀ es' w', es' <+: es → sopLoopRun L S f D es' = some w' → S.MirrorAt ε S' (surrData w'.sys.st)) :
    (sopLoopRun L S f D es = none ↔
      sopLoopRun (L.mirror ε) S' f' (D.map fun x i => if ε i then -x i else x i)
        (es.map (SEv.map (fun x i => if ε i then -x i else x i) (CandRnd.mirror ε))) = none) ∧
    ∀ w, sopLoopRun L S f D es = some w →
      ∃ w', sopLoopRun (L.mirror ε) S' f' (D.map fun x i => if ε i then -x i else x i)
        (es.map (SEv.map (fun x i => if ε i then -x i else x i) (CandRnd.mirror ε))) = some w' ∧ MirrorRun ε w.sys w'.sys := by
  have h := sopLoopRun_map (L := L) (L' := L.mirror ε) (S := S) (S' := S') (f := f) (f' := f') (mirror_converts ε L hb) hL hf D es
    (.inr ⟨hD, fun e he => by cases e <;> first | trivial | exact hr _ he⟩)
    fun es' w' hpre hw => points_mirror ε L (fun i => (hb i).le) S S' w'.sys.st (hS es' w' hpre hw)
  rw [show sopLoopRun (L.mirror ε) S' f' (D.map fun x i => if ε i then -x i else x i)
    (es.map (SEv.map (fun x i => if ε i then -x i else x i) (CandRnd.mirror ε))) = _ from h]
  refine ⟨by simp, fun w hw => ⟨_, by rw [hw]; rfl, ?_⟩⟩
  rw [show (w.map (Loop.mirror ε) (mirrorUnit ε) fun v => v).sys = w.sys.mapPt (Loop.mirror ε) from mapVal_id_sys _]
  exact mirrorRun_mapPt ε w.sys

/-! ## The draws for the converted problem are possible -/

section
variable {g γ : Pt d → Pt d} {ρ : CandRnd d → CandRnd d} {φ : Val → Val} {L L' : SopSetup d} {S S' : Surr d}

theorem candsOk_map (hg : Function.Injective g) {s : State (Pt d)} (hP : PointsConvert g ρ φ L L' S S' s)
    (hu : ∀ r : CandRnd d, (∀ j c, 0 ≤ r.u j c ∧ r.u j c < 1) → ∀ j c, 0 ≤ (ρ r).u j c ∧ (ρ r).u j c < 1)
    (hd : ∀ (r : CandRnd d) (xc : Pt d) (radius : ℝ),
      (∀ j i, DrawOk L.prob xc (scalefactors L.prob radius (List.finRange d)) i (r.draws j i)) →
      ∀ j i, DrawOk L'.prob (g xc) (scalefactors L'.prob radius (List.finRange d)) i ((ρ r).draws j i))
    (evals : List (SopRec d)) (rs : List (CandRnd d)) (cs : List (Center d)) (h : CandsOk L S s evals cs rs) :
    CandsOk L' S' ((s.mapPt g).mapVal φ) (evals.map (SopRec.map g φ)) (cs.map (Center.map g)) (rs.map ρ) := by
  induction rs generalizing cs with
  | nil => trivial
  | cons r rs ih =>
    intro ce' rec' hce hrec
    have hf : ((cs.map (Center.map g)).find? fun ce => ce.newPoint.isNone) =
        (cs.find? fun ce => ce.newPoint.isNone).map (Center.map g) := by
      rw [List.find?_map]
      congr 1
      refine congrArg (fun p => cs.find? p) ?_
      funext ce
      simp [Center.map]
    rw [hf, Option.map_eq_some_iff] at hce
    obtain ⟨ce, hce, rfl⟩ := hce
    rw [show (ce.map g).index = ce.index from rfl, List.getElem?_map, Option.map_eq_some_iff] at hrec
    obtain ⟨rec, hrec, rfl⟩ := hrec
    obtain ⟨h1, h2, h3⟩ := h ce rec hce hrec
    refine ⟨hu r h1, hd r ce.xc _ h2, fun x' cs' hx hcs => ?_⟩
    rw [show (ce.map g).xc = g ce.xc from rfl, show (rec.map g φ).sigma = rec.sigma from rfl, hP, Option.map_eq_some_iff] at hx
    obtain ⟨x, hx, rfl⟩ := hx
    rw [assignPoint_map, Option.map_eq_some_iff] at hcs
    obtain ⟨cs1, hcs, rfl⟩ := hcs
    exact ih cs1 (h3 x cs1 hx hcs)

theorem sopRndOk_map (hc : Converts g γ φ L.cfg L'.cfg) {w : SopSys d} (hP : PointsConvert g ρ φ L L' S S' w.sys.st)
    (hu : ∀ r : CandRnd d, (∀ j c, 0 ≤ r.u j c ∧ r.u j c < 1) → ∀ j c, 0 ≤ (ρ r).u j c ∧ (ρ r).u j c < 1)
    (hd : ∀ (r : CandRnd d) (xc : Pt d) (radius : ℝ),
      (∀ j i, DrawOk L.prob xc (scalefactors L.prob radius (List.finRange d)) i (r.draws j i)) →
      ∀ j i, DrawOk L'.prob (g xc) (scalefactors L'.prob radius (List.finRange d)) i ((ρ r).draws j i))
    {r : SopRnd d} (hD : DesignOf L'.prob L'.base.numPts (r.map g ρ).design) (h : SopRndOk L S w r) :
    SopRndOk L' S' (w.map g γ φ) (r.map g ρ) := by
  have hb : L'.base = (L.base.mapPt g).mapVal φ := hc.base
  refine ⟨hD, fun z1' z2' h1 h2 => ?_⟩
  rw [show (w.map g γ φ).sop = w.sop.map g γ φ from rfl,
    show (w.map g γ φ).sys.st.numEvals = w.sys.st.numEvals from rfl, firstRanks_map hc, Option.map_eq_some_iff] at h1
  obtain ⟨z1, h1, rfl⟩ := h1
  rw [show (w.map g γ φ).sys.st.numEvals = w.sys.st.numEvals from rfl, updateCenterList_map hc, Option.map_eq_some_iff] at h2
  obtain ⟨z2, h2, rfl⟩ := h2
  have := candsOk_map hc.inj hP hu hd z2.evals _ z2.centers (h.2 z1 z2 h1 h2)
  rw [List.map_map] at this
  rw [show wanted L'.base = wanted L.base by rw [hb]; rfl]
  exact this

end

/-- The renumbered draws are in the ranges of their distributions, if the renumbered design is possible (C123_design_partial). -/
theorem C144_draws_partial (π : Equiv.Perm (Fin d)) (L : SopSetup d) (S S' : Surr d) {w : SopSys d}
    (hS : S.RenumAt π S' (surrData w.sys.st)) {r : SopRnd d}
    (hD : DesignOf (L.renum π).prob L.base.numPts (r.design.map fun x i => x (π i))) (h : SopRndOk L S w r) :
    SopRndOk (L.renum π) S' (w.map (fun x i => x (π i)) (fun x i => x (π i)) fun v => v)
      (r.map (fun x i => x (π i)) (CandRnd.renum π)) := by
  refine sopRndOk_map (g := Loop.renum π) (γ := Loop.renum π) (φ := fun v => v) (renum_converts π L) (points_renum π L S S' w.sys.st hS)
    (fun r hr j c => ?_) (fun r xc radius hr j i => ?_) hD h
  · show 0 ≤ renumCol π (r.u j) c ∧ renumCol π (r.u j) c < 1
    unfold renumCol
    split_ifs
    · exact hr j _
    · exact hr j _
  · have := hr j (π i)
    rw [show (L.renum π).prob = L.prob.renum π from rfl, scalefactors_renum]
    exact this

/-- The mirrored draws are in the ranges of their distributions, if the mirrored design is possible. -/
theorem C144_draws_orientation (ε : Fin d → Bool) (L : SopSetup d) (hb : ∀ i, L.prob.lb i < L.prob.ub i) (S S' : Surr d)
    {w : SopSys d} (hS : S.MirrorAt ε S' (surrData w.sys.st)) {r : SopRnd d}
    (hD : DesignOf (L.mirror ε).prob L.base.numPts (r.design.map fun x i => if ε i then -x i else x i)) (h : SopRndOk L S w r) :
    SopRndOk (L.mirror ε) S' (w.map (fun x i => if ε i then -x i else x i) (fun u i => if ε i then 1 - u i else u i) fun v => v)
      (r.map (fun x i => if ε i then -x i else x i) (CandRnd.mirror ε)) := by
  refine sopRndOk_map (g := Loop.mirror ε) (γ := mirrorUnit ε) (φ := fun v => v) (mirror_converts ε L hb)
    (points_mirror ε L (fun i => (hb i).le) S S' w.sys.st hS) (fun r hr => hr) (fun r xc radius hr j i => ?_) hD h
  obtain ⟨h1, h2⟩ := hr j i
  rw [show (L.mirror ε).prob = L.prob.mirror ε from rfl, scalefactors_mirror]
  unfold DrawOk
  show ((if ε i then -L.prob.ub i else L.prob.lb i) - (if ε i then -xc i else xc i)) / _ ≤ (if ε i then -r.draws j i else r.draws j i) ∧
    (if ε i then -r.draws j i else r.draws j i) ≤ ((if ε i then -L.prob.lb i else L.prob.ub i) - (if ε i then -xc i else xc i)) / _
  split_ifs
  · rw [show -L.prob.ub i - -xc i = -(L.prob.ub i - xc i) by ring, show -L.prob.lb i - -xc i = -(L.prob.lb i - xc i) by ring,
      neg_div, neg_div]
    exact ⟨neg_le_neg h2, neg_le_neg h1⟩
  · exact ⟨h1, h2⟩

end Verif.Props
