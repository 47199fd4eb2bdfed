import Verif.Units.MirrorLoop
import Verif.Props.SopRenumberDemo
import Verif.Props.Renumber

/-! # Property C145: the orientation of the variables -/

namespace Verif.Props

open Verif.Num Verif.Utils Verif.Cand Verif.Design Verif.Strategy Verif.Spec Verif.Loop

-- equality of points is decided coordinate by coordinate, as in `loopStep`
attribute [-instance] Verif.Sop.instDecidableEqPt

variable {d : ℕ}

/-- SRBF, DYCORS, expected improvement and lower confidence bound, any schedule, crashes and losses, any problem whose integer
variables have at least two values: with the design and the draws mirrored, the run for the mirrored problem proposes the mirrored
points in the same order, and one raises an exception iff the other does. -/
theorem C145_run_partial (ε : Fin d → Bool) (L : Setup d) (hL : L.Consistent) (hb : ∀ i, L.prob.lb i ≤ L.prob.ub i)
    (hi : ∀ i ∈ L.prob.intVar, L.prob.lb i + 1 ≤ L.prob.ub i) (S S' : Surr d) (f f' : Pt d → Val)
    (hf : ∀ x, f' (fun i => if ε i then -x i else x i) = f x) (D : List (Pt d)) (es : List (Ev d))
    (hD : L.cfg.numPts ≤ D.length)
    (hr : ∀ r, Ev.propose r ∈ es → L.cfg.numPts ≤ r.design.length ∧ wanted L.cfg ≤ r.runs.length)
    (hS : ∀ es' w', es' <+: es → loopRun L S f D es' = some w' → S.MirrorAt ε S' (surrData w'.st)) :
    (loopRun L S f D es = none ↔
      loopRun (L.mirror ε) S' f' (D.map fun x i => if ε i then -x i else x i) (es.map (Ev.mirror ε)) = none) ∧
    ∀ w, loopRun L S f D es = some w →
      ∃ w', loopRun (L.mirror ε) S' f' (D.map fun x i => if ε i then -x i else x i) (es.map (Ev.mirror ε)) = some w' ∧
        MirrorRun ε w w' := by
  have h := loopRun_mirror ε L hb hi hL S S' f f' hf D es hD
    (fun e he => by cases e <;> first | trivial | exact hr _ he) hS
  rw [show loopRun (L.mirror ε) S' f' (D.map fun x i => if ε i then -x i else x i) (es.map (Ev.mirror ε)) = _ from h]
  exact ⟨by simp, fun w hw => ⟨_, by rw [hw]; rfl, mirrorRun_mapPt ε w⟩⟩

/-- With an RBF interpolant nothing is assumed about the surrogate. -/
theorem C145_rbf_partial (ε : Fin d → Bool) (p : Surrogate.Par d) (hlu : Surrogate.LuSpec p.lu) (hchol : Surrogate.CholSpec p.chol)
    (hT : p.tail = Surrogate.constantTail d ∨ p.tail = Surrogate.linearTail d) (hp : ∀ i, p.lb i < p.ub i)
    (L : Setup d) (hL : L.Consistent) (hb : ∀ i, L.prob.lb i ≤ L.prob.ub i)
    (hi : ∀ i ∈ L.prob.intVar, L.prob.lb i + 1 ≤ L.prob.ub i)
    (f f' : Pt d → Val) (hf : ∀ x, f' (fun i => if ε i then -x i else x i) = f x) (D : List (Pt d)) (es : List (Ev d))
    (hD : L.cfg.numPts ≤ D.length)
    (hr : ∀ r, Ev.propose r ∈ es → L.cfg.numPts ≤ r.design.length ∧ wanted L.cfg ≤ r.runs.length) :
    let S' := rbfSurr { p with lb := fun i => if ε i then -p.ub i else p.lb i, ub := fun i => if ε i then -p.lb i else p.ub i }
    (loopRun L (rbfSurr p) f D es = none ↔
      loopRun (L.mirror ε) S' f' (D.map fun x i => if ε i then -x i else x i) (es.map (Ev.mirror ε)) = none) ∧
    ∀ w, loopRun L (rbfSurr p) f D es = some w →
      ∃ w', loopRun (L.mirror ε) S' f' (D.map fun x i => if ε i then -x i else x i) (es.map (Ev.mirror ε)) = some w' ∧
        MirrorRun ε w w' :=
  C145_run_partial ε L hL hb hi _ _ f f' hf D es hD hr
    fun _ w' _ _ => C144_rbf_orientation ε p hlu hchol hp hT (surrData w'.st)

/-- With the default Gaussian process, if the hyperparameters chosen for the mirrored data are the same (EI and LCB need one). -/
theorem C145_gp_partial (ε : Fin d → Bool) (lb ub : Pt d) (hp : ∀ i, lb i < ub i) (trans : List ℝ → List ℝ)
    (hyp hyp' : List (Pt d) → List ℝ → Surrogate.Hyper d)
    (hh : ∀ X y, hyp' (X.map fun u i => if ε i then 1 - u i else u i) y = hyp X y)
    (L : Setup d) (hL : L.Consistent) (hb : ∀ i, L.prob.lb i ≤ L.prob.ub i)
    (hi : ∀ i ∈ L.prob.intVar, L.prob.lb i + 1 ≤ L.prob.ub i)
    (f f' : Pt d → Val) (hf : ∀ x, f' (fun i => if ε i then -x i else x i) = f x) (D : List (Pt d)) (es : List (Ev d))
    (hD : L.cfg.numPts ≤ D.length)
    (hr : ∀ r, Ev.propose r ∈ es → L.cfg.numPts ≤ r.design.length ∧ wanted L.cfg ≤ r.runs.length) :
    let S' := gpSurr (fun i => if ε i then -ub i else lb i) (fun i => if ε i then -lb i else ub i) trans (gpReg hyp')
    (loopRun L (gpSurr lb ub trans (gpReg hyp)) f D es = none ↔
      loopRun (L.mirror ε) S' f' (D.map fun x i => if ε i then -x i else x i) (es.map (Ev.mirror ε)) = none) ∧
    ∀ w, loopRun L (gpSurr lb ub trans (gpReg hyp)) f D es = some w →
      ∃ w', loopRun (L.mirror ε) S' f' (D.map fun x i => if ε i then -x i else x i) (es.map (Ev.mirror ε)) = some w' ∧
        MirrorRun ε w w' :=
  C145_run_partial ε L hL hb hi _ _ f f' hf D es hD hr
    fun _ w' _ _ => C144_gp_orientation ε lb ub hp trans hyp hyp' hh (surrData w'.st)

/-- The mirrored draws are in the ranges of their distributions, if the mirrored design is possible. -/
theorem C145_draws (ε : Fin d → Bool) (L : Setup d) (s : State (Pt d)) (r : Rnd d) (hr : RndOk L s r)
    (hD : DesignOf (L.mirror ε).prob L.cfg.numPts (r.design.map fun x i => if ε i then -x i else x i)) :
    RndOk (L.mirror ε) (s.mapPt fun x i => if ε i then -x i else x i) (r.mirror ε) := by
  obtain ⟨_, h2, h3, h4, h5⟩ := hr
  refine ⟨hD, ?_, ?_, h4, ?_⟩
  · show (r.runs.map (mirrorGA ε)).length = _
    rw [List.length_map, h2]; rfl
  · intro g hg q i
    obtain ⟨g0, hg0, rfl⟩ := List.mem_map.mp hg
    obtain ⟨a, b⟩ := h3 g0 hg0 q i
    show 0 ≤ (if ε i then 1 - g0.unit q i else g0.unit q i) ∧ (if ε i then 1 - g0.unit q i else g0.unit q i) ≤ 1
    split_ifs
    · constructor <;> linarith
    · exact ⟨a, b⟩
  · intro k X fX z hX hf hz j i
    have hX0 : s.curX = List.ofFn fun i => Loop.mirror ε (X i) := by
      apply List.map_injective_iff.mpr (mirror_injective ε)
      rw [List.map_ofFn]
      refine hX.trans (congrArg _ (funext fun i => (mirror_mirror ε (X i)).symm))
    obtain ⟨h1, h2⟩ := h5 k (fun i => Loop.mirror ε (X i)) fX z hX0 hf hz j i
    rw [show (L.mirror ε).prob = L.prob.mirror ε from rfl, scalefactors_mirror]
    have hxb : xbestOf X fX = Loop.mirror ε (xbestOf (fun i => Loop.mirror ε (X i)) fX) := (mirror_mirror ε (xbestOf X fX)).symm
    rw [hxb]
    set xc := xbestOf (fun i => Loop.mirror ε (X i)) fX
    unfold DrawOk
    show ((if ε i then -L.prob.ub i else L.prob.lb i) - (if ε i then -xc i else xc i)) / _ ≤ (if ε i then -r.draws j i else r.draws j i) ∧
      (if ε i then -r.draws j i else r.draws j i) ≤ ((if ε i then -L.prob.lb i else L.prob.ub i) - (if ε i then -xc i else xc i)) / _
    split_ifs
    · rw [show -L.prob.ub i - -xc i = -(L.prob.ub i - xc i) by ring, show -L.prob.lb i - -xc i = -(L.prob.lb i - xc i) by ring,
        neg_div, neg_div]
      exact ⟨neg_le_neg h2, neg_le_neg h1⟩
    · exact ⟨h1, h2⟩

/-! ## Example -/

/-- The run of `area_demo` with the sign of the second variable changed. -/
example : ∃ w, loopRun (Setup.mirror ![false, true] ⟨areaProb, areaCfg, .lcb 2 (some 0) 0.1⟩) meanSurr
      (fun y => if y 0 = 0 then 0 else 1) ([![0, 1], ![1, 0]].map fun x i => if (![false, true] : Fin 2 → Bool) i then -x i else x i)
      ((areaEvs ++ areaEvs ++ [Ev.propose quarterRnd]).map (Ev.mirror ![false, true])) = some w ∧
    w.inflight = [![1 / 4, -(3 / 4)]] ∧ completions w.st.log = [(![1, -0], 1), (![0, -1], 0)] := by
  obtain ⟨w, h1, h2, h3⟩ := area_demo
  obtain ⟨w', h', hs⟩ := (C145_run_partial ![false, true] _ (.inr (.inr rfl)) (by simp [areaProb, Fin.forall_fin_two])
    (by simp [areaProb]) meanSurr meanSurr _ (fun y => if y 0 = 0 then 0 else 1) (fun x => by simp) _ _
    (by simp [areaCfg]) (fun r hr => by
      simp only [areaEvs, List.cons_append, List.nil_append, List.mem_cons, Ev.propose.injEq, reduceCtorEq, List.not_mem_nil,
        or_false, false_or] at hr
      obtain rfl : r = quarterRnd := by tauto
      simp [areaCfg, quarterRnd, wanted]) (fun _ w' _ _ => meanSurr_mirror _ _)).2 w h1
  have e : ∀ a b : ℝ, (fun i => if (![false, true] : Fin 2 → Bool) i then -(![a, b] : Pt 2) i else (![a, b] : Pt 2) i) = ![a, -b] := by
    intro a b; funext i; fin_cases i <;> simp
  refine ⟨w', h', hs.inflight.trans ?_, hs.completions.trans ?_⟩
  · rw [h2]; simp only [List.map_cons, List.map_nil, e]
  · rw [h3]; simp only [List.map_cons, List.map_nil, e]

end Verif.Props
