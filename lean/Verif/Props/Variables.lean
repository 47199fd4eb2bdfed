import Verif.Units.SimLoop
import Verif.Props.Units
import Verif.Props.Candidates

/-! # Property C101: the units and the origin of the variables -/

namespace Verif.Props

open Verif.Num Verif.Utils Verif.Cand Verif.Design Verif.Strategy Verif.Spec Verif.Loop

variable {d m n : ℕ}

theorem proposals_mapPt {P Q : Type} (g : P → Q) (log : List (Event P)) :
    proposals (log.map (Event.mapPt g)) = (proposals log).map g := by
  unfold proposals
  rw [List.filterMap_map, List.map_filterMap]
  congr 1
  funext e
  cases e <;> rfl

theorem completions_mapPt {P Q : Type} (g : P → Q) (log : List (Event P)) :
    completions (log.map (Event.mapPt g)) = (completions log).map fun c => (g c.1, c.2) := by
  unfold completions
  rw [List.filterMap_map, List.map_filterMap]
  congr 1
  funext e
  cases e <;> rfl

/-- What an observer sees of a run, in the old variables `x` and in the new variables `c * x + t`. -/
structure SimRun (c : ℝ) (t : Pt d) (w w' : Sys (Pt d)) : Prop where
  proposals : proposals w'.st.log = (proposals w.st.log).map fun x i => c * x i + t i
  inflight : w'.inflight = w.inflight.map fun x i => c * x i + t i
  completions : completions w'.st.log = (completions w.st.log).map fun e => (fun i => c * e.1 i + t i, e.2)
  terminated : Event.terminated ∈ w'.st.log ↔ Event.terminated ∈ w.st.log

theorem simRun_mapPt (c : ℝ) (t : Pt d) (w : Sys (Pt d)) : SimRun c t w (w.mapPt (sim c t)) where
  proposals := proposals_mapPt _ _
  inflight := inflight_mapPt _
  completions := completions_mapPt _ _
  terminated := by
    simp only [Sys.mapPt, State.mapPt, List.mem_map]
    constructor
    · rintro ⟨e, he, h⟩
      cases e <;> simp [Event.mapPt] at h
      exact he
    · intro h; exact ⟨_, h, rfl⟩

/-- EI and LCB, continuous variables: with the same schedule and the same draws (relative to the domain), the run in the
variables `c * x + t` (bounds, extra points, design and `dtol` converted) proposes the converted points in the same order, and
one raises an exception iff the other does. -/
theorem C101_sim_partial {c : ℝ} (hc : 0 < c) (t : Pt d) (L : Setup d) (hp : L.prob.intVar = [])
    (hm : L.method ≠ .srbf ∧ L.method ≠ .dycors) (S S' : Surr d) (f f' : Pt d → Val)
    (hf : ∀ x, f' (fun i => c * x i + t i) = f x) (D : List (Pt d)) (es : List (Ev d))
    (hS : ∀ es' w', es' <+: es → loopRun L S f D es' = some w' → S.SimAt S' c t (surrData w'.st)) :
    (loopRun L S f D es = none ↔
      loopRun (L.sim c t) S' f' (D.map fun x i => c * x i + t i) (es.map (Ev.sim c t)) = none) ∧
    ∀ w, loopRun L S f D es = some w →
      ∃ w', loopRun (L.sim c t) S' f' (D.map fun x i => c * x i + t i) (es.map (Ev.sim c t)) = some w' ∧ SimRun c t w w' := by
  have h := loopRun_sim hc t L hp (.inr hm) S S' f f' hf D es hS
  rw [show loopRun (L.sim c t) S' f' (D.map fun x i => c * x i + t i) (es.map (Ev.sim c t)) = _ from h]
  exact ⟨by simp, fun w hw => ⟨_, by rw [hw]; rfl, simRun_mapPt c t w⟩⟩

/-- All strategies, continuous variables: the same for translations. -/
theorem C101_translate_partial (t : Pt d) (L : Setup d) (hp : L.prob.intVar = []) (S S' : Surr d) (f f' : Pt d → Val)
    (hf : ∀ x, f' (fun i => 1 * x i + t i) = f x) (D : List (Pt d)) (es : List (Ev d))
    (hS : ∀ es' w', es' <+: es → loopRun L S f D es' = some w' → S.SimAt S' 1 t (surrData w'.st)) :
    (loopRun L S f D es = none ↔
      loopRun (L.sim 1 t) S' f' (D.map fun x i => 1 * x i + t i) (es.map (Ev.sim 1 t)) = none) ∧
    ∀ w, loopRun L S f D es = some w →
      ∃ w', loopRun (L.sim 1 t) S' f' (D.map fun x i => 1 * x i + t i) (es.map (Ev.sim 1 t)) = some w' ∧ SimRun 1 t w w' := by
  have h := loopRun_sim one_pos t L hp (.inl rfl) S S' f f' hf D es hS
  rw [show loopRun (L.sim 1 t) S' f' (D.map fun x i => 1 * x i + t i) (es.map (Ev.sim 1 t)) = _ from h]
  exact ⟨by simp, fun w hw => ⟨_, by rw [hw]; rfl, simRun_mapPt 1 t w⟩⟩

/-! ## The surrogates -/

/-- RBF interpolants (every kernel, tail and output transformation) convert, if their bounds are converted. -/
theorem C101_rbf (p : Surrogate.Par d) (hlu : Surrogate.LuSpec p.lu) (hchol : Surrogate.CholSpec p.chol) {c : ℝ} (hc : 0 < c)
    (t : Pt d) (D : List (Pt d × ℝ)) :
    (rbfSurr p).SimAt (rbfSurr { p with lb := fun i => c * p.lb i + t i, ub := fun i => c * p.ub i + t i }) c t D := by
  have h : ∀ x : Pt d, (Surrogate.predict { p with lb := fun i => c * p.lb i + t i, ub := fun i => c * p.ub i + t i }
      (Surrogate.rrun { p with lb := fun i => c * p.lb i + t i, ub := fun i => c * p.ub i + t i } (scratch (simData c t D)))
        (sim c t x)).2 = (Surrogate.predict p (Surrogate.rrun p (scratch D)) x).2 := by
    intro x
    have hs := C87_units p.lb p.ub p.kernel p.tail p.eta p.trans p.lu p.chol hlu hchol (fun _ => c) t (fun _ => hc.ne')
      (scratch D) (scratch (simData c t D)) (scratch_ok _) (scratch_ok _) (by rw [scratch_data, scratch_data]; rfl)
      (by simp only [scratch_noFail]) x
    exact hs
  have hinv : ∀ y : Pt d, ∃ x, sim c t x = y := fun y =>
    ⟨fun i => (y i - t i) / c, by funext i; simp only [sim]; rw [mul_div_cancel₀ _ hc.ne']; ring⟩
  refine ⟨?_, rfl⟩
  simp only [rbfSurr]
  by_cases hn : ∃ x, (Surrogate.predict p (Surrogate.rrun p (scratch D)) x).2 = none
  · obtain ⟨x, hx⟩ := hn
    have hn' : ∃ y, (Surrogate.predict { p with lb := fun i => c * p.lb i + t i, ub := fun i => c * p.ub i + t i }
        (Surrogate.rrun { p with lb := fun i => c * p.lb i + t i, ub := fun i => c * p.ub i + t i }
          (scratch (simData c t D))) y).2 = none := ⟨sim c t x, by rw [h]; exact hx⟩
    rw [if_pos hn', if_pos ⟨x, hx⟩]; rfl
  · have hn' : ¬ ∃ y, (Surrogate.predict { p with lb := fun i => c * p.lb i + t i, ub := fun i => c * p.ub i + t i }
        (Surrogate.rrun { p with lb := fun i => c * p.lb i + t i, ub := fun i => c * p.ub i + t i }
          (scratch (simData c t D))) y).2 = none := by
      rintro ⟨y, hy⟩
      obtain ⟨x, rfl⟩ := hinv y
      exact hn ⟨x, by rw [← h]; exact hy⟩
    rw [if_neg hn, if_neg hn']
    simp only [Option.map_some, h]

/-- The Gaussian process converts, if its bounds are converted (every regressor, every output transformation). -/
theorem C101_gp (lb ub : Pt d) (trans : List ℝ → List ℝ) (reg : List (Pt d) → List ℝ → Pt d → ℝ × ℝ) {c : ℝ} (hc : 0 < c)
    (t : Pt d) (D : List (Pt d × ℝ)) :
    (gpSurr lb ub trans reg).SimAt (gpSurr (fun i => c * lb i + t i) (fun i => c * ub i + t i) trans reg) c t D := by
  have hbox : ∀ y : Pt d, toUnitBox (sim c t y) (fun j => c * lb j + t j) (fun j => c * ub j + t j) = toUnitBox y lb ub := by
    intro y
    funext j
    unfold toUnitBox sim
    rw [show c * y j + t j - (c * lb j + t j) = c * (y j - lb j) by ring,
      show c * ub j + t j - (c * lb j + t j) = c * (ub j - lb j) by ring, mul_div_mul_left _ _ hc.ne']
  have h1 : (simData c t D).map Prod.snd = D.map Prod.snd := by simp [simData, List.map_map, Function.comp_def]
  have h2 : (simData c t D).map (fun e => toUnitBox e.1 (fun j => c * lb j + t j) (fun j => c * ub j + t j)) =
      D.map fun e => toUnitBox e.1 lb ub := by
    simp only [simData, List.map_map, Function.comp_def, hbox]
  constructor
  · simp only [gpSurr, h1, h2, hbox, Option.map_some]
  · simp only [gpSurr, h1, h2, hbox, Option.map_some]

/-! ## SRBF and DYCORS: the minimal distance is `1e-3` in any units -/

/-- If all candidates are too close to `X` or the pending points, the first candidate is selected, every time. -/
theorem wdm_close (pred : Pt d → ℝ) (X : Fin (n + 1) → Pt d) (Xpend : List (Pt d)) (cand : Fin (m + 1) → Pt d) (ws : List ℝ)
    {dtol : ℝ} (h : ∀ j, eucl (cand j) (X 0) < dtol) :
    weightedDistanceMerit pred X Xpend cand ws dtol = List.replicate ws.length (cand 0) := by
  have key : ∀ (ws : List ℝ) (fv : Fin (m + 1) → Fl) (dm : Fin (m + 1) → ℝ), (∀ j, dm j < dtol) →
      wdmLoop cand dtol ws fv dm = List.replicate ws.length 0 := by
    intro ws
    induction ws with
    | nil => intro _ _ _; rfl
    | cons w ws ih =>
      intro fv dm hd
      have hz : flArgmin (merit w dtol fv dm) = 0 := by
        unfold flArgmin
        have hm : ∀ j, merit w dtol fv dm j = .inf := fun j => by simp only [merit, if_pos (hd j)]
        simp only [hm]
        cases m with
        | zero => rfl
        | succ m => simp [argmin]
      simp only [wdmLoop, hz, List.length_cons, List.replicate_succ]
      rw [ih _ _ fun j => lt_of_le_of_lt (min_le_left _ _) (hd j)]
  unfold weightedDistanceMerit wdmIdx
  rw [key, List.map_replicate]
  intro j
  rw [minDist_eq]
  exact lt_of_le_of_lt (nearestDist_le (by simp)) (h j)

theorem eucl_box {lb ub x y : Pt d} (hx : InBox lb ub x) (hy : InBox lb ub y) : eucl x y ≤ eucl lb ub := by
  unfold eucl
  refine Real.sqrt_le_sqrt (Finset.sum_le_sum fun i _ => ?_)
  have h1 := hx i
  have h2 := hy i
  nlinarith [h1.1, h1.2, h2.1, h2.2]

/-- SRBF on a domain whose diameter is less than `1e-3`: the surrogate is irrelevant, and all points of a batch are the same.
(The strategy sets `self.dtol = 1e-3 * sqrt(dim)` but never passes it on, and `dtol` does not depend on the bounds.) -/
theorem C101_srbf_refuted (p : OptProb d) (ok : ProbOk p) (hdiam : eucl p.lb p.ub < 1e-3) (pred pred' : Pt d → ℝ)
    (X : Fin (n + 1) → Pt d) (hX : ∀ k, Feasible p (X k)) (fX : Fin (n + 1) → ℝ) (ws : List ℝ) (Xpend : List (Pt d))
    (radius : ℝ) (hr : 0 < radius) (z : Fin (m + 1) → Pt d)
    (hz : ∀ j i, DrawOk p (xbestOf X fX) (scalefactors p radius (List.finRange d)) i (z j i)) :
    candidateSrbf p pred X fX ws Xpend radius (List.finRange d) 1e-3 z =
      candidateSrbf p pred' X fX ws Xpend radius (List.finRange d) 1e-3 z ∧
    ∃ x, candidateSrbf p pred X fX ws Xpend radius (List.finRange d) 1e-3 z = List.replicate ws.length x := by
  have hc : ∀ j, eucl (roundVars (srbfCand (xbestOf X fX) (scalefactors p radius (List.finRange d)) (List.finRange d) (z j))
      p.intVar p.lb p.ub) (X 0) < 1e-3 := by
    intro j
    refine lt_of_le_of_lt (eucl_box (roundVars_feasible ok fun i => ?_).1 (hX 0).1) hdiam
    simp only [srbfCand, List.mem_finRange, if_true]
    exact truncnorm_mem (scale_pos ok hr _ i) (hz j i)
  unfold candidateSrbf
  dsimp only
  rw [wdm_close pred X Xpend _ ws hc, wdm_close pred' X Xpend _ ws hc]
  exact ⟨rfl, _, rfl⟩

/-- The same for DYCORS. -/
theorem C101_dycors_refuted (p : OptProb d) (ok : ProbOk p) (hdiam : eucl p.lb p.ub < 1e-3) (pred pred' : Pt d → ℝ)
    (X : Fin (n + 1) → Pt d) (hX : ∀ k, Feasible p (X k)) (fX : Fin (n + 1) → ℝ) (ws : List ℝ) (prob : ℝ) (Xpend : List (Pt d))
    (radius : ℝ) (hr : 0 < radius) (u : Fin (m + 1) → ℕ → ℝ) (forced : Fin (m + 1) → ℕ) (z : Fin (m + 1) → Pt d)
    (hz : ∀ j i, DrawOk p (xbestOf X fX) (scalefactors p radius (List.finRange d)) i (z j i)) :
    candidateDycors p pred X ws prob Xpend radius (List.finRange d) 1e-3 (xbestOf X fX) u forced z =
      candidateDycors p pred' X ws prob Xpend radius (List.finRange d) 1e-3 (xbestOf X fX) u forced z ∧
    ∃ x, candidateDycors p pred X ws prob Xpend radius (List.finRange d) 1e-3 (xbestOf X fX) u forced z =
      some (List.replicate ws.length x) := by
  have hrow : ∀ j, ∃ y, dycorsCand (xbestOf X fX) (scalefactors p radius (List.finRange d)) (List.finRange d)
      (dycorsMask (List.finRange d).length prob (u j) (forced j)) (z j) = some y ∧ InBox p.lb p.ub y := by
    intro j
    obtain ⟨y, h1, h2⟩ := dycorsCand_prefix (xbestOf X fX) (scalefactors p radius (List.finRange d)) (List.finRange d)
      (fun i h => by simp) (dycorsMask (List.finRange d).length prob (u j) (forced j)) (z j)
    refine ⟨y, h1, fun i => ?_⟩
    rw [h2]
    split
    · exact truncnorm_mem (scale_pos ok hr _ i) (hz j i)
    · exact (hX _).1 i
  have hall : ∀ j, (dycorsCand (xbestOf X fX) (scalefactors p radius (List.finRange d)) (List.finRange d)
      (dycorsMask (List.finRange d).length prob (u j) (forced j)) (z j)).isSome := by
    intro j; obtain ⟨y, h, _⟩ := hrow j; rw [h]; rfl
  have hc : ∀ j, eucl (roundVars ((dycorsCand (xbestOf X fX) (scalefactors p radius (List.finRange d)) (List.finRange d)
      (dycorsMask (List.finRange d).length prob (u j) (forced j)) (z j)).get (hall j)) p.intVar p.lb p.ub) (X 0) < 1e-3 := by
    intro j
    obtain ⟨y, h, hy⟩ := hrow j
    simp only [h, Option.get_some]
    exact lt_of_le_of_lt (eucl_box (roundVars_feasible ok hy).1 (hX 0).1) hdiam
  unfold candidateDycors
  dsimp only
  rw [dif_pos hall, dif_pos hall, wdm_close pred X Xpend _ ws hc, wdm_close pred' X Xpend _ ws hc]
  exact ⟨rfl, _, rfl⟩

/-! ## Concrete changes of units that change the choice -/

theorem unitRescale_lt {x : Fin 2 → ℝ} (h : x 0 < x 1) : unitRescale x 0 = 0 ∧ unitRescale x 1 = 1 := by
  have h1 : vmax x = x 1 := le_antisymm (Finset.sup'_le _ _ fun i _ => by fin_cases i <;> simp [h.le]) (le_vmax x 1)
  have h2 : vmin x = x 0 := le_antisymm (vmin_le x 0) (Finset.le_inf' _ _ fun i _ => by fin_cases i <;> simp [h.le])
  unfold unitRescale
  rw [h1, h2, if_neg h.ne']
  exact ⟨by simp, div_self (sub_ne_zero.mpr h.ne')⟩

theorem unitRescale_gt {x : Fin 2 → ℝ} (h : x 1 < x 0) : unitRescale x 0 = 1 ∧ unitRescale x 1 = 0 := by
  have h1 : vmax x = x 0 := le_antisymm (Finset.sup'_le _ _ fun i _ => by fin_cases i <;> simp [h.le]) (le_vmax x 0)
  have h2 : vmin x = x 1 := le_antisymm (vmin_le x 1) (Finset.le_inf' _ _ fun i _ => by fin_cases i <;> simp [h.le])
  unfold unitRescale
  rw [h1, h2, if_neg h.ne']
  exact ⟨div_self (sub_ne_zero.mpr h.ne'), by simp⟩

/-- Selection of one of two candidates that are far enough from the single evaluated point. -/
theorem wdm_two (pred : Pt d → ℝ) (X : Fin 1 → Pt d) (cand : Fin 2 → Pt d) (w : ℝ) {dtol : ℝ}
    (h : ∀ j, dtol ≤ eucl (cand j) (X 0)) :
    weightedDistanceMerit pred X [] cand [w] dtol =
      [cand (if w * unitRescale (fun k => pred (cand k)) 0 + (1 - w) * (1 - unitRescale (fun k => eucl (cand k) (X 0)) 0) ≤
        w * unitRescale (fun k => pred (cand k)) 1 + (1 - w) * (1 - unitRescale (fun k => eucl (cand k) (X 0)) 1) then 0
        else 1)] := by
  have hm : ∀ j, minDist (cand j) (X 0) (List.ofFn (fun k : Fin 0 => X k.succ) ++ []) = eucl (cand j) (X 0) := fun j => rfl
  unfold weightedDistanceMerit wdmIdx
  simp only [hm, wdmLoop, List.map_cons, List.map_nil]
  congr 2
  have hk : ∀ j, (merit w dtol (fun j => .fin (unitRescale (fun k => pred (cand k)) j)) (fun k => eucl (cand k) (X 0)) j).key =
      (((w * unitRescale (fun k => pred (cand k)) j + (1 - w) * (1 - unitRescale (fun k => eucl (cand k) (X 0)) j) : ℝ) :
        WithTop ℝ) : WithBot (WithTop ℝ)) := by
    intro j
    unfold merit
    rw [if_neg (not_lt.mpr (h j))]
    rfl
  unfold flArgmin
  simp only [hk, argmin]
  have hs : (Fin.succ 0 : Fin 2) = 1 := rfl
  simp only [hs, WithBot.coe_le_coe, WithTop.coe_le_coe]

/-- SRBF, one variable in `[0, 1]`, evaluated point `0.5`, two candidates `0.7` and `0.1`, weight 1, predictions that increase
with the variable: the candidate `0.1` is selected.  In units of `10^4` (so that all numbers are `10^4` times smaller) the
other one is. -/
theorem C101_scale_refuted :
    candidateSrbf (m := 1) unitProb (fun x => x 0) (fun _ : Fin 1 => fun _ => 1 / 2) (fun _ => 0) [1] [] (1 / 5)
      (List.finRange 1) 1e-3 ![fun _ => 1, fun _ => -2] = [fun _ => 1 / 10] ∧
    candidateSrbf (m := 1) (OptProb.sim (1 / 10 ^ 4) 0 unitProb) (fun x => x 0) (fun _ : Fin 1 => fun _ => 1 / 10 ^ 4 * (1 / 2))
      (fun _ => 0) [1] [] (1 / 5) (List.finRange 1) 1e-3 ![fun _ => 1, fun _ => -2] = [fun _ => 1 / 10 ^ 4 * (7 / 10)] := by
  have eu : ∀ a b : ℝ, eucl (fun _ : Fin 1 => a) (fun _ => b) = |a - b| := by
    intro a b; simp only [eucl, Fin.sum_univ_one]; rw [Real.sqrt_sq_eq_abs]
  constructor
  · have hc : (fun j => roundVars (srbfCand (fun _ => 1 / 2) (scalefactors unitProb (1 / 5) (List.finRange 1)) (List.finRange 1)
        ((![fun _ => 1, fun _ => -2] : Fin 2 → Pt 1) j)) unitProb.intVar unitProb.lb unitProb.ub) =
        ![fun _ => 7 / 10, fun _ => 1 / 10] := by
      funext j i
      fin_cases j <;> norm_num [unitProb, roundVars_nil, srbfCand, truncnorm, scalefactors]
    simp only [candidateSrbf, xbestOf]
    rw [hc, wdm_two]
    · have h1 : unitRescale (fun k => (![fun _ => 7 / 10, fun _ => 1 / 10] : Fin 2 → Pt 1) k 0) 0 = 1 ∧
          unitRescale (fun k => (![fun _ => 7 / 10, fun _ => 1 / 10] : Fin 2 → Pt 1) k 0) 1 = 0 :=
        unitRescale_gt (by norm_num)
      rw [h1.1, h1.2]
      norm_num
    · intro j
      fin_cases j
      · simp only [Fin.zero_eta, Matrix.cons_val_zero, eu]; norm_num [abs_of_pos]
      · simp only [Fin.mk_one, Matrix.cons_val_one, Matrix.cons_val_zero, eu]; norm_num [abs_of_neg]
  · have hc : (fun j => roundVars (srbfCand (fun _ => 1 / 10 ^ 4 * (1 / 2))
        (scalefactors (OptProb.sim (1 / 10 ^ 4) 0 unitProb) (1 / 5) (List.finRange 1)) (List.finRange 1)
        ((![fun _ => 1, fun _ => -2] : Fin 2 → Pt 1) j)) (OptProb.sim (1 / 10 ^ 4) 0 unitProb).intVar
        (OptProb.sim (1 / 10 ^ 4) 0 unitProb).lb (OptProb.sim (1 / 10 ^ 4) 0 unitProb).ub) =
        ![fun _ => 1 / 10 ^ 4 * (7 / 10), fun _ => 1 / 10 ^ 4 * (1 / 10)] := by
      funext j i
      fin_cases j <;> norm_num [unitProb, OptProb.sim, Loop.sim, roundVars_nil, srbfCand, truncnorm, scalefactors]
    simp only [candidateSrbf, xbestOf]
    rw [hc, wdm_close]
    · rfl
    · intro j
      fin_cases j
      · simp only [Fin.zero_eta, Matrix.cons_val_zero, eu]; norm_num [abs_of_pos]
      · simp only [Fin.mk_one, Matrix.cons_val_one, Matrix.cons_val_zero, eu]; norm_num [abs_of_neg]

/-- The square `[-1, 1]²`. -/
def squareProb : OptProb 2 := { lb := fun _ => -1, ub := fun _ => 1, intVar := [] }

/-- SRBF measures distances in the variables as they are given, so that the unit of one variable matters: evaluated point the
origin, candidates `(0.3, 0)` and `(0, 0.4)`, constant predictions, weight 0.3.  The second is selected; if the first variable
is given in units ten times smaller (bounds and points converted), the first. -/
theorem C101_anisotropic_refuted :
    candidateSrbf (m := 1) squareProb (fun _ => 0) (fun _ : Fin 1 => 0) (fun _ => 0) [3 / 10] [] (1 / 5)
      (List.finRange 2) 1e-3 ![![3 / 4, 0], ![0, 1]] = [![0, 2 / 5]] ∧
    candidateSrbf (m := 1) { squareProb with lb := ![-10, -1], ub := ![10, 1] } (fun _ => 0) (fun _ : Fin 1 => 0) (fun _ => 0)
      [3 / 10] [] (1 / 5) (List.finRange 2) 1e-3 ![![3 / 4, 0], ![0, 1]] = [![10 * (3 / 10), 0]] := by
  have eu : ∀ a b : ℝ, eucl (![a, b] : Pt 2) 0 = Real.sqrt (a ^ 2 + b ^ 2) := by
    intro a b; simp [eucl, Fin.sum_univ_two]
  have e1 : ∀ a : ℝ, 0 ≤ a → eucl (![a, 0] : Pt 2) 0 = a := by
    intro a ha; rw [eu, show a ^ 2 + 0 ^ 2 = a ^ 2 by ring, Real.sqrt_sq ha]
  have e2 : ∀ a : ℝ, 0 ≤ a → eucl (![0, a] : Pt 2) 0 = a := by
    intro a ha; rw [eu, show 0 ^ 2 + a ^ 2 = a ^ 2 by ring, Real.sqrt_sq ha]
  constructor
  · have hc : (fun j => roundVars (srbfCand 0 (scalefactors squareProb (1 / 5) (List.finRange 2)) (List.finRange 2)
        ((![![3 / 4, 0], ![0, 1]] : Fin 2 → Pt 2) j)) squareProb.intVar squareProb.lb squareProb.ub) =
        ![![3 / 10, 0], ![0, 2 / 5]] := by
      funext j i
      fin_cases j <;> fin_cases i <;> norm_num [squareProb, roundVars_nil, srbfCand, truncnorm, scalefactors]
    simp only [candidateSrbf, xbestOf]
    rw [hc, wdm_two]
    · have h1 : unitRescale (fun k => eucl ((![![3 / 10, 0], ![0, 2 / 5]] : Fin 2 → Pt 2) k) 0) 0 = 0 ∧
          unitRescale (fun k => eucl ((![![3 / 10, 0], ![0, 2 / 5]] : Fin 2 → Pt 2) k) 0) 1 = 1 :=
        unitRescale_lt (by
          simp only [Matrix.cons_val_zero, Matrix.cons_val_one]
          rw [e1 _ (by norm_num), e2 _ (by norm_num)]; norm_num)
      rw [h1.1, h1.2]
      norm_num [unitRescale, vmax, vmin]
    · intro j
      fin_cases j
      · simp only [Fin.zero_eta, Matrix.cons_val_zero]; rw [e1 _ (by norm_num)]; norm_num
      · simp only [Fin.mk_one, Matrix.cons_val_one, Matrix.cons_val_zero]; rw [e2 _ (by norm_num)]; norm_num
  · have hc : (fun j => roundVars (srbfCand 0 (scalefactors { squareProb with lb := ![-10, -1], ub := ![10, 1] } (1 / 5)
        (List.finRange 2)) (List.finRange 2) ((![![3 / 4, 0], ![0, 1]] : Fin 2 → Pt 2) j)) squareProb.intVar ![-10, -1]
        ![10, 1]) = ![![3, 0], ![0, 2 / 5]] := by
      funext j i
      fin_cases j <;> fin_cases i <;> norm_num [squareProb, roundVars_nil, srbfCand, truncnorm, scalefactors]
    simp only [candidateSrbf, xbestOf]
    rw [hc, wdm_two]
    · have h1 : unitRescale (fun k => eucl ((![![3, 0], ![0, 2 / 5]] : Fin 2 → Pt 2) k) 0) 0 = 1 ∧
          unitRescale (fun k => eucl ((![![3, 0], ![0, 2 / 5]] : Fin 2 → Pt 2) k) 0) 1 = 0 :=
        unitRescale_gt (by
          simp only [Matrix.cons_val_zero, Matrix.cons_val_one]
          rw [e1 _ (by norm_num), e2 _ (by norm_num)]; norm_num)
      rw [h1.1, h1.2]
      norm_num [unitRescale, vmax, vmin]
    · intro j
      fin_cases j
      · simp only [Fin.zero_eta, Matrix.cons_val_zero]; rw [e1 _ (by norm_num)]; norm_num
      · simp only [Fin.mk_one, Matrix.cons_val_one, Matrix.cons_val_zero]; rw [e2 _ (by norm_num)]; norm_num

/-! ## Cases that meet the hypotheses -/

theorem meanSurr_sim (c : ℝ) (t : Pt d) (D : List (Pt d × ℝ)) : meanSurr.SimAt meanSurr c t D := by
  have h : (simData c t D).map Prod.snd = D.map Prod.snd := by simp [simData, List.map_map, Function.comp_def]
  by_cases hD : D = []
  · subst hD; exact ⟨by simp [meanSurr, simData], by simp [meanSurr, simData]⟩
  have hD' : simData c t D ≠ [] := by simpa [simData] using hD
  exact ⟨by simp only [meanSurr, if_neg hD, if_neg hD', h, Option.map_some],
    by simp only [meanSurr, if_neg hD, if_neg hD', h, Option.map_some]⟩

/-- The run of `units_demo` in the variable `3 * x - 7`. -/
example : ∃ w, loopRun (Setup.sim 3 (fun _ => -7) ⟨unitProb, loopCfg [], .lcb 2 (some 0) 0.1⟩) meanSurr
      (fun y => if (y 0 + 7) / 3 = 0 then 0 else 1) ([fun _ => 0, fun _ => 1].map fun x i => 3 * x i + -7)
      ((cycleEvs ++ cycleEvs ++ [Ev.propose midRnd]).map (Ev.sim 3 fun _ => -7)) = some w ∧
    w.inflight = [fun _ => 3 * (1 / 2) + -7] ∧
    completions w.st.log = [(fun _ => 3 * 1 + -7, 1), (fun _ => 3 * 0 + -7, 0)] := by
  obtain ⟨w, h1, h2, h3⟩ := units_demo
  obtain ⟨w', h', hs⟩ := (C101_sim_partial (c := 3) (by norm_num) (fun _ => -7) _ rfl ⟨by simp, by simp⟩ meanSurr meanSurr _
    (fun y => if (y 0 + 7) / 3 = 0 then 0 else 1) (fun x => by norm_num) _ _ (fun _ w' _ _ => meanSurr_sim _ _ _)).2 w h1
  refine ⟨w', h', hs.inflight.trans ?_, hs.completions.trans ?_⟩
  · rw [h2]; rfl
  · rw [h3]; rfl

/-- A problem and draws that meet the hypotheses of `C101_srbf_refuted` and `C101_dycors_refuted`. -/
example : ∃ (p : OptProb 1) (X : Fin 1 → Pt 1) (fX : Fin 1 → ℝ) (z : Fin 2 → Pt 1), ProbOk p ∧ eucl p.lb p.ub < 1e-3 ∧
    (∀ k, Feasible p (X k)) ∧
    (∀ j i, DrawOk p (xbestOf X fX) (scalefactors p (1 / 5) (List.finRange 1)) i (z j i)) ∧ z 0 ≠ z 1 := by
  refine ⟨⟨fun _ => 0, fun _ => 1 / 10 ^ 4, []⟩, fun _ _ => 1 / 20000, fun _ => 0, ![fun _ => 1, fun _ => -2],
    ⟨by norm_num, by simp [IntegerOn], by simp [IntegerOn]⟩, ?_, ?_, ?_, ?_⟩
  · simp only [eucl, Fin.sum_univ_one]; rw [Real.sqrt_sq_eq_abs]; norm_num [abs_of_pos]
  · exact fun _ => ⟨fun i => by norm_num, by simp [IntegerOn]⟩
  · intro j i
    fin_cases j <;> norm_num [DrawOk, xbestOf, scalefactors]
  · intro h; have := congrFun h 0; norm_num at this

end Verif.Props
