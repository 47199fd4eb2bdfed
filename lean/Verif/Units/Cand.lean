import Verif.Loop.Run
import Verif.Units.Strategy
import Verif.Props.EINaN

/-! # The auxiliary problems do not depend on the units of the objective (for C100) -/

namespace Verif.Loop

open Verif.Num Verif.Utils Verif.Cand Verif.Design Verif.Strategy Verif.Props

variable {d m n h : ℕ}

theorem affine_strictMono {a : ℝ} (ha : 0 < a) (b : ℝ) : StrictMono fun x : ℝ => a * x + b := by
  intro x y hxy
  have := mul_lt_mul_of_pos_left hxy ha
  show a * x + b < a * y + b
  linarith

theorem unitRescale_affine {a : ℝ} (ha : 0 < a) (b : ℝ) (x : Fin (m + 1) → ℝ) :
    unitRescale (fun j => a * x j + b) = unitRescale x := by
  have hmin : vmin (fun j => a * x j + b) = a * vmin x + b := by
    unfold vmin
    exact (Finset.apply_inf'_eq_inf'_comp _ (fun x : ℝ => a * x + b) fun _ _ => (affine_strictMono ha b).monotone.map_min).symm
  have hmax : vmax (fun j => a * x j + b) = a * vmax x + b := by
    unfold vmax
    exact (Finset.apply_sup'_eq_sup'_comp _ (fun x : ℝ => a * x + b) fun _ _ => (affine_strictMono ha b).monotone.map_max).symm
  unfold unitRescale
  rw [hmin, hmax]
  by_cases he : vmax x = vmin x
  · rw [if_pos he, if_pos (by rw [he])]
  · rw [if_neg he, if_neg (fun h0 => he ((affine_strictMono ha b).injective h0))]
    funext i
    have h1 : vmax x - vmin x ≠ 0 := sub_ne_zero.mpr he
    rw [show a * x i + b - (a * vmin x + b) = a * (x i - vmin x) by ring,
      show a * vmax x + b - (a * vmin x + b) = a * (vmax x - vmin x) by ring, mul_div_mul_left _ _ ha.ne']

theorem wdm_affine {a : ℝ} (ha : 0 < a) (b : ℝ) (pred : Pt d → ℝ) (X : Fin (n + 1) → Pt d) (Xpend : List (Pt d))
    (cand : Fin (m + 1) → Pt d) (weights : List ℝ) (dtol : ℝ) :
    weightedDistanceMerit (fun x => a * pred x + b) X Xpend cand weights dtol =
      weightedDistanceMerit pred X Xpend cand weights dtol := by
  unfold weightedDistanceMerit wdmIdx
  rw [unitRescale_affine ha b (fun k => pred (cand k))]

theorem xbest_affine {a : ℝ} (ha : 0 < a) (b : ℝ) (X : Fin (n + 1) → Pt d) (fX : Fin (n + 1) → ℝ) :
    xbestOf X (fun i => a * fX i + b) = xbestOf X fX := by
  unfold xbestOf
  rw [argmin_comp (affine_strictMono ha b) fX]

theorem srbf_affine {a : ℝ} (ha : 0 < a) (b : ℝ) (p : OptProb d) (pred : Pt d → ℝ) (X : Fin (n + 1) → Pt d)
    (fX : Fin (n + 1) → ℝ) (weights : List ℝ) (Xpend : List (Pt d)) (radius : ℝ) (subset : List (Fin d)) (dtol : ℝ)
    (z : Fin (m + 1) → Pt d) :
    candidateSrbf p (fun x => a * pred x + b) X (fun i => a * fX i + b) weights Xpend radius subset dtol z =
      candidateSrbf p pred X fX weights Xpend radius subset dtol z := by
  unfold candidateSrbf
  simp only [wdm_affine ha, xbest_affine ha]

theorem dycors_affine {a : ℝ} (ha : 0 < a) (b : ℝ) (p : OptProb d) (pred : Pt d → ℝ) (X : Fin (n + 1) → Pt d)
    (weights : List ℝ) (prob : ℝ) (Xpend : List (Pt d)) (radius : ℝ) (subset : List (Fin d)) (dtol : ℝ) (xbest : Pt d)
    (u : Fin (m + 1) → ℕ → ℝ) (forced : Fin (m + 1) → ℕ) (z : Fin (m + 1) → Pt d) :
    candidateDycors p (fun x => a * pred x + b) X weights prob Xpend radius subset dtol xbest u forced z =
      candidateDycors p pred X weights prob Xpend radius subset dtol xbest u forced z := by
  unfold candidateDycors
  simp only [wdm_affine ha]

theorem eiFormula_affine {a : ℝ} (ha : 0 < a) (b fbest mu sig : ℝ) :
    eiFormula (a * fbest + b) (a * mu + b) (a * sig) = a * eiFormula fbest mu sig := by
  unfold eiFormula
  dsimp only
  rw [show a * fbest + b - (a * mu + b) = a * (fbest - mu) by ring, mul_div_mul_left _ _ ha.ne']
  ring

theorem eiGaLoop_scale {a : ℝ} (ha : 0 < a) (p : OptProb d) (M : List (Pt d) → Pt d → ℝ) (tol : ℝ) (runs : List (GARun d h))
    (XX : List (Pt d)) : eiGaLoop p (fun XX x => a * M XX x) (a * tol) runs XX = eiGaLoop p M tol runs XX := by
  induction runs generalizing XX with
  | nil => rfl
  | cons r rs ih =>
    have ho := optimize_comp (affine_strictMono ha 0) p.ga (fun Y => -M XX (roundVars Y p.intVar p.lb p.ub)) r.unit r.gens
    have ho' : optimize p.ga (fun Y => -(a * M XX (roundVars Y p.intVar p.lb p.ub))) r.unit r.gens =
        mapVals (fun x : ℝ => a * x + 0) (optimize p.ga (fun Y => -M XX (roundVars Y p.intVar p.lb p.ub)) r.unit r.gens) := by
      rw [← ho]; congr 1; funext Y; ring
    unfold eiGaLoop
    rw [ho']
    simp only [mapVals, ih]
    generalize optimize p.ga (fun Y => -M XX (roundVars Y p.intVar p.lb p.ub)) r.unit r.gens = s
    have hc : -(a * s.bestValue + 0) < a * tol ↔ -s.bestValue < tol := by
      rw [show -(a * s.bestValue + 0) = a * -s.bestValue by ring]
      exact mul_lt_mul_iff_of_pos_left ha
    simp only [hc]

theorem ei_affine {a : ℝ} (ha : 0 < a) (b : ℝ) (p : OptProb d) (mean std : Pt d → ℝ) (fbest : ℝ) (x0 : Pt d)
    (xs Xpend : List (Pt d)) (dtol tol : ℝ) (runs : List (GARun d h)) :
    eiGa p (fun x => a * mean x + b) (fun x => a * std x) (a * fbest + b) x0 xs Xpend dtol (a * tol) runs =
      eiGa p mean std fbest x0 xs Xpend dtol tol runs := by
  unfold eiGa
  refine Eq.trans ?_ (eiGaLoop_scale ha p _ tol runs _)
  congr 1
  funext XX x
  unfold eiMerit
  split_ifs
  · rw [mul_zero]
  · exact eiFormula_affine ha b _ _ _

theorem topMap_strictMono {φ : ℝ → ℝ} (hφ : StrictMono φ) : StrictMono (WithTop.map φ) := by
  intro x y hxy
  induction y using WithTop.recTopCoe with
  | top =>
    induction x using WithTop.recTopCoe with
    | top => exact absurd hxy (lt_irrefl _)
    | coe x => exact WithTop.coe_lt_top _
  | coe y =>
    induction x using WithTop.recTopCoe with
    | top => exact absurd hxy (not_lt.mpr le_top)
    | coe x =>
      rw [WithTop.map_coe, WithTop.map_coe, WithTop.coe_lt_coe]
      exact hφ (WithTop.coe_lt_coe.mp hxy)

theorem lcbGaLoop_map {φ : ℝ → ℝ} (hφ : StrictMono φ) (p : OptProb d) (M : List (Pt d) → Pt d → WithTop ℝ) (target : ℝ)
    (runs : List (GARun d h)) (XX : List (Pt d)) :
    lcbGaLoop p (fun XX x => WithTop.map φ (M XX x)) (φ target) runs XX = lcbGaLoop p M target runs XX := by
  induction runs generalizing XX with
  | nil => rfl
  | cons r rs ih =>
    have ho := optimize_comp (topMap_strictMono hφ) p.ga (fun Y => M XX (roundVars Y p.intVar p.lb p.ub)) r.unit r.gens
    unfold lcbGaLoop
    rw [ho]
    simp only [mapVals, ih]
    generalize optimize p.ga (fun Y => M XX (roundVars Y p.intVar p.lb p.ub)) r.unit r.gens = s
    have hc : WithTop.map φ s.bestValue > ((φ target : ℝ) : WithTop ℝ) ↔ s.bestValue > (target : WithTop ℝ) :=
      (topMap_strictMono hφ).lt_iff_lt (a := (target : WithTop ℝ))
    simp only [hc]

theorem lcb_affine {a : ℝ} (ha : 0 < a) (b : ℝ) (p : OptProb d) (mean std : Pt d → ℝ) (kappa : ℝ) (x0 : Pt d)
    (xs Xpend : List (Pt d)) (dtol target : ℝ) (runs : List (GARun d h)) :
    lcbGa p (fun x => a * mean x + b) (fun x => a * std x) kappa x0 xs Xpend dtol (a * target + b) runs =
      lcbGa p mean std kappa x0 xs Xpend dtol target runs := by
  unfold lcbGa
  refine Eq.trans ?_ (lcbGaLoop_map (affine_strictMono ha b) p _ target runs _)
  congr 1
  funext XX x
  unfold lcbMerit
  split_ifs
  · rfl
  · rw [WithTop.map_coe]; congr 1; ring

/-! ## The answer of the auxiliary problem in a state of the strategy -/

/-- The tolerances are given in units of the objective: `ei_tol`, `lcb_tol`. -/
noncomputable def Method.scale (a : ℚ) : Method → Method
  | .ei tol dtol => .ei (tol.map fun t => (a : ℝ) * t) dtol
  | .lcb kappa tol dtol => .lcb kappa (tol.map fun t => (a : ℝ) * t) dtol
  | m => m

/-- The same strategy in units where a value `v` is `a * v + b`: extra values and tolerances are converted. -/
noncomputable def Setup.units (a b : ℚ) (L : Setup d) : Setup d :=
  { L with cfg := L.cfg.mapVal fun v => a * v + b, method := L.method.scale a }

/-- Conversion of data. -/
def convert (α β : ℝ) (D : List (Pt d × ℝ)) : List (Pt d × ℝ) := D.map fun e => (e.1, α * e.2 + β)

/-- If the data `D` are converted, so are the predictions. -/
structure Surr.ConvertsAt (S : Surr d) (a b : ℚ) (D : List (Pt d × ℝ)) : Prop where
  mean : S.mean (convert a b D) = (S.mean D).map fun p x => (a : ℝ) * p x + b
  std : S.std (convert a b D) = (S.std D).map fun p x => (a : ℝ) * p x

theorem affineQ_mono {a : ℚ} (ha : 0 < a) (b : ℚ) : Monotone fun v : ℚ => a * v + b := by
  intro x y hxy
  have := mul_le_mul_of_nonneg_left hxy ha.le
  show a * x + b ≤ a * y + b
  linarith

theorem spread_affine {a : ℚ} (ha : 0 < a) (b : ℚ) (l : List Val) (hl : l ≠ []) :
    spread (l.map fun v => a * v + b) = a * spread l := by
  obtain ⟨x, l, rfl⟩ := List.exists_cons_of_ne_nil hl
  have h1 := foldl_max_map (affineQ_mono ha b) (x :: l) x
  have h2 := foldl_min_map (affineQ_mono ha b) (x :: l) x
  simp only [spread, List.map_cons, List.headD_cons] at h1 h2 ⊢
  rw [h1, h2]; ring

theorem lowest_affine {a : ℚ} (ha : 0 < a) (b : ℚ) (l : List Val) (hl : l ≠ []) :
    lowest (l.map fun v => a * v + b) = a * lowest l + b := by
  obtain ⟨x, l, rfl⟩ := List.exists_cons_of_ne_nil hl
  have h2 := foldl_min_map (affineQ_mono ha b) (x :: l) x
  simpa only [lowest, List.map_cons, List.headD_cons] using h2

theorem tolOf_affine {a : ℚ} (ha : 0 < a) (b : ℚ) (tol : Option ℝ) (l : List Val) (hl : l ≠ []) :
    tolOf (tol.map fun t => (a : ℝ) * t) (l.map fun v => a * v + b) = a * tolOf tol l := by
  unfold tolOf
  rw [spread_affine ha b l hl]
  cases tol with
  | none => simp only [Option.map_none, Option.getD_none]; push_cast; ring
  | some t => rfl

theorem surrData_affine (a b : ℚ) (s : State (Pt d)) :
    surrData (s.mapVal fun v => a * v + b) = convert a b (surrData s) := by
  simp only [convert, surrData, State.mapVal, List.map_map]
  apply List.map_congr_left
  intro e _
  simp

theorem genWith_affine {a : ℚ} (ha : 0 < a) (b : ℚ) (L : Setup d) (S : Surr d) (s : State (Pt d))
    (hS : S.ConvertsAt a b (surrData s))
    (n : ℕ) (r : Rnd d) (x0 : Pt d) (xs : List (Pt d)) (hf : s.fX ≠ []) (fX : Fin (xs.length + 1) → ℝ) :
    genWith (L.units a b) S (s.mapVal fun v => a * v + b) n r x0 xs (fun i => (a : ℝ) * fX i + b) =
      genWith L S s n r x0 xs fX := by
  have haR : (0 : ℝ) < a := by exact_mod_cast ha
  obtain ⟨prob, cfg, method⟩ := L
  cases method with
  | srbf =>
    simp only [genWith, Setup.units, Method.scale, surrData_affine, hS.mean, Config.mapVal]
    cases cfg.srbf with
    | none => rfl
    | some sc =>
      simp only [State.mapVal]
      cases s.srbf with
      | none => rfl
      | some z =>
        cases S.mean (surrData s) with
        | none => rfl
        | some pred =>
          simp only [Option.map_some]
          rw [show (z.mapVal fun v => a * v + b).nextWeight = z.nextWeight from rfl,
            show (z.mapVal fun v => a * v + b).radius = z.radius from rfl]
          simp only [srbf_affine haR]
  | dycors =>
    simp only [genWith, Setup.units, Method.scale, surrData_affine, hS.mean]
    rw [show State.perturbProb (cfg.mapVal fun v => a * v + b) d (s.mapVal fun v => a * v + b) = State.perturbProb cfg d s
      from rfl]
    simp only [Config.mapVal]
    cases cfg.srbf with
    | none => rfl
    | some sc =>
      simp only [State.mapVal]
      cases s.srbf with
      | none => rfl
      | some z =>
        cases S.mean (surrData s) with
        | none => rfl
        | some pred =>
          simp only [Option.map_some]
          rw [show (z.mapVal fun v => a * v + b).nextWeight = z.nextWeight from rfl,
            show (z.mapVal fun v => a * v + b).radius = z.radius from rfl]
          simp only [dycors_affine haR, xbest_affine haR]
  | ei tol dtol =>
    simp only [genWith, Setup.units, Method.scale, surrData_affine, hS.mean, hS.std]
    cases S.mean (surrData s) with
    | none => rfl
    | some mean =>
      cases S.std (surrData s) with
      | none => rfl
      | some std =>
        simp only [Option.map_some]
        rw [argmin_comp (affine_strictMono haR b) fX, show (s.mapVal fun v => a * v + b).Xpend = s.Xpend from rfl,
          show (s.mapVal fun v => a * v + b).fX = s.fX.map fun v => a * v + b from rfl, tolOf_affine ha b tol s.fX hf,
          ei_affine haR]
  | lcb kappa tol dtol =>
    simp only [genWith, Setup.units, Method.scale, surrData_affine, hS.mean, hS.std]
    cases S.mean (surrData s) with
    | none => rfl
    | some mean =>
      cases S.std (surrData s) with
      | none => rfl
      | some std =>
        simp only [Option.map_some]
        rw [show (s.mapVal fun v => a * v + b).Xpend = s.Xpend from rfl,
          show (s.mapVal fun v => a * v + b).fX = s.fX.map fun v => a * v + b from rfl, tolOf_affine ha b tol s.fX hf,
          lowest_affine ha b s.fX hf]
        rw [show (((a * lowest s.fX + b : ℚ) : ℝ) - (a : ℝ) * tolOf tol s.fX) =
          (a : ℝ) * (((lowest s.fX : ℚ) : ℝ) - tolOf tol s.fX) + b by push_cast; ring, lcb_affine haR]

theorem gen_affine {a : ℚ} (ha : 0 < a) (b : ℚ) (L : Setup d) (S : Surr d) (s : State (Pt d))
    (hS : S.ConvertsAt a b (surrData s))
    (n : ℕ) (r : Rnd d) :
    gen (L.units a b) S (s.mapVal fun v => a * v + b) n r = gen L S s n r := by
  unfold gen
  rw [show (s.mapVal fun v => a * v + b).curX = s.curX from rfl]
  cases s.curX with
  | nil => rfl
  | cons x0 xs =>
    simp only
    by_cases hc : s.curFX.length = xs.length + 1 ∧ s.fX ≠ []
    · have hc' : (s.mapVal fun v => a * v + b).curFX.length = xs.length + 1 ∧ (s.mapVal fun v => a * v + b).fX ≠ [] := by
        simpa [State.mapVal] using hc
      rw [dif_pos hc', dif_pos hc]
      have hfX : (fun i : Fin (xs.length + 1) =>
          (((s.mapVal fun v => a * v + b).curFX[i]'(by rw [hc'.1]; exact i.2) : ℚ) : ℝ)) =
          fun i => (a : ℝ) * ((s.curFX[i]'(by rw [hc.1]; exact i.2) : ℚ) : ℝ) + b := by
        funext i
        simp [State.mapVal]
      rw [hfX]
      exact genWith_affine ha b L S s hS n r x0 xs hc.2 _
    · have hc' : ¬ ((s.mapVal fun v => a * v + b).curFX.length = xs.length + 1 ∧ (s.mapVal fun v => a * v + b).fX ≠ []) := by
        simpa [State.mapVal] using hc
      rw [dif_neg hc', dif_neg hc]

end Verif.Loop
