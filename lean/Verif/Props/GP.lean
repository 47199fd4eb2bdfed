import Verif.Surrogate.GP
import Verif.Props.Poly
import Verif.Props.EINaN
import Verif.Units.Surr
import Mathlib.Data.List.NodupEquivFin
import Mathlib.Tactic.FieldSimp

/-! # Properties C109 and C110: the default Gaussian process -/

namespace Verif.Props

open Verif.Num Verif.Utils Verif.Surrogate Verif.Cand Verif.Loop

variable {d : ℕ} {lb ub : Pt d} {trans : List ℝ → List ℝ} {hyp : List (List (Pt d) × List ℝ) → Hyper d}

/-- The choice of the hyperparameters respects their bounds. -/
def HypOk (hyp : List (List (Pt d) × List ℝ) → Hyper d) : Prop := ∀ h, (hyp h).InBounds

/-- The transformed values of a history. -/
def valsOf (trans : List ℝ → List ℝ) (D : List (Pt d × ℝ)) : List ℝ := trans (D.map Prod.snd)

theorem gpRun_eq (lb ub : Pt d) (trans : List ℝ → List ℝ) (hyp : List (List (Pt d) × List ℝ) → Hyper d) (ops : List (Op d))
    (x x' : Pt d) : gpRun lb ub trans hyp (ops ++ [.predict x]) = gpRun lb ub trans hyp (ops ++ [.predict x']) := by
  unfold gpRun extRun run
  rw [List.foldl_append, List.foldl_append]
  rfl

/-- The model used for the predictions after a history. -/
theorem gp_model (lb ub : Pt d) (trans : List ℝ → List ℝ) (hyp : List (List (Pt d) × List ℝ) → Hyper d) (ops : List (Op d))
    (hops : NoMultiColumn ops) :
    ∃ h, let D := dataOf d ops
      let X := D.map fun q => toUnitBox q.1 lb ub
      let m : GpModel d := ⟨X, gpScale (valsOf trans D), hyp ((X, gpScale (valsOf trans D)) :: h), mean (valsOf trans D),
        gpSigma (valsOf trans D)⟩
      (∀ x, gpPredict lb ub trans hyp ops x = some (m.pred (toUnitBox x lb ub))) ∧
      ∀ x, gpPredictStd lb ub trans hyp ops x = some (m.std (toUnitBox x lb ub)) := by
  obtain ⟨h, h1, h2⟩ := C50_fresh lb ub trans (gpFit hyp) ops hops (fun _ => 0)
  rw [h1] at h2
  have h3 : ∀ x, (gpRun lb ub trans hyp (ops ++ [.predict x])).model.mod = some (gpFit hyp
      (((dataOf d ops).map (fun q => toUnitBox q.1 lb ub), trans ((dataOf d ops).map Prod.snd)) :: h)) := fun x => by
    rw [gpRun_eq lb ub trans hyp ops x (fun _ => 0)]; exact h2
  refine ⟨scaled h, fun x => ?_, fun x => ?_⟩
  · unfold gpPredict; rw [h3]; rfl
  · unfold gpPredictStd; rw [h3]; rfl

theorem sqrt_noise {θ : Hyper d} (hθ : θ.InBounds) {ι : Type} [Fintype ι] [DecidableEq ι] (X : ι → Pt d) (x : Pt d) :
    1 / 1000 ≤ Real.sqrt (gpVar θ X x) :=
  Real.le_sqrt_of_sq_le (by have := gpVar_ge hθ X x; have := hθ.noise_lo; norm_num at *; linarith)

/-- After any history that leaves data the predicted standard deviation is between a thousandth and 10.0005 times the standard deviation of
the (transformed) data, at every point; the latter is taken to be at least 1e-6. -/
theorem C109_bounds (hh : HypOk hyp) (ops : List (Op d)) (hops : NoMultiColumn ops) (_hD : dataOf d ops ≠ []) (x : Pt d) :
    ∃ s, gpPredictStd lb ub trans hyp ops x = some s ∧ 0 < s ∧
      gpSigma (valsOf trans (dataOf d ops)) / 1000 ≤ s ∧
      s ≤ 10.0005 * gpSigma (valsOf trans (dataOf d ops)) := by
  obtain ⟨h, -, h2⟩ := gp_model lb ub trans hyp ops hops
  set m : GpModel d := ⟨_, _, _, _, _⟩ with hm
  refine ⟨_, h2 x, ?_⟩
  have hθ : m.θ.InBounds := hh _
  have hs : m.sigma = gpSigma (valsOf trans (dataOf d ops)) := rfl
  have hp := gpSigma_pos (valsOf trans (dataOf d ops))
  have h1 := sqrt_noise hθ m.pts (toUnitBox x lb ub)
  have h3 : Real.sqrt (gpVar m.θ m.pts (toUnitBox x lb ub)) ≤ 10.0005 := by
    rw [show (10.0005 : ℝ) = Real.sqrt (10.0005 ^ 2) from (Real.sqrt_sq (by norm_num)).symm]
    refine Real.sqrt_le_sqrt ?_
    have := gpVar_le hθ m.pts (toUnitBox x lb ub)
    have := hθ.c_hi
    have := hθ.noise_hi
    norm_num at *
    linarith
  unfold GpModel.std
  rw [hs]
  refine ⟨mul_pos hp (lt_of_lt_of_le (by norm_num) h1), ?_, ?_⟩
  · rw [div_eq_mul_one_div]; exact mul_le_mul_of_nonneg_left h1 hp.le
  · rw [mul_comm]; exact mul_le_mul_of_nonneg_right h3 hp.le

/-- At an evaluated point the predicted standard deviation is at most 0.1415 times the standard deviation of the data. -/
theorem C109_data (hh : HypOk hyp) (ops : List (Op d)) (hops : NoMultiColumn ops) (q : Pt d × ℝ) (hq : q ∈ dataOf d ops) :
    ∃ s, gpPredictStd lb ub trans hyp ops q.1 = some s ∧ s ≤ 0.1415 * gpSigma (valsOf trans (dataOf d ops)) := by
  obtain ⟨h, -, h2⟩ := gp_model lb ub trans hyp ops hops
  set m : GpModel d := ⟨_, _, _, _, _⟩ with hm
  refine ⟨_, h2 _, ?_⟩
  have hθ : m.θ.InBounds := hh _
  have hp := gpSigma_pos (valsOf trans (dataOf d ops))
  obtain ⟨i, hi⟩ : ∃ i, m.pts i = toUnitBox q.1 lb ub := by
    have : toUnitBox q.1 lb ub ∈ m.X := List.mem_map.2 ⟨q, hq, rfl⟩
    obtain ⟨i, hi⟩ := List.mem_iff_get.1 this
    exact ⟨i, hi⟩
  have h3 : Real.sqrt (gpVar m.θ m.pts (toUnitBox q.1 lb ub)) ≤ 0.1415 := by
    rw [show (0.1415 : ℝ) = Real.sqrt (0.1415 ^ 2) from (Real.sqrt_sq (by norm_num)).symm, ← hi]
    refine Real.sqrt_le_sqrt ((gpVar_data hθ m.pts i).trans ?_)
    have := hθ.noise_hi
    norm_num at *
    linarith
  unfold GpModel.std
  rw [mul_comm]
  exact mul_le_mul_of_nonneg_right h3 hp.le

/-- With the same hyperparameters, more data do not make the prediction more uncertain, relative to the standard deviation
of the data: `ops'` is a history with the data of `ops` and possibly more. -/
theorem C109_more {θ : Hyper d} (hθ : θ.InBounds) (ops ops' : List (Op d)) (hops : NoMultiColumn ops)
    (hops' : NoMultiColumn ops') (_hD : dataOf d ops ≠ []) (hsub : List.Sublist (dataOf d ops) (dataOf d ops')) (x : Pt d) :
    ∃ s s', gpPredictStd lb ub trans (fun _ => θ) ops x = some s ∧ gpPredictStd lb ub trans (fun _ => θ) ops' x = some s' ∧
      s' / gpSigma (valsOf trans (dataOf d ops')) ≤ s / gpSigma (valsOf trans (dataOf d ops)) := by
  obtain ⟨h, -, h2⟩ := gp_model lb ub trans (fun _ => θ) ops hops
  obtain ⟨h', -, h2'⟩ := gp_model lb ub trans (fun _ => θ) ops' hops'
  refine ⟨_, _, h2 x, h2' x, ?_⟩
  unfold GpModel.std
  rw [mul_div_cancel_left₀ _ (gpSigma_pos _).ne', mul_div_cancel_left₀ _ (gpSigma_pos _).ne']
  refine Real.sqrt_le_sqrt ?_
  have hs := hsub.map fun q : Pt d × ℝ => toUnitBox q.1 lb ub
  obtain ⟨e, he⟩ := List.sublist_iff_exists_fin_orderEmbedding_get_eq.1 hs
  refine (gpVar_mono hθ _ e.toEmbedding _).trans (le_of_eq ?_)
  dsimp only
  congr 1
  funext i
  exact (he i).symm

theorem list_map_const_sum (f : List ℝ) (c : ℝ) (hc : ∀ v ∈ f, v = c) : f.sum = f.length * c := by
  induction f with
  | nil => simp
  | cons v f ih =>
    rw [List.sum_cons, ih fun w hw => hc w (List.mem_cons_of_mem _ hw), hc v List.mem_cons_self, List.length_cons]
    push_cast; ring

/-- If all (transformed) values are equal, the prediction is this value, at every point. -/
theorem C109_constant (ops : List (Op d)) (hops : NoMultiColumn ops) (c : ℝ) (hne : valsOf trans (dataOf d ops) ≠ [])
    (hc : ∀ v ∈ valsOf trans (dataOf d ops), v = c) (x : Pt d) : gpPredict lb ub trans hyp ops x = some c := by
  obtain ⟨h, h1, -⟩ := gp_model lb ub trans hyp ops hops
  rw [h1]
  have hmean : mean (valsOf trans (dataOf d ops)) = c := by
    unfold mean
    rw [list_map_const_sum _ c hc]
    have : ((valsOf trans (dataOf d ops)).length : ℝ) ≠ 0 := by simpa using hne
    field_simp
  have hz : ∀ v ∈ gpScale (valsOf trans (dataOf d ops)), v = 0 := by
    intro v hv
    obtain ⟨w, hw, rfl⟩ := List.mem_map.1 hv
    rw [hmean, hc w hw, sub_self, zero_div]
  unfold GpModel.pred
  dsimp only
  congr 1
  have : GpModel.vals (d := d) ⟨(dataOf d ops).map fun q => toUnitBox q.1 lb ub, gpScale (valsOf trans (dataOf d ops)),
      hyp (((dataOf d ops).map fun q => toUnitBox q.1 lb ub, gpScale (valsOf trans (dataOf d ops))) :: h),
      mean (valsOf trans (dataOf d ops)), gpSigma (valsOf trans (dataOf d ops))⟩ = fun _ => 0 := by
    funext i
    unfold GpModel.vals
    rw [List.getD_eq_getElem?_getD]
    dsimp only
    rcases hg : (gpScale (valsOf trans (dataOf d ops)))[(i : ℕ)]? with _ | v
    · rfl
    · exact hz v (List.mem_of_getElem? hg)
  rw [this, gpMean_zero, hmean]
  ring

/-- With the default Gaussian process `ei_ga` never divides by zero: it is the function of `C30`, with the mean and the
deviation predicted after the history. -/
theorem C109_ei (hh : HypOk hyp) (ops : List (Op d)) (hops : NoMultiColumn ops) (hD : dataOf d ops ≠ []) :
    ∃ mean std : Pt d → ℝ, (∀ x, gpPredict lb ub trans hyp ops x = some (mean x)) ∧
      (∀ x, gpPredictStd lb ub trans hyp ops x = some (std x)) ∧
      ∀ (p : OptProb d) (fbest : ℝ) (x0 : Pt d) (xs Xpend : List (Pt d)) (dtol tol : ℝ) (h : ℕ) (runs : List (GARun d h)),
        eiGaNF p mean std fbest x0 xs Xpend dtol tol runs = eiGa p mean std fbest x0 xs Xpend dtol tol runs := by
  obtain ⟨h, h1, h2⟩ := gp_model lb ub trans hyp ops hops
  refine ⟨_, _, h1, h2, fun p fbest x0 xs Xpend dtol tol h runs => C99_positive p _ _ (fun x => ?_) _ _ _ _ _ _ _⟩
  obtain ⟨s, hs, hpos, -⟩ := C109_bounds (lb := lb) (ub := ub) (trans := trans) hh ops hops hD x
  rw [h2] at hs
  rw [Option.some.inj hs]
  exact hpos

/-! ## C110: units of the objective -/

/-- A change of units of the objective. -/
def units (a b v : ℝ) : ℝ := a * v + b

/-- The hyperparameters depend on the last fit only. -/
def LastOnly (hyp : List (List (Pt d) × List ℝ) → Hyper d) : Prop := ∀ q h h', hyp (q :: h) = hyp (q :: h')

theorem mean_units {f : List ℝ} (hf : f ≠ []) (a b : ℝ) : mean (f.map (units a b)) = a * mean f + b :=
  mean_affine a b f hf

theorem stdDev_units {f : List ℝ} {a : ℝ} (ha : 0 < a) (b : ℝ) : stdDev (f.map (units a b)) = a * stdDev f :=
  stdDev_affine ha b f

theorem valsOf_units {a b : ℝ} (ha : 0 < a) (ht : AffineTrans trans) {D D' : List (Pt d × ℝ)}
    (hv : D' = D.map fun q => (q.1, a * q.2 + b)) : valsOf trans D' = (valsOf trans D).map (units a b) := by
  unfold valsOf
  have := ht.1 a b (D.map Prod.snd) ha
  unfold units
  rw [← this, hv, List.map_map, List.map_map]
  rfl

/-- Full statement: multiplying all values by `a > 0` and adding `b` does the same to the predictions, and multiplies the
predicted deviations by `a`.  False for small values (`C110_refuted`).  Proved here: if the standard deviation of the values
is at least 1e-6 in both units. -/
theorem C110_units_partial (hl : LastOnly hyp) (ops ops' : List (Op d)) (hops : NoMultiColumn ops)
    (hops' : NoMultiColumn ops') (a b : ℝ) (ha : 0 < a) (ht : AffineTrans trans)
    (hne : valsOf trans (dataOf d ops) ≠ []) (hs : 1 / 10 ^ 6 ≤ stdDev (valsOf trans (dataOf d ops)))
    (hs' : 1 / 10 ^ 6 ≤ stdDev (valsOf trans (dataOf d ops')))
    (hv : dataOf d ops' = (dataOf d ops).map fun q => (q.1, a * q.2 + b)) (x : Pt d) :
    gpPredict lb ub trans hyp ops' x = (gpPredict lb ub trans hyp ops x).map (fun v => a * v + b) ∧
    gpPredictStd lb ub trans hyp ops' x = (gpPredictStd lb ub trans hyp ops x).map (fun s => a * s) := by
  obtain ⟨h, h1, h2⟩ := gp_model lb ub trans hyp ops hops
  obtain ⟨h', h1', h2'⟩ := gp_model lb ub trans hyp ops' hops'
  have hvu := valsOf_units ha ht hv
  have hX : (dataOf d ops').map (fun q => toUnitBox q.1 lb ub) = (dataOf d ops).map (fun q => toUnitBox q.1 lb ub) := by
    rw [hv, List.map_map]; rfl
  have hsig : gpSigma (valsOf trans (dataOf d ops')) = a * gpSigma (valsOf trans (dataOf d ops)) := by
    change max (stdDev _) _ = a * max (stdDev _) _
    rw [max_eq_left hs, max_eq_left hs', hvu, stdDev_units ha]
  have hmean : mean (valsOf trans (dataOf d ops')) = a * mean (valsOf trans (dataOf d ops)) + b := by
    rw [hvu, mean_units hne]
  have hsc : gpScale (valsOf trans (dataOf d ops')) = gpScale (valsOf trans (dataOf d ops)) := by
    have hp := gpSigma_pos (valsOf trans (dataOf d ops))
    unfold gpScale
    rw [hsig, hmean, hvu, List.map_map]
    refine List.map_congr_left fun v _ => ?_
    simp only [Function.comp_apply, units]
    field_simp
    ring
  simp only [hX, hsc, hsig, hmean, hl _ h' h] at h1' h2'
  rw [h1, h2, h1', h2']
  refine ⟨congrArg some ?_, congrArg some ?_⟩
  · change a * mean (valsOf trans (dataOf d ops)) + b + a * gpSigma (valsOf trans (dataOf d ops)) * gpMean _ _ _ _ =
      a * (mean (valsOf trans (dataOf d ops)) + gpSigma (valsOf trans (dataOf d ops)) * gpMean _ _ _ _) + b
    rw [mul_add, mul_assoc]
    exact add_right_comm _ _ _
  · exact mul_assoc _ _ _

/-- A shift of the values shifts the predictions and leaves the deviations as they are, in all cases. -/
theorem C110_shift_partial (hl : LastOnly hyp) (ops ops' : List (Op d)) (hops : NoMultiColumn ops)
    (hops' : NoMultiColumn ops') (b : ℝ) (ht : AffineTrans trans)
    (hne : valsOf trans (dataOf d ops) ≠ []) (hv : dataOf d ops' = (dataOf d ops).map fun q => (q.1, q.2 + b)) (x : Pt d) :
    gpPredict lb ub trans hyp ops' x = (gpPredict lb ub trans hyp ops x).map (fun v => v + b) ∧
    gpPredictStd lb ub trans hyp ops' x = gpPredictStd lb ub trans hyp ops x := by
  obtain ⟨h, h1, h2⟩ := gp_model lb ub trans hyp ops hops
  obtain ⟨h', h1', h2'⟩ := gp_model lb ub trans hyp ops' hops'
  have hvu : valsOf trans (dataOf d ops') = (valsOf trans (dataOf d ops)).map (units 1 b) :=
    valsOf_units one_pos ht (by rw [hv]; simp only [one_mul])
  have hX : (dataOf d ops').map (fun q => toUnitBox q.1 lb ub) = (dataOf d ops).map (fun q => toUnitBox q.1 lb ub) := by
    rw [hv, List.map_map]; rfl
  have hsig : gpSigma (valsOf trans (dataOf d ops')) = gpSigma (valsOf trans (dataOf d ops)) := by
    change max (stdDev _) _ = max (stdDev _) _
    rw [hvu, stdDev_units one_pos, one_mul]
  have hmean : mean (valsOf trans (dataOf d ops')) = mean (valsOf trans (dataOf d ops)) + b := by
    rw [hvu, mean_units hne, one_mul]
  have hsc : gpScale (valsOf trans (dataOf d ops')) = gpScale (valsOf trans (dataOf d ops)) := by
    unfold gpScale
    rw [hsig, hmean, hvu, List.map_map]
    refine List.map_congr_left fun v _ => ?_
    simp only [Function.comp_apply, units]
    congr 1
    ring
  simp only [hX, hsc, hsig, hmean, hl _ h' h] at h1' h2'
  rw [h1, h2, h1', h2']
  exact ⟨congrArg some (add_right_comm _ _ _), rfl⟩

/-- With given hyperparameters the predicted values scale in all cases. -/
theorem C110_mean_partial (θ : Hyper d) (ops ops' : List (Op d)) (hops : NoMultiColumn ops)
    (hops' : NoMultiColumn ops') (a b : ℝ) (ha : 0 < a) (ht : AffineTrans trans) (hne : valsOf trans (dataOf d ops) ≠ [])
    (hv : dataOf d ops' = (dataOf d ops).map fun q => (q.1, a * q.2 + b)) (x : Pt d) :
    gpPredict lb ub trans (fun _ => θ) ops' x = (gpPredict lb ub trans (fun _ => θ) ops x).map (fun v => a * v + b) := by
  obtain ⟨h, h1, -⟩ := gp_model lb ub trans (fun _ => θ) ops hops
  obtain ⟨h', h1', -⟩ := gp_model lb ub trans (fun _ => θ) ops' hops'
  have hvu := valsOf_units ha ht hv
  have hX : (dataOf d ops').map (fun q => toUnitBox q.1 lb ub) = (dataOf d ops).map (fun q => toUnitBox q.1 lb ub) := by
    rw [hv, List.map_map]; rfl
  have hmean : mean (valsOf trans (dataOf d ops')) = a * mean (valsOf trans (dataOf d ops)) + b := by
    rw [hvu, mean_units hne]
  simp only [hX] at h1'
  rw [h1, h1']
  simp only [Option.map_some, GpModel.pred]
  congr 1
  -- the factor `sigma` cancels
  have key : ∀ (X : List (Pt d)) (f : List ℝ) (μ : ℝ) (s : ℝ) (c : Pt d),
      gpSigma f * gpMean θ (GpModel.pts ⟨X, gpScale f, θ, μ, s⟩) (GpModel.vals ⟨X, gpScale f, θ, μ, s⟩) c =
        gpMean θ (fun i : Fin X.length => X[i]) (fun i => (f.map fun v => v - mean f).getD i 0) c := by
    intro X f μ s c
    rw [← gpMean_smul]
    congr 1
    funext i
    unfold GpModel.vals gpScale
    rw [List.getD_eq_getElem?_getD, List.getD_eq_getElem?_getD, List.getElem?_map, List.getElem?_map]
    cases f[(i : ℕ)]? with
    | none => simp
    | some v =>
      simp only [Option.map_some, Option.getD_some]
      exact mul_div_cancel₀ _ (gpSigma_pos f).ne'
  rw [key, key]
  have e : (fun i : Fin ((dataOf d ops).map fun q => toUnitBox q.1 lb ub).length =>
      ((valsOf trans (dataOf d ops')).map fun v => v - mean (valsOf trans (dataOf d ops'))).getD i 0) =
      fun i : Fin _ => a * ((valsOf trans (dataOf d ops)).map fun v => v - mean (valsOf trans (dataOf d ops))).getD i 0 := by
    funext i
    rw [hvu, mean_units hne, List.getD_eq_getElem?_getD, List.getD_eq_getElem?_getD, List.getElem?_map, List.getElem?_map,
      List.getElem?_map]
    cases (valsOf trans (dataOf d ops))[(i : ℕ)]? with
    | none => simp
    | some v => simp only [Option.map_some, Option.getD_some, units]; ring
  rw [e, gpMean_smul, hmean]
  ring

theorem twoPts_ok (v w : ℝ) : NoMultiColumn (twoPts v w) := by
  intro xx fx h; simp [twoPts] at h; rcases h with h | h <;> simp [h.2, OneColumn]

theorem two_stdDev : stdDev [0, 2] = 1 := by
  unfold stdDev mean
  norm_num

/-- Small values: the same two evaluations in units in which they are a billion times smaller.  However the hyperparameters
are chosen, the deviation predicted at an evaluated point is not a billion times smaller, but more than seven times
larger than that: it is never less than 1e-9. -/
theorem C110_refuted (hyp : List (List (Pt 1) × List ℝ) → Hyper 1) (hh : HypOk hyp) :
    ∃ s s', gpPredictStd (fun _ => 0) (fun _ => 1) identityT hyp (twoPts 0 2) (fun _ => 0) = some s ∧
      gpPredictStd (fun _ => 0) (fun _ => 1) identityT hyp (twoPts 0 (1 / 10 ^ 9 * 2)) (fun _ => 0) = some s' ∧
      7 * (1 / 10 ^ 9 * s) < s' ∧ 1 / 10 ^ 9 ≤ s' := by
  obtain ⟨s, h1, h2⟩ := C109_data (lb := fun _ => 0) (ub := fun _ => 1) (trans := identityT) hh (twoPts 0 2) (twoPts_ok 0 2)
    (fun _ => 0, 0) (by rw [twoPts_data]; simp)
  obtain ⟨s', h1', -, h2', -⟩ := C109_bounds (lb := fun _ => 0) (ub := fun _ => 1) (trans := identityT) hh
    (twoPts 0 (1 / 10 ^ 9 * 2)) (twoPts_ok _ _) (by rw [twoPts_data]; simp) (fun _ => 0)
  refine ⟨s, s', h1, h1', ?_⟩
  have e : valsOf identityT (dataOf 1 (twoPts 0 2)) = [0, 2] := by rw [twoPts_data]; rfl
  rw [e] at h2
  have hs : gpSigma [0, 2] = 1 := by
    change max (stdDev _) _ = _
    rw [two_stdDev]; norm_num
  rw [hs] at h2
  have h3 := gpSigma_ge (valsOf identityT (dataOf 1 (twoPts 0 (1 / 10 ^ 9 * 2))))
  generalize gpSigma (valsOf identityT (dataOf 1 (twoPts 0 (1 / 10 ^ 9 * 2)))) = g at h2' h3
  norm_num at *
  constructor <;> linarith

/-- The hypotheses are met: hyperparameters in the bounds (those with which the default kernel starts), chosen always; the
values 0 and 2, and 3 and 9. -/
noncomputable def hyp0 (d : ℕ) : Hyper d := ⟨1, fun _ => 1 / 2, 1 / 10 ^ 4⟩

theorem hyp0_ok (d : ℕ) : (hyp0 d).InBounds := by constructor <;> norm_num [hyp0]

example : HypOk (fun _ => hyp0 1) ∧ LastOnly (fun _ => hyp0 1) ∧
    ∃ m s, gpPredict (fun _ => 0) (fun _ => 1) identityT (fun _ => hyp0 1) (twoPts 0 2) (fun _ => 1 / 2) = some m ∧
      gpPredictStd (fun _ => 0) (fun _ => 1) identityT (fun _ => hyp0 1) (twoPts 0 2) (fun _ => 1 / 2) = some s ∧
      gpPredict (fun _ => 0) (fun _ => 1) identityT (fun _ => hyp0 1) (twoPts 3 9) (fun _ => 1 / 2) = some (3 * m + 3) ∧
      gpPredictStd (fun _ => 0) (fun _ => 1) identityT (fun _ => hyp0 1) (twoPts 3 9) (fun _ => 1 / 2) = some (3 * s) := by
  refine ⟨fun _ => hyp0_ok 1, fun _ _ _ => rfl, ?_⟩
  obtain ⟨h, h1, h2⟩ := gp_model (fun _ => 0) (fun _ => 1) identityT (fun _ => hyp0 1) (twoPts 0 2) (twoPts_ok _ _)
  refine ⟨_, _, h1 _, h2 _, ?_⟩
  have e : valsOf identityT (dataOf 1 (twoPts 0 2)) = [0, 2] := by rw [twoPts_data]; rfl
  have hv : dataOf 1 (twoPts 3 9) = (dataOf 1 (twoPts 0 2)).map fun q => (q.1, 3 * q.2 + 3) := by
    rw [twoPts_data, twoPts_data]; norm_num
  have e' : stdDev (valsOf identityT (dataOf 1 (twoPts 3 9))) = 3 := by
    rw [valsOf_units (trans := identityT) (by norm_num) affineTrans_id hv, stdDev_units (by norm_num), e, two_stdDev]; norm_num
  obtain ⟨h3, h4⟩ := C110_units_partial (lb := fun _ => 0) (ub := fun _ => 1) (trans := identityT) (hyp := fun _ => hyp0 1)
    (fun _ _ _ => rfl) (twoPts 0 2) (twoPts 3 9) (twoPts_ok _ _) (twoPts_ok _ _) 3 3 (by norm_num) affineTrans_id
    (by rw [e]; simp) (by rw [e, two_stdDev]; norm_num) (by rw [e']; norm_num) hv (fun _ => 1 / 2)
  rw [h1] at h3
  rw [h2] at h4
  exact ⟨h3, h4⟩

end Verif.Props
