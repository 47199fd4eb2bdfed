import Verif.Props.GP
import Verif.Surrogate.FitForm

/-!
# C115: the default Gaussian process does not depend on the order of the data or the units of the variables

Also: at the data points its predictions are at least as close to the values as any constant.
Source: /repo/pySOT/surrogate/gp.py.
-/

namespace Verif.Surrogate

open Verif.Num Verif.Utils Matrix

variable {d : ℕ} {ι κ : Type} [Fintype ι] [DecidableEq ι] [Fintype κ] [DecidableEq κ]

theorem gpCov_equiv (θ : Hyper d) (X : κ → Pt d) (e : ι ≃ κ) :
    gpCov θ (fun i => X (e i)) = (gpCov θ X).submatrix e e := by
  ext i j
  simp [gpCov, Matrix.one_apply, e.injective.eq_iff]

theorem gpMean_equiv (θ : Hyper d) (X : κ → Pt d) (y : κ → ℝ) (x : Pt d) (e : ι ≃ κ) :
    gpMean θ (fun i => X (e i)) (fun i => y (e i)) x = gpMean θ X y x := by
  unfold gpMean
  rw [gpCov_equiv, Matrix.inv_submatrix_equiv, Matrix.submatrix_mulVec_equiv]
  have h1 : (fun i => y (e i)) ∘ e.symm = y := by funext k; simp
  rw [h1]
  exact comp_equiv_dotProduct_comp_equiv (gpVec θ X x) _ e

theorem gpVar_equiv (θ : Hyper d) (X : κ → Pt d) (x : Pt d) (e : ι ≃ κ) :
    gpVar θ (fun i => X (e i)) x = gpVar θ X x := by
  have h := gpMean_equiv θ X (gpVec θ X x) x e
  unfold gpMean at h
  unfold gpVar
  rw [show gpVec θ (fun i => X (e i)) x = fun i => gpVec θ X x (e i) from rfl] at h ⊢
  rw [h]

/-- At the data points the posterior mean is not farther from the data than zero. -/
theorem gpMean_residual {θ : Hyper d} (hθ : θ.InBounds) (X : ι → Pt d) (y : ι → ℝ) :
    ∑ i, (y i - gpMean θ X y (X i)) ^ 2 ≤ ∑ i, y i ^ 2 := by
  set α := (gpCov θ X)⁻¹ *ᵥ y with hα
  have hs : gpCov θ X *ᵥ α = y := gpCov_solve hθ X y
  have hy : ∀ i, y i = gpMean θ X y (X i) + θ.nugget * α i := by
    intro i
    have h := congrFun hs i
    rw [← h]
    unfold gpCov gpMean
    rw [Matrix.add_mulVec, Matrix.smul_mulVec, Matrix.one_mulVec]
    simp only [Pi.add_apply, Pi.smul_apply, smul_eq_mul]
    rfl
  have hq : 0 ≤ ∑ i, α i * gpMean θ X y (X i) := by
    have := kern_form_nonneg hθ X α
    refine this.trans (le_of_eq ?_)
    refine Finset.sum_congr rfl fun i _ => ?_
    unfold gpMean
    simp only [dotProduct, gpVec, Finset.mul_sum]
    exact Finset.sum_congr rfl fun j _ => by rw [← hα]; ring
  have hn := hθ.nugget_pos
  have h1 : ∑ i, y i ^ 2 = ∑ i, (y i - gpMean θ X y (X i)) ^ 2 + 2 * θ.nugget * ∑ i, α i * gpMean θ X y (X i) +
      ∑ i, gpMean θ X y (X i) ^ 2 := by
    rw [Finset.mul_sum, ← Finset.sum_add_distrib, ← Finset.sum_add_distrib]
    refine Finset.sum_congr rfl fun i _ => ?_
    have := hy i
    rw [show y i - gpMean θ X y (X i) = θ.nugget * α i by linarith]
    rw [this]; ring
  have h2 : 0 ≤ ∑ i, gpMean θ X y (X i) ^ 2 := Finset.sum_nonneg fun i _ => sq_nonneg _
  have h3 := mul_nonneg (mul_nonneg zero_le_two hn.le) hq
  rw [h1]
  linarith

end Verif.Surrogate

namespace Verif.Props

open Verif.Num Verif.Utils Verif.Surrogate Verif.Cand Verif.Loop

variable {d : ℕ} {lb ub : Pt d} {trans : List ℝ → List ℝ} {hyp : List (List (Pt d) × List ℝ) → Hyper d}

/-- The choice of the hyperparameters depends on the set of the points and values that are fitted only, neither on their
order nor on earlier fits (for instance: the maximizer of the likelihood). -/
def OrderFreeHyp (hyp : List (List (Pt d) × List ℝ) → Hyper d) : Prop :=
  ∀ X y h X' y' h', (X.zip y).Perm (X'.zip y') → hyp ((X, y) :: h) = hyp ((X', y') :: h')

theorem mean_perm {f g : List ℝ} (h : f.Perm g) : mean f = mean g := by
  unfold mean; rw [h.sum_eq, h.length_eq]

theorem gpSigma_perm {f g : List ℝ} (h : f.Perm g) : gpSigma f = gpSigma g := by
  unfold gpSigma
  rw [mean_perm h, (h.map fun v => (v - mean g) ^ 2).sum_eq, h.length_eq]

theorem unitData_fst (ht : ∀ f, (trans f).length = f.length) (D : List (Pt d × ℝ)) :
    (unitData lb ub trans D).map Prod.fst = D.map fun q => toUnitBox q.1 lb ub := by
  unfold unitData
  rw [List.map_fst_zip]
  simp [ht]

theorem unitData_snd (ht : ∀ f, (trans f).length = f.length) (D : List (Pt d × ℝ)) :
    (unitData lb ub trans D).map Prod.snd = valsOf trans D := by
  unfold unitData valsOf
  rw [List.map_snd_zip]
  simp [ht]

/-- The predictions in terms of the data in unit coordinates. -/
theorem gp_form (ht : ∀ f, (trans f).length = f.length) (ops : List (Op d)) (hops : NoMultiColumn ops) :
    ∃ h, ∀ Z f, Z = unitData lb ub trans (dataOf d ops) → f = Z.map Prod.snd →
      let θ := hyp ((Z.map Prod.fst, gpScale f) :: h)
      (∀ x, gpPredict lb ub trans hyp ops x = some (mean f + gpSigma f * gpMean θ (fun i : Fin Z.length => Z[i].1)
        (fun i => (Z[i].2 - mean f) / gpSigma f) (toUnitBox x lb ub))) ∧
      ∀ x, gpPredictStd lb ub trans hyp ops x =
        some (gpSigma f * Real.sqrt (gpVar θ (fun i : Fin Z.length => Z[i].1) (toUnitBox x lb ub))) := by
  obtain ⟨h, h1, h2⟩ := gp_model lb ub trans hyp ops hops
  refine ⟨h, ?_⟩
  rintro Z f rfl rfl
  have hX := unitData_fst (lb := lb) (ub := ub) ht (dataOf d ops)
  have hf := unitData_snd (lb := lb) (ub := ub) ht (dataOf d ops)
  rw [hf, hX]
  generalize hθ : hyp (((dataOf d ops).map fun q => toUnitBox q.1 lb ub, gpScale (valsOf trans (dataOf d ops))) :: h) = θ at *
  set Z := unitData lb ub trans (dataOf d ops) with hZ
  set m : GpModel d := ⟨(dataOf d ops).map fun q => toUnitBox q.1 lb ub, gpScale (valsOf trans (dataOf d ops)), θ,
    mean (valsOf trans (dataOf d ops)), gpSigma (valsOf trans (dataOf d ops))⟩ with hm
  have hmX : m.X = Z.map Prod.fst := hX.symm
  have hmy : m.y = gpScale (Z.map Prod.snd) := by rw [hf]
  have hlen : Z.length = m.X.length := by rw [hmX, List.length_map]
  have e1 : (fun i : Fin Z.length => Z[i].1) = fun i => m.pts (finCongr hlen i) := by
    funext i
    unfold GpModel.pts
    have : ∀ (l : List (Pt d)) (hl : Z.map Prod.fst = l) (hi : i.1 < l.length), Z[i].1 = l[i.1] := by
      rintro l rfl hi; simp
    exact this m.X hmX.symm (by rw [← hlen]; exact i.2)
  have e2 : (fun i : Fin Z.length => (Z[i].2 - mean (valsOf trans (dataOf d ops))) / gpSigma (valsOf trans (dataOf d ops))) =
      fun i => m.vals (finCongr hlen i) := by
    funext i
    unfold GpModel.vals
    rw [hmy, ← hf]
    simp [gpScale]
  refine ⟨fun x => ?_, fun x => ?_⟩
  · rw [h1, e1, e2, gpMean_equiv]; rfl
  · rw [h2, e1, gpVar_equiv]; rfl

/-- Two Gaussian processes whose (transformed) data agree in unit coordinates up to their order give the same predictions and
the same deviations at points that agree in unit coordinates: the order of the data, their division into calls, earlier
predictions and resets, the units and the origins of the variables do not matter. -/
theorem C115_determined {lb' ub' : Pt d} {trans' : List ℝ → List ℝ} (hh : OrderFreeHyp hyp)
    (ht : ∀ f, (trans f).length = f.length) (ht' : ∀ f, (trans' f).length = f.length) (ops ops' : List (Op d))
    (hops : NoMultiColumn ops) (hops' : NoMultiColumn ops')
    (hperm : (unitData lb ub trans (dataOf d ops)).Perm (unitData lb' ub' trans' (dataOf d ops'))) (x x' : Pt d)
    (hx : toUnitBox x lb ub = toUnitBox x' lb' ub') :
    gpPredict lb ub trans hyp ops x = gpPredict lb' ub' trans' hyp ops' x' ∧
    gpPredictStd lb ub trans hyp ops x = gpPredictStd lb' ub' trans' hyp ops' x' := by
  obtain ⟨h, h1⟩ := gp_form (lb := lb) (ub := ub) (hyp := hyp) ht ops hops
  obtain ⟨h', h1'⟩ := gp_form (lb := lb') (ub := ub') (hyp := hyp) ht' ops' hops'
  obtain ⟨h1, h2⟩ := h1 _ _ rfl rfl
  obtain ⟨h1', h2'⟩ := h1' _ _ rfl rfl
  set Z := unitData lb ub trans (dataOf d ops)
  set Z' := unitData lb' ub' trans' (dataOf d ops')
  have hv := hperm.map Prod.snd
  have hm := mean_perm hv
  have hs := gpSigma_perm hv
  have hzip : ∀ Y : List (Pt d × ℝ), (Y.map Prod.fst).zip (gpScale (Y.map Prod.snd)) =
      Y.map fun q => (q.1, (q.2 - mean (Y.map Prod.snd)) / gpSigma (Y.map Prod.snd)) := by
    intro Y
    unfold gpScale
    rw [List.map_map]
    exact List.zip_map'
  have hθ : hyp ((Z.map Prod.fst, gpScale (Z.map Prod.snd)) :: h) = hyp ((Z'.map Prod.fst, gpScale (Z'.map Prod.snd)) :: h') := by
    refine hh _ _ _ _ _ _ ?_
    rw [hzip, hzip, hm, hs]
    exact hperm.map _
  obtain ⟨σ, hσ⟩ := perm_equiv hperm
  obtain ⟨X', hX'⟩ : ∃ X' : Fin Z'.length → Pt d, X' = fun j => Z'[j].1 := ⟨_, rfl⟩
  obtain ⟨y', hy'⟩ : ∃ y' : Fin Z'.length → ℝ,
    y' = fun j => (Z'[j].2 - mean (Z'.map Prod.snd)) / gpSigma (Z'.map Prod.snd) := ⟨_, rfl⟩
  have e1 : (fun i : Fin Z.length => Z[i].1) = fun i => X' (σ i) := by
    funext i; rw [hσ i, hX']
  have e2 : (fun i : Fin Z.length => (Z[i].2 - mean (Z.map Prod.snd)) / gpSigma (Z.map Prod.snd)) = fun i => y' (σ i) := by
    funext i; rw [hσ i, hm, hs, hy']
  constructor
  · rw [h1 x, h1' x', hθ, e1, e2, gpMean_equiv, hx, hm, hs, hX', hy']
  · rw [h2 x, h2' x', hθ, e1, gpVar_equiv, hx, hs, hX']

/-- The order of the data (no output transformation, same bounds). -/
theorem C115_order (hh : OrderFreeHyp hyp) (ops ops' : List (Op d)) (hops : NoMultiColumn ops) (hops' : NoMultiColumn ops')
    (hperm : (dataOf d ops).Perm (dataOf d ops')) (x : Pt d) :
    gpPredict lb ub (fun f => f) hyp ops x = gpPredict lb ub (fun f => f) hyp ops' x ∧
    gpPredictStd lb ub (fun f => f) hyp ops x = gpPredictStd lb ub (fun f => f) hyp ops' x := by
  refine C115_determined hh (fun _ => rfl) (fun _ => rfl) ops ops' hops hops' ?_ x x rfl
  have hz : ∀ D : List (Pt d × ℝ), unitData lb ub (fun f => f) D = D.map fun q => (toUnitBox q.1 lb ub, q.2) := fun D =>
    List.zip_map'
  rw [hz, hz]
  exact hperm.map _

/-- The units and the origins of the variables: bounds, data and query changed by the same coordinatewise affine map. -/
theorem C115_units (hh : OrderFreeHyp hyp) (u v : Fin d → ℝ) (hu : ∀ j, u j ≠ 0) (ops ops' : List (Op d))
    (hops : NoMultiColumn ops) (hops' : NoMultiColumn ops')
    (hD : dataOf d ops' = (dataOf d ops).map fun q => ((fun j => u j * q.1 j + v j), q.2)) (x : Pt d) :
    gpPredict (fun j => u j * lb j + v j) (fun j => u j * ub j + v j) (fun f => f) hyp ops' (fun j => u j * x j + v j) =
      gpPredict lb ub (fun f => f) hyp ops x ∧
    gpPredictStd (fun j => u j * lb j + v j) (fun j => u j * ub j + v j) (fun f => f) hyp ops' (fun j => u j * x j + v j) =
      gpPredictStd lb ub (fun f => f) hyp ops x := by
  have hub : ∀ y : Pt d, toUnitBox (fun j => u j * y j + v j) (fun j => u j * lb j + v j) (fun j => u j * ub j + v j) =
      toUnitBox y lb ub := by
    intro y
    funext j
    unfold toUnitBox
    rw [show u j * y j + v j - (u j * lb j + v j) = u j * (y j - lb j) by ring,
      show u j * ub j + v j - (u j * lb j + v j) = u j * (ub j - lb j) by ring, mul_div_mul_left _ _ (hu j)]
  refine C115_determined hh (fun _ => rfl) (fun _ => rfl) ops' ops hops' hops ?_ _ x (hub x)
  have hz : ∀ (lb ub : Pt d) (D : List (Pt d × ℝ)), unitData lb ub (fun f => f) D = D.map fun q => (toUnitBox q.1 lb ub, q.2) :=
    fun lb ub D => List.zip_map'
  rw [hz, hz, hD, List.map_map]
  refine List.Perm.of_eq (List.map_congr_left fun q _ => ?_)
  change (toUnitBox (fun j => u j * q.1 j + v j) _ _, q.2) = _
  rw [hub]

/-- At the data points the predictions are, in the sum of squares, at least as close to the (transformed) values as any
constant, in particular as their mean. -/
theorem C115_least_squares (hh : HypOk hyp) (ops : List (Op d)) (hops : NoMultiColumn ops) :
    ∃ s : Pt d → ℝ, (∀ x, gpPredict lb ub (fun f => f) hyp ops x = some (s x)) ∧
      ∀ c : ℝ, ((dataOf d ops).map fun q => (s q.1 - q.2) ^ 2).sum ≤ ((dataOf d ops).map fun q => (c - q.2) ^ 2).sum := by
  obtain ⟨h, h1⟩ := gp_form (lb := lb) (ub := ub) (hyp := hyp) (trans := fun f => f) (fun _ => rfl) ops hops
  obtain ⟨h1, -⟩ := h1 _ _ rfl rfl
  have hz : unitData lb ub (fun f => f) (dataOf d ops) = (dataOf d ops).map fun q => (toUnitBox q.1 lb ub, q.2) :=
    List.zip_map'
  refine ⟨_, h1, fun c => ?_⟩
  rw [hz]
  set D := dataOf d ops
  set Z := D.map fun q => (toUnitBox q.1 lb ub, q.2) with hZ
  have hsnd : Z.map Prod.snd = D.map Prod.snd := by rw [hZ, List.map_map]; rfl
  set f := Z.map Prod.snd with hf
  set θ := hyp ((Z.map Prod.fst, gpScale f) :: h)
  set X := fun i : Fin Z.length => Z[i].1
  set y := fun i : Fin Z.length => (Z[i].2 - mean f) / gpSigma f
  have hs := gpSigma_pos f
  have hsum : ∀ g : Pt d × ℝ → ℝ, (Z.map g).sum = ∑ i : Fin Z.length, g Z[i] := by
    intro g
    rw [← List.sum_ofFn]
    congr 1
    refine List.ext_getElem (by simp) fun i h1 h2 => by simp
  have hr := gpMean_residual (hh _ : θ.InBounds) X y
  have e1 : (D.map fun q => (mean f + gpSigma f * gpMean θ X y (toUnitBox q.1 lb ub) - q.2) ^ 2).sum =
      gpSigma f ^ 2 * ∑ i, (y i - gpMean θ X y (X i)) ^ 2 := by
    have : (D.map fun q => (mean f + gpSigma f * gpMean θ X y (toUnitBox q.1 lb ub) - q.2) ^ 2) =
        Z.map fun z => (mean f + gpSigma f * gpMean θ X y z.1 - z.2) ^ 2 := by
      generalize gpMean θ X y = g
      rw [hZ, List.map_map]; rfl
    rw [this, hsum, Finset.mul_sum]
    refine Finset.sum_congr rfl fun i _ => ?_
    change _ = gpSigma f ^ 2 * ((Z[i].2 - mean f) / gpSigma f - gpMean θ X y Z[i].1) ^ 2
    field_simp
    ring
  have e2 : gpSigma f ^ 2 * ∑ i, y i ^ 2 = (f.map fun v => (v - mean f) ^ 2).sum := by
    have h0 : (f.map fun v => (v - mean f) ^ 2) = Z.map fun z => (z.2 - mean f) ^ 2 := by
      generalize mean f = m
      rw [hf, List.map_map]; rfl
    rw [h0, hsum, Finset.mul_sum]
    refine Finset.sum_congr rfl fun i _ => ?_
    change gpSigma f ^ 2 * ((Z[i].2 - mean f) / gpSigma f) ^ 2 = (Z[i].2 - mean f) ^ 2
    field_simp
  have e3 : ((D.map fun q => (c - q.2) ^ 2)).sum = (f.map fun v => (v - mean f) ^ 2).sum + f.length * (mean f - c) ^ 2 := by
    have h1 : (D.map fun q => (c - q.2) ^ 2) = f.map fun v => (c - v) ^ 2 := by rw [hsnd, List.map_map]; rfl
    rw [h1]
    by_cases hne : f = []
    · simp [hne]
    have hl : (f.length : ℝ) ≠ 0 := by simpa using hne
    have hm : f.sum = f.length * mean f := by unfold mean; field_simp
    have key : ∀ (l : List ℝ) (m : ℝ), (l.map fun v => (c - v) ^ 2).sum =
        (l.map fun v => (v - m) ^ 2).sum + 2 * (m - c) * (l.sum - l.length * m) + l.length * (m - c) ^ 2 := by
      intro l m
      induction l with
      | nil => simp
      | cons v l ih => simp only [List.map_cons, List.sum_cons, ih, List.length_cons]; push_cast; ring
    rw [key f (mean f), hm]; ring
  rw [e1, e3]
  have := mul_le_mul_of_nonneg_left hr (sq_nonneg (gpSigma f))
  rw [e2] at this
  have h4 : 0 ≤ (f.length : ℝ) * (mean f - c) ^ 2 := by positivity
  linarith

/-- A choice of hyperparameters within the bounds that does not depend on the order. -/
example : ∃ hyp : List (List (Pt 1) × List ℝ) → Hyper 1, HypOk hyp ∧ OrderFreeHyp hyp ∧
    dataOf 1 (twoPts 0 2) ≠ dataOf 1 [.add (.vec [1]) (.float 2), .predict (fun _ => 1), .add (.vec [0]) (.float 0)] ∧
    (dataOf 1 (twoPts 0 2)).Perm (dataOf 1 [.add (.vec [1]) (.float 2), .predict (fun _ => 1), .add (.vec [0]) (.float 0)]) := by
  refine ⟨fun _ => ⟨1, fun _ => 1, 1 / 1000⟩, fun _ => by constructor <;> norm_num, fun _ _ _ _ _ _ _ => rfl, ?_, ?_⟩
  · rw [twoPts_data]; simp [dataOf, accepted, pointsOf, valuesOf]
  · rw [twoPts_data]
    simp only [dataOf, accepted, pointsOf, valuesOf]
    simp
    exact List.Perm.swap _ _ _

end Verif.Props
