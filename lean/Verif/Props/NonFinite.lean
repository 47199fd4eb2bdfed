import Verif.Surrogate.NonFiniteProofs
import Verif.Props.Create

/-! # Property C96: objective values that are not finite -/

namespace Verif.Props

open Verif.Num Verif.Utils Verif.Surrogate Verif.Validate Finset

variable {d : ℕ}

/-! ## Specification -/

/-- The values added since the last `reset`. -/
def nvals (ops : List (NOp d)) : List PyFloat :=
  ops.foldl (fun l op => match op with
    | .add D => l ++ D.map Prod.snd
    | .predict _ => l
    | .reset => []) []

/-- The points added since the last `reset`. -/
def npts (ops : List (NOp d)) : List (Pt d) :=
  ops.foldl (fun l op => match op with
    | .add D => l ++ D.map Prod.fst
    | .predict _ => l
    | .reset => []) []

/-- Only real numbers and `inf`, and fewer than half of them `inf`. -/
def Mostly (x : List PyFloat) : Prop :=
  (∀ v ∈ x, v = .posInf ∨ ∃ r, v = .fin r) ∧ (x ≠ [] → 2 * x.countP isInf < x.length)

/-- The same calls with the value `M` for `inf`. -/
def penalOps (M : ℝ) (ops : List (NOp d)) : List (Op d) :=
  ops.flatMap fun op => match op with
    | .add D => scratch (D.map fun q => (q.1, penal M q.2))
    | .predict x => [.predict x]
    | .reset => [.reset]

/-- Every real number that is added is at most `M`. -/
def AtMost (M : ℝ) (ops : List (NOp d)) : Prop := ∀ D, NOp.add D ∈ ops → ∀ q ∈ D, ∀ r, q.2 = .fin r → r ≤ M

/-- Whenever a prediction was made, fewer than half of the values were `inf`, and none was NaN or `-inf`. -/
def MostlyAtPredictions (ops : List (NOp d)) : Prop :=
  ∀ o₁ x o₂, ops = o₁ ++ NOp.predict x :: o₂ → Mostly (nvals o₁)

/-! ## Proofs -/

theorem nvals_snoc (ops : List (NOp d)) (op : NOp d) : nvals (ops ++ [op]) =
    match op with
    | .add D => nvals ops ++ D.map Prod.snd
    | .predict _ => nvals ops
    | .reset => [] := by
  unfold nvals
  rw [List.foldl_append, List.foldl_cons, List.foldl_nil]

theorem nrun_snoc (p : Par d) (T : List PyFloat → List PyFloat) (ops : List (NOp d)) (op : NOp d) :
    nrun p T (ops ++ [op]) = NSt.step p T (nrun p T ops) op := by
  unfold nrun
  rw [List.foldl_append, List.foldl_cons, List.foldl_nil]

theorem nfit_vals (p : Par d) (T : List PyFloat → List PyFloat) (s : NSt d) : (s.fit p T).st.vals = s.vals := by
  unfold NSt.fit
  split_ifs
  · rfl
  · split <;> rfl

theorem fitTransRaises_updated (p : Par d) (s : RSt d) : (fitTransRaises p s).updated = s.updated := by
  unfold fitTransRaises
  split_ifs
  · rfl
  · split
    · rfl
    · simp only
      split_ifs
      · rfl
      · split <;> rfl

theorem nrun_inv (p : Par d) (T : List PyFloat → List PyFloat) (ops : List (NOp d)) :
    (nrun p T ops).vals = nvals ops ∧ ((nrun p T ops).st.updated = true → finiteVals (T (nvals ops)) ≠ none) := by
  induction ops using List.reverseRecOn with
  | nil => exact ⟨rfl, fun h => by simp [nrun, rinit] at h⟩
  | append_singleton ops op ih =>
    rw [nrun_snoc, nvals_snoc]
    cases op with
    | reset => exact ⟨rfl, fun h => by simp [NSt.step, rinit] at h⟩
    | add D => exact ⟨by simp [NSt.step, NSt.add, ih.1], fun h => by simp [NSt.step, NSt.add] at h⟩
    | predict x =>
      simp only [NSt.step]
      refine ⟨by rw [nfit_vals, ih.1], ?_⟩
      intro h
      unfold NSt.fit at h
      by_cases hu : (nrun p T ops).st.updated = true
      · exact ih.2 hu
      · rw [if_neg hu, ih.1] at h
        rcases hf : finiteVals (T (nvals ops)) with _ | f
        · rw [hf] at h
          simp only [fitTransRaises_updated] at h
          exact absurd h hu
        · simp

/-- A prediction raises if a transformed value is not finite, whatever the history. -/
theorem C96_raises (p : Par d) (T : List PyFloat → List PyFloat) (ops : List (NOp d)) (x : Pt d)
    (h : finiteVals (T (nvals ops)) = none) : (nrun p T ops).predict p T x = none := by
  obtain ⟨h1, h2⟩ := nrun_inv p T ops
  have hu : ¬ (nrun p T ops).st.updated = true := fun hu => h2 hu h
  unfold NSt.predict NSt.fit
  rw [if_neg hu, h1, h]
  simp

/-- Without output transformation one `inf` or NaN makes every prediction raise, until `reset`. -/
theorem C96_identity_refuted (p : Par d) (ops : List (NOp d)) (x : Pt d) (v : PyFloat) (hv : v ∈ nvals ops)
    (hn : ∀ r, v ≠ .fin r) : (nrun p (fun f => f) ops).predict p (fun f => f) x = none :=
  C96_raises p _ ops x (finiteVals_none _ v hv hn)

/-- With median capping: NaN, `-inf`, or at least half of the values `inf`. -/
theorem C96_capped_refuted (p : Par d) (ops : List (NOp d)) (x : Pt d) (h : ¬ Mostly (nvals ops)) :
    (nrun p cappingPF ops).predict p cappingPF x = none := by
  refine C96_raises p _ ops x (cappingPF_none _ ?_)
  by_contra hc
  push Not at hc
  obtain ⟨h1, h2, h3⟩ := hc
  refine h ⟨fun v hv => ?_, h3⟩
  cases v with
  | fin r => exact .inr ⟨r, rfl⟩
  | posInf => exact .inl rfl
  | negInf => exact absurd hv h2
  | nan => exact absurd hv h1

theorem capping_mostly (x : List PyFloat) (M : ℝ) (h : Mostly x) (hM : ∀ r, PyFloat.fin r ∈ x → r ≤ M) :
    finiteVals (cappingPF x) = some (medianCapping (x.map (penal M))) := by
  by_cases hx : x = []
  · subst hx; rfl
  · refine cappingPF_eq x M (fun v hv => ?_) (h.2 hx)
    rcases h.1 v hv with h | ⟨r, rfl⟩
    · exact .inl h
    · exact .inr ⟨r, rfl, hM r hv⟩

theorem scratch_accepted (D : List (Pt d × ℝ)) :
    accepted d (.mat D.length d fun i j => D[i].1 j) (.arr1 (D.map Prod.snd)) = some D := by
  have h := scratch_data D
  obtain ⟨D', hD'⟩ : ∃ D', accepted d (.mat D.length d fun i j => D[i].1 j) (.arr1 (D.map Prod.snd)) = some D' := by
    simp [accepted, pointsOf, valuesOf]
  simp only [scratch, dataOf, List.foldl_cons, List.foldl_nil, List.nil_append, hD', Option.getD_some] at h
  rw [hD', h]

theorem fit_congr (p : Par d) (t : RSt d) (z : List ℝ) :
    Surrogate.fit { p with trans := fun _ => p.trans t.fX } { t with fX := z } =
      ⟨{ (Surrogate.fit p t).st with fX := z }, (Surrogate.fit p t).raised⟩ := by
  have e : fitNew { p with trans := fun _ => p.trans t.fX } { t with fX := z } = fitNew p t := by
    unfold fitNew fitInit solveCoef
    rfl
  unfold Surrogate.fit
  rw [e]
  by_cases h : t.updated = true
  · simp [h]
  · simp [h]

theorem nvals_atMost (M : ℝ) (ops : List (NOp d)) (h : AtMost M ops) : ∀ r, PyFloat.fin r ∈ nvals ops → r ≤ M := by
  induction ops using List.reverseRecOn with
  | nil => intro r hr; simp [nvals] at hr
  | append_singleton ops op ih =>
    have ih := ih fun D hD => h D (by simp [hD])
    intro r hr
    rw [nvals_snoc] at hr
    cases op with
    | reset => simp at hr
    | predict x => exact ih r hr
    | add D =>
      simp only [List.mem_append, List.mem_map] at hr
      rcases hr with hr | ⟨q, hq, hqr⟩
      · exact ih r hr
      · exact h D (by simp) q hq r hqr

theorem with_fX (s : RSt d) (z : List ℝ) (h : s.fX = z) : s = { s with fX := z } := by subst h; rfl

/-- The interpolant with values that are not finite simulates the one with `M` for `inf`. -/
theorem nrun_sim (p : Par d) (hp : p.trans = medianCapping) (M : ℝ) (ops : List (NOp d)) (hM : AtMost M ops)
    (hm : MostlyAtPredictions ops) :
    rrun p (penalOps M ops) = { (nrun p cappingPF ops).st with fX := (nvals ops).map (penal M) } := by
  induction ops using List.reverseRecOn with
  | nil => rfl
  | append_singleton ops op ih =>
    have hM' : AtMost M ops := fun D hD => hM D (by simp [hD])
    have ih := ih hM' fun o₁ x o₂ h => hm o₁ x (o₂ ++ [op]) (by rw [h]; simp)
    have hpen : penalOps M (ops ++ [op]) = penalOps M ops ++ penalOps M [op] := by
      unfold penalOps; rw [List.flatMap_append]
    rw [hpen, rrun_append, ih, nrun_snoc, nvals_snoc]
    cases op with
    | reset => rfl
    | add D =>
      have := (C46_accepted p.lb p.ub { (nrun p cappingPF ops).st with fX := (nvals ops).map (penal M) } _ _ _
        (scratch_accepted (D.map fun q => (q.1, penal M q.2)))).2
      show (addPoints p.lb p.ub _ _ _).st = _
      rw [this]
      simp [NSt.step, NSt.add, Function.comp_def]
    | predict x =>
      have hmo := hm ops x [] rfl
      have hf := capping_mostly _ M hmo (nvals_atMost M ops hM')
      show (Surrogate.fit p _).st = _
      simp only [NSt.step]
      unfold NSt.fit
      have hv := (nrun_inv p cappingPF ops).1
      by_cases hu : (nrun p cappingPF ops).st.updated = true
      · rw [if_pos hu]
        unfold Surrogate.fit
        rw [if_pos hu]
      · rw [if_neg hu, hv, hf]
        have := fit_congr p { (nrun p cappingPF ops).st with fX := (nvals ops).map (penal M) } (nrun p cappingPF ops).st.fX
        simp only [hp] at this ⊢
        rw [this]
        exact with_fX _ _ (fit_keepsData p { (nrun p cappingPF ops).st with fX := (nvals ops).map (penal M) }).2.2.2

/-- While fewer than half of the values are `inf` (and none NaN or `-inf`), an interpolant with median capping treats `inf` like
any number `M` that is at least as large as all real values. -/
theorem C96_capped_partial (p : Par d) (hp : p.trans = medianCapping) (M : ℝ) (ops : List (NOp d)) (hM : AtMost M ops)
    (hm : MostlyAtPredictions ops) (x : Pt d) (hx : Mostly (nvals ops)) :
    (nrun p cappingPF ops).predict p cappingPF x = (predict p (rrun p (penalOps M ops)) x).2 := by
  have hf := capping_mostly _ M hx (nvals_atMost M ops hM)
  have hv := (nrun_inv p cappingPF ops).1
  rw [nrun_sim p hp M ops hM hm]
  unfold NSt.predict predict NSt.fit
  by_cases hu : (nrun p cappingPF ops).st.updated = true
  · rw [if_pos hu]
    unfold Surrogate.fit
    rw [if_pos hu]
    rfl
  · rw [if_neg hu, hv, hf]
    have := fit_congr p { (nrun p cappingPF ops).st with fX := (nvals ops).map (penal M) } (nrun p cappingPF ops).st.fX
    simp only [hp] at this ⊢
    rw [this]
    rfl

theorem npts_snoc (ops : List (NOp d)) (op : NOp d) : npts (ops ++ [op]) =
    match op with
    | .add D => npts ops ++ D.map Prod.fst
    | .predict _ => npts ops
    | .reset => [] := by
  unfold npts
  rw [List.foldl_append, List.foldl_cons, List.foldl_nil]

theorem penalOps_append (M : ℝ) (a b : List (NOp d)) : penalOps M (a ++ b) = penalOps M a ++ penalOps M b := by
  unfold penalOps; rw [List.flatMap_append]

theorem penalOps_ok (M : ℝ) (ops : List (NOp d)) : NoMultiColumn (penalOps M ops) := by
  intro xx fx h
  unfold penalOps at h
  rw [List.mem_flatMap] at h
  obtain ⟨op, -, h⟩ := h
  cases op with
  | add D => exact scratch_ok _ xx fx h
  | predict x => simp at h
  | reset => simp at h

theorem penalOps_data (M : ℝ) (ops : List (NOp d)) : (dataOf d (penalOps M ops)).map Prod.fst = npts ops := by
  induction ops using List.reverseRecOn with
  | nil => rfl
  | append_singleton ops op ih =>
    rw [penalOps_append, npts_snoc]
    cases op with
    | add D =>
      have : penalOps M [NOp.add D] = scratch (D.map fun q => (q.1, penal M q.2)) := by simp [penalOps]
      rw [this]
      unfold scratch
      rw [dataOf_snoc]
      dsimp only
      rw [scratch_accepted]
      simp [ih, Function.comp_def]
    | predict x =>
      have : penalOps M [NOp.predict x] = [.predict x] := by simp [penalOps]
      rw [this, dataOf_snoc]
      exact ih
    | reset =>
      have : penalOps M [(NOp.reset : NOp d)] = [.reset] := by simp [penalOps]
      rw [this, dataOf_snoc]
      rfl

/-- A prediction of the translated history comes from one of the history. -/
theorem penalOps_split (M : ℝ) (ops : List (NOp d)) (o₁ : List (Op d)) (x : Pt d) (o₂ : List (Op d))
    (h : penalOps M ops = o₁ ++ .predict x :: o₂) :
    ∃ a b, ops = a ++ .predict x :: b ∧ penalOps M a = o₁ ∧ penalOps M b = o₂ := by
  induction ops generalizing o₁ with
  | nil => simp [penalOps] at h
  | cons op ops ih =>
    have e : penalOps M (op :: ops) = penalOps M [op] ++ penalOps M ops := by
      rw [← penalOps_append]; rfl
    have key : ∀ y : Op d, penalOps M [op] = [y] → (∀ z, y = .predict z → op = .predict z) →
        ∃ a b, op :: ops = a ++ .predict x :: b ∧ penalOps M a = o₁ ∧ penalOps M b = o₂ := by
      intro y hy hz
      rw [e, hy] at h
      cases o₁ with
      | nil =>
        simp only [List.cons_append, List.nil_append, List.cons.injEq] at h
        exact ⟨[], ops, by rw [hz x h.1]; rfl, rfl, h.2⟩
      | cons y' o₁ =>
        simp only [List.cons_append, List.nil_append, List.cons.injEq] at h
        obtain ⟨a, b, h1, h2, h3⟩ := ih o₁ h.2
        refine ⟨op :: a, b, by rw [h1]; rfl, ?_, h3⟩
        have e' : penalOps M (op :: a) = penalOps M [op] ++ penalOps M a := by
          rw [← penalOps_append]; rfl
        rw [e', hy, h2, h.1]
        rfl
    cases op with
    | add D =>
      have e1 : penalOps M [NOp.add D] = scratch (D.map fun q => (q.1, penal M q.2)) := by simp [penalOps]
      exact key _ e1 (fun z hz => by cases hz)
    | predict z =>
      refine key (.predict z) ?_ (fun z hz => by cases hz; rfl)
      simp only [penalOps, List.flatMap_cons, List.flatMap_nil, List.append_nil]
    | reset =>
      refine key .reset ?_ (fun z hz => by cases hz)
      simp only [penalOps, List.flatMap_cons, List.flatMap_nil, List.append_nil]

/-- With the cubic kernel, the linear tail, `eta > 0` and median capping, predictions do not fail although up to (not
including) half of the evaluations returned `inf`: the points must not lie on a hyperplane, now and at earlier predictions. -/
theorem C96_usable_partial (lb ub : Pt d) (hb : ∀ i, lb i < ub i) (eta : ℝ) (heta : 0 < eta)
    (lu : ℕ → Mat → LuOut) (chol : ℕ → Mat → Option Mat) (hlu : LuSpec lu) (hchol : CholSpec chol)
    (ops : List (NOp d)) (hm : MostlyAtPredictions ops) (x : Pt d) (hx : Mostly (nvals ops))
    (hne : npts ops ≠ []) (hh : ¬ OnHyperplane (npts ops))
    (hp : ∀ o₁ y o₂, ops = o₁ ++ NOp.predict y :: o₂ → d < (npts o₁).length → ¬ OnHyperplane (npts o₁)) :
    ∃ v, (nrun ⟨lb, ub, cubicKernel, linearTail d, eta, medianCapping, lu, chol⟩ cappingPF ops).predict
      ⟨lb, ub, cubicKernel, linearTail d, eta, medianCapping, lu, chol⟩ cappingPF x = some v := by
  obtain ⟨M, hM⟩ : ∃ M, AtMost M ops := by
    clear hm hx hne hh hp
    induction ops with
    | nil => exact ⟨0, fun D hD => by simp at hD⟩
    | cons op ops ih =>
      obtain ⟨M, hM⟩ := ih
      cases op with
      | predict y => exact ⟨M, fun D hD => hM D (by simpa using hD)⟩
      | reset => exact ⟨M, fun D hD => hM D (by simpa using hD)⟩
      | add D' =>
        obtain ⟨N, hN⟩ : ∃ N : ℝ, ∀ q ∈ D', ∀ r, q.2 = PyFloat.fin r → r ≤ N := by
          clear hM
          induction D' with
          | nil => exact ⟨0, fun q hq => by simp at hq⟩
          | cons q D' ih =>
            obtain ⟨N, hN⟩ := ih
            by_cases hq : ∃ r, q.2 = PyFloat.fin r
            · obtain ⟨r, hr⟩ := hq
              refine ⟨max N r, fun q' hq' r' hr' => ?_⟩
              rcases List.mem_cons.mp hq' with rfl | hq'
              · rw [hr] at hr'; cases hr'; exact le_max_right _ _
              · exact (hN q' hq' r' hr').trans (le_max_left _ _)
            · refine ⟨N, fun q' hq' r' hr' => ?_⟩
              rcases List.mem_cons.mp hq' with rfl | hq'
              · exact absurd ⟨r', hr'⟩ hq
              · exact hN q' hq' r' hr'
        refine ⟨max M N, fun D hD q hq r hr => ?_⟩
        rcases List.mem_cons.mp hD with h | h
        · cases h; exact (hN q hq r hr).trans (le_max_right _ _)
        · exact (hM D h q hq r hr).trans (le_max_left _ _)
  rw [C96_capped_partial _ rfl M ops hM hm x hx]
  rw [← Option.ne_none_iff_exists']
  intro hn
  rcases (C77_cubic lb ub hb eta heta.le medianCapping lu chol hlu hchol _ (penalOps_ok M ops) x (.inl heta)).mp hn
    with h | h | ⟨o₁, y, o₂, h1, -, h2, h3⟩
  · apply hne
    rw [← penalOps_data M ops, h]
    rfl
  · rw [penalOps_data] at h
    exact hh h
  · obtain ⟨a, b, e1, e2, -⟩ := penalOps_split M ops o₁ y o₂ h1
    rw [← e2, penalOps_data] at h3
    refine hp a y b e1 ?_ h3
    rw [← penalOps_data M, e2, List.length_map]
    exact h2

/-- A history that meets the hypotheses: two of five values are `inf`, one of three at the first prediction. -/
noncomputable def infHist : List (NOp 2) :=
  [.add [(![0, 0], .fin 1), (![1, 0], .posInf), (![0, 1], .fin 3)], .predict 0,
    .add [(![1, 1], .posInf), (![2, 1], .fin 2)]]

example (x : Pt 2) : ∃ lu chol v, LuSpec lu ∧ CholSpec chol ∧
    (nrun (demoPar lu chol medianCapping) cappingPF infHist).predict (demoPar lu chol medianCapping) cappingPF x = some v := by
  obtain ⟨lu, chol, hlu, hchol, -⟩ := exists_library
  have hs : ∀ (o₁ : List (NOp 2)) (y : Pt 2) (o₂ : List (NOp 2)), infHist = o₁ ++ NOp.predict y :: o₂ →
      o₁ = [.add [(![0, 0], .fin 1), (![1, 0], .posInf), (![0, 1], .fin 3)]] := by
    intro o₁ y o₂ h
    rcases o₁ with _ | ⟨a, _ | ⟨b, _ | ⟨c, o₁⟩⟩⟩ <;> simp_all [infHist]
  have h1 : MostlyAtPredictions infHist := by
    intro o₁ y o₂ h
    rw [hs o₁ y o₂ h]
    exact ⟨by simp [nvals], by simp [nvals, isInf, List.countP_cons]⟩
  have h2 : Mostly (nvals infHist) := ⟨by simp [infHist, nvals], by simp [infHist, nvals, isInf, List.countP_cons]⟩
  have h3 : npts infHist ≠ [] := by simp [infHist, npts]
  have h4 : ¬ OnHyperplane (npts infHist) := by
    intro h
    refine not_collinear ![0, 0] ![1, 0] ![0, 1] (by norm_num) ?_
    obtain ⟨w, b, hw, hP⟩ := h
    exact ⟨w, b, hw, fun q hq => hP q (by simp [infHist, npts] at hq ⊢; tauto)⟩
  have h5 : ∀ o₁ y o₂, infHist = o₁ ++ NOp.predict y :: o₂ → 2 < (npts o₁).length → ¬ OnHyperplane (npts o₁) := by
    intro o₁ y o₂ h _
    rw [hs o₁ y o₂ h]
    exact not_collinear ![0, 0] ![1, 0] ![0, 1] (by norm_num)
  obtain ⟨v, hv⟩ := C96_usable_partial ![0, -1] ![2, 3] (by intro i; fin_cases i <;> norm_num) 1e-6 (by norm_num) lu chol
    hlu hchol infHist h1 x h2 h3 h4 h5
  exact ⟨lu, chol, v, hlu, hchol, hv⟩

/-- The same values make an interpolant without output transformation fail. -/
example : PyFloat.posInf ∈ nvals infHist := by simp [infHist, nvals]

end Verif.Props
