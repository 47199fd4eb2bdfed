import Verif.Surrogate.Extend
import Verif.Props.Regular
import Verif.Props.Reproduce

/-! # Property C91: one LU factorization is enough -/

namespace Verif.Props

open Verif.Num Verif.Utils Verif.Surrogate Finset

variable {d : ℕ}

/-- `more` contains no call of `reset`. -/
def NoReset (more : List (Op d)) : Prop := Op.reset ∉ more

theorem rrun_append (p : Par d) (ops more : List (Op d)) :
    rrun p (ops ++ more) = run p.lb p.ub (fun _ => none) (Surrogate.fit p) (rrun p ops) more := by
  unfold rrun run; rw [List.foldl_append]

/-- A prediction that succeeds leaves a fit of all points. -/
theorem predict_model (p : Par d) (hlu : LuSpec p.lu) (hchol : CholSpec p.chol) (s : RSt d) (hg : Good p s) (x : Pt d)
    (h : (predict p s x).2 ≠ none) : ∃ F, (Surrogate.fit p s).st.model = some F ∧ F.k = s.Xu.length ∧
      ¬ Bad p (Surrogate.fit p s).st.model := by
  have hr : (Surrogate.fit p s).raised = false := by
    by_contra hr
    apply h
    unfold predict
    simp only [Bool.not_eq_false] at hr
    simp [hr]
  obtain ⟨g, _, h2, _, _, _, h6, _⟩ := fit_spec p hlu hchol s hg
  obtain ⟨F, f1, f2, f3, _⟩ := g.upd (h6 hr)
  refine ⟨F, f1, by rw [f2, h2], ?_⟩
  rw [f1]
  rintro ⟨G, hG, hz⟩
  simp only [Option.some.injEq] at hG
  subst hG
  exact f3 hz

/-- The general form: the form of the kernel is positive definite for the data of every prefix of the history. -/
theorem one_lu (p : Par d) (hlu : LuSpec p.lu) (hchol : CholSpec p.chol) (hcc : CholComplete p.chol)
    (ops more : List (Op d)) (x : Pt d) (hops : NoMultiColumn (ops ++ .predict x :: more)) (hmore : NoReset more)
    (hx : (predict p (rrun p ops) x).2 ≠ none)
    (hpos : ∀ D, D <+: dataOf d (ops ++ .predict x :: more) → ∀ c, TailFree p (D.map fun q => toUnitBox q.1 p.lb p.ub) c →
      c ≠ 0 → 0 < kform p (D.map fun q => toUnitBox q.1 p.lb p.ub) c) (lu' : ℕ → Mat → LuOut) :
    run p.lb p.ub (fun _ => none) (Surrogate.fit { p with lu := lu' }) (rrun p (ops ++ [.predict x])) more =
      rrun p (ops ++ .predict x :: more) ∧
    (rrun p (ops ++ .predict x :: more)).model ≠ none ∧
    ∀ y, predict { p with lu := lu' } (rrun p (ops ++ .predict x :: more)) y =
        predict p (rrun p (ops ++ .predict x :: more)) y ∧ (predict p (rrun p (ops ++ .predict x :: more)) y).2 ≠ none := by
  have last : ∀ h : List (Op d), NoMultiColumn h → (rrun p h).model ≠ none → ¬ Bad p (rrun p h).model →
      dataOf d h <+: dataOf d (ops ++ .predict x :: more) →
      Surrogate.fit { p with lu := lu' } (rrun p h) = Surrogate.fit p (rrun p h) ∧ (Surrogate.fit p (rrun p h)).raised = false ∧
        (Surrogate.fit p (rrun p h)).st.model ≠ none ∧ ¬ Bad p (Surrogate.fit p (rrun p h)).st.model := by
    intro h h1 h2 hnb h3
    obtain ⟨g, hh⟩ := rrun_good p hlu hchol h h1
    obtain ⟨a, b, c, _⟩ := fit_extends p hchol hcc _ g hnb h2 (by rw [hh.Xu]; exact hpos _ h3) lu'
    have hp : (predict p (rrun p h) 0).2 ≠ none := by rw [Ne, predict_none_raised p hlu hchol _ g, b]; simp
    obtain ⟨_, _, _, e⟩ := predict_model p hlu hchol _ g 0 hp
    exact ⟨a, b, c, e⟩
  have key : ∀ m : List (Op d), NoReset m → NoMultiColumn (ops ++ .predict x :: m) →
      dataOf d (ops ++ .predict x :: m) <+: dataOf d (ops ++ .predict x :: more) →
      run p.lb p.ub (fun _ => none) (Surrogate.fit { p with lu := lu' }) (rrun p (ops ++ [.predict x])) m =
        rrun p (ops ++ .predict x :: m) ∧ (rrun p (ops ++ .predict x :: m)).model ≠ none ∧
        ¬ Bad p (rrun p (ops ++ .predict x :: m)).model := by
    intro m
    induction m using List.reverseRecOn with
    | nil =>
      intro _ hc _
      refine ⟨rfl, ?_⟩
      obtain ⟨g, _⟩ := rrun_good p hlu hchol ops fun xx fx h => hc xx fx (by simp [h])
      obtain ⟨F, hF, _, hnb⟩ := predict_model p hlu hchol _ g x hx
      rw [rrun_append]
      show (Surrogate.fit p (rrun p ops)).st.model ≠ none ∧ ¬ Bad p (Surrogate.fit p (rrun p ops)).st.model
      exact ⟨by rw [hF]; simp, hnb⟩
    | append_singleton m op ih =>
      intro hnr hc hpre
      have hop : op ≠ .reset := fun h => hnr (by simp [h])
      have e : ops ++ .predict x :: (m ++ [op]) = (ops ++ .predict x :: m) ++ [op] := by simp
      rw [e] at hc hpre ⊢
      have hpre' := (dataOf_prefix (ops ++ .predict x :: m) op hop).trans hpre
      have hc' : NoMultiColumn (ops ++ .predict x :: m) := fun xx fx h => hc xx fx (List.mem_append_left _ h)
      obtain ⟨i1, i2, i3⟩ := ih (fun h => hnr (by simp [h])) hc' hpre'
      obtain ⟨l1, l2, l3, l4⟩ := last _ hc' i2 i3 hpre'
      rw [rrun_append p (ops ++ .predict x :: m) [op]]
      unfold run at i1 ⊢
      rw [List.foldl_append, i1]
      simp only [List.foldl_cons, List.foldl_nil]
      cases op with
      | reset => exact absurd rfl hop
      | add xx fx =>
        refine ⟨rfl, ?_⟩
        simp only [step]
        rcases ha : accepted d xx fx with _ | D
        · rw [(C46_refused_partial p.lb p.ub _ xx fx ha).2 (hc xx fx (by simp))]
          exact ⟨i2, i3⟩
        · rw [(C46_accepted p.lb p.ub _ xx fx D ha).2]
          exact ⟨i2, i3⟩
      | predict y => exact ⟨by simp only [step, l1], l3, l4⟩
  obtain ⟨k1, k2, k3⟩ := key more hmore hops (List.prefix_refl _)
  refine ⟨k1, k2, fun y => ?_⟩
  obtain ⟨l1, l2, l3, _⟩ := last _ hops k2 k3 (List.prefix_refl _)
  obtain ⟨F, hF⟩ := Option.ne_none_iff_exists'.mp l3
  unfold predict
  rw [l1]
  refine ⟨rfl, ?_⟩
  simp [l2, hF]

/-! ## The kernels -/

theorem cubic_kform (lb ub : Pt d) (eta : ℝ) (heta : 0 ≤ eta) (trans : List ℝ → List ℝ) (lu : ℕ → Mat → LuOut)
    (chol : ℕ → Mat → Option Mat) (X : List (Pt d)) (c : Fin X.length → ℝ)
    (hc : TailFree ⟨lb, ub, cubicKernel, linearTail d, eta, trans, lu, chol⟩ X c) (hne : c ≠ 0) (hpts : 0 < eta ∨ X.Nodup) :
    0 < kform ⟨lb, ub, cubicKernel, linearTail d, eta, trans, lu, chol⟩ X c := by
  obtain ⟨h1, h2⟩ := linearTail_constraints (fun i => X.get i) c hc
  obtain ⟨hs, hp⟩ := cubic_form X.get c h1 h2
  have hq := sum_sq_pos c hne
  show 0 < ∑ i, ∑ j, c i * c j * eucl (X.get i) (X.get j) ^ 3 + eta * ∑ i, c i ^ 2
  rcases hpts with h | h
  · have := mul_pos h hq; linarith
  · have := hp (List.nodup_iff_injective_get.mp h) hne
    have := mul_nonneg heta hq.le
    linarith

theorem tps_kform (lb ub : Pt d) (eta : ℝ) (trans : List ℝ → List ℝ) (lu : ℕ → Mat → LuOut)
    (chol : ℕ → Mat → Option Mat) (X : List (Pt d)) (c : Fin X.length → ℝ)
    (hc : TailFree ⟨lb, ub, tpsKernel, linearTail d, eta, trans, lu, chol⟩ X c) (hne : c ≠ 0)
    (heta : -(eps ^ 2 * Real.log eps) * X.length < eta) :
    0 < kform ⟨lb, ub, tpsKernel, linearTail d, eta, trans, lu, chol⟩ X c := by
  obtain ⟨h1, h2⟩ := linearTail_constraints (fun i => X.get i) c hc
  have hs := tps_form X.get c h1 h2
  have hq := sum_sq_pos c hne
  have hE := form_perturb c (fun i j => tpsKernel.eval (eucl (X.get i) (X.get j)) -
    eucl (X.get i) (X.get j) ^ 2 * Real.log (eucl (X.get i) (X.get j))) _ fun i j => tps_clamp _ (eucl_nonneg _ _)
  simp only [mul_sub, Finset.sum_sub_distrib] at hE
  have := mul_lt_mul_of_pos_right heta hq
  show 0 < ∑ i, ∑ j, c i * c j * tpsKernel.eval (eucl (X.get i) (X.get j)) + eta * ∑ i, c i ^ 2
  linarith

/-- Cubic kernel, linear tail (the default), any history of calls: once a prediction has been made, `lu_factor` is not
called again until the next `reset`, no matter how many points are added and predictions are made: everything that happens
is the same for every behaviour `lu'` of `lu_factor`, and no prediction raises.  With the default `eta > 0` the points may
be repeated. -/
theorem C91_cubic (lb ub : Pt d) (hb : ∀ i, lb i < ub i) (eta : ℝ) (heta : 0 ≤ eta) (trans : List ℝ → List ℝ)
    (lu : ℕ → Mat → LuOut) (chol : ℕ → Mat → Option Mat) (hlu : LuSpec lu) (hchol : CholSpec chol) (hcc : CholComplete chol)
    (ops more : List (Op d)) (x : Pt d) (hops : NoMultiColumn (ops ++ .predict x :: more)) (hmore : NoReset more)
    (hpts : 0 < eta ∨ ((dataOf d (ops ++ .predict x :: more)).map Prod.fst).Nodup) (lu' : ℕ → Mat → LuOut) :
    let p : Par d := ⟨lb, ub, cubicKernel, linearTail d, eta, trans, lu, chol⟩
    let p' : Par d := ⟨lb, ub, cubicKernel, linearTail d, eta, trans, lu', chol⟩
    let s := rrun p (ops ++ .predict x :: more)
    (predict p (rrun p ops) x).2 ≠ none →
    run lb ub (fun _ => none) (Surrogate.fit p') (rrun p (ops ++ [.predict x])) more = s ∧
    ∀ y, predict p' s y = predict p s y ∧ (predict p s y).2 ≠ none := by
  intro p p' s hx
  refine (fun H => ⟨H.1, H.2.2⟩) (one_lu p hlu hchol hcc ops more x hops hmore hx (fun D hD c hc hne => ?_) lu')
  · refine cubic_kform lb ub eta heta trans lu chol _ c hc hne (hpts.imp_right fun h => ?_)
    exact List.nodup_iff_injective_get.mpr (unitBox_get_injective lb ub hb _ ((hD.sublist.map Prod.fst).nodup h))

/-- The same for the thin plate spline with linear tail, if `eta` exceeds the error made by replacing small distances by
`eps` (the default does for up to `10^20` points, `C77_tps_default`). -/
theorem C91_tps (lb ub : Pt d) (eta : ℝ) (trans : List ℝ → List ℝ)
    (lu : ℕ → Mat → LuOut) (chol : ℕ → Mat → Option Mat) (hlu : LuSpec lu) (hchol : CholSpec chol) (hcc : CholComplete chol)
    (ops more : List (Op d)) (x : Pt d) (hops : NoMultiColumn (ops ++ .predict x :: more)) (hmore : NoReset more)
    (heta : -(eps ^ 2 * Real.log eps) * (dataOf d (ops ++ .predict x :: more)).length < eta) (lu' : ℕ → Mat → LuOut) :
    let p : Par d := ⟨lb, ub, tpsKernel, linearTail d, eta, trans, lu, chol⟩
    let p' : Par d := ⟨lb, ub, tpsKernel, linearTail d, eta, trans, lu', chol⟩
    let s := rrun p (ops ++ .predict x :: more)
    (predict p (rrun p ops) x).2 ≠ none →
    run lb ub (fun _ => none) (Surrogate.fit p') (rrun p (ops ++ [.predict x])) more = s ∧
    ∀ y, predict p' s y = predict p s y ∧ (predict p s y).2 ≠ none := by
  intro p p' s hx
  refine (fun H => ⟨H.1, H.2.2⟩) (one_lu p hlu hchol hcc ops more x hops hmore hx (fun D hD c hc hne => ?_) lu')
  · refine tps_kform lb ub eta trans lu chol _ c hc hne (lt_of_le_of_lt ?_ heta)
    have hδ : 0 ≤ -(eps ^ 2 * Real.log eps) := le_trans (abs_nonneg _) (tps_clamp 0 le_rfl)
    refine mul_le_mul_of_nonneg_left ?_ hδ
    rw [List.length_map]; exact_mod_cast hD.length_le

/-- A `lu_factor` that returns zeros. -/
def zeroLu : ℕ → Mat → LuOut := fun _ _ => ⟨fun _ _ => 0, fun i => i⟩

/-- For the linear kernel the claim is false, always: with distinct points and `eta = 0`, after adding at least one point to
a fitted interpolant the next prediction calls `lu_factor` (it would raise if that returned zeros). -/
theorem C91_linear_refuted (lb ub : Pt d) (hb : ∀ i, lb i < ub i) (tail : Tail d)
    (htail : tail = constantTail d ∨ tail = linearTail d) (trans : List ℝ → List ℝ)
    (lu : ℕ → Mat → LuOut) (chol : ℕ → Mat → Option Mat) (hlu : LuSpec lu) (hchol : CholSpec chol)
    (ops : List (Op d)) (x : Pt d) (xx : XIn) (fx : FIn) (D : List (Pt d × ℝ)) (hD : accepted d xx fx = some D) (hD0 : D ≠ [])
    (hops : NoMultiColumn (ops ++ [.predict x, .add xx fx]))
    (hpts : ((dataOf d (ops ++ [.predict x, .add xx fx])).map Prod.fst).Nodup) :
    let p : Par d := ⟨lb, ub, linearKernel, tail, 0, trans, lu, chol⟩
    let p' : Par d := ⟨lb, ub, linearKernel, tail, 0, trans, zeroLu, chol⟩
    let s := rrun p (ops ++ [.predict x, .add xx fx])
    (predict p (rrun p ops) x).2 ≠ none → ∀ y, (predict p s y).2 ≠ none ∧ (predict p' s y).2 = none := by
  intro p p' s hx y
  have hneg : ∀ c : Fin s.Xu.length → ℝ, TailFree p' s.Xu c → c ≠ 0 → kform p' s.Xu c < 0 := by
    intro c hc hne
    have hs := (rrun_good p hlu hchol _ hops).2.Xu
    have hinj : Function.Injective s.Xu.get := by
      show Function.Injective (rrun p (ops ++ [.predict x, .add xx fx])).Xu.get
      rw [hs]
      exact unitBox_get_injective lb ub hb _ hpts
    have hsum : ∑ i, c i = 0 := by
      rcases htail with h | h
      · subst h; exact constantTail_constraints (fun i => s.Xu.get i) c hc
      · subst h; exact (linearTail_constraints (fun i => s.Xu.get i) c hc).1
    have := linear_form s.Xu.get hinj c hsum hne
    show ∑ i, ∑ j, c i * c j * eucl (s.Xu.get i) (s.Xu.get j) + 0 * ∑ i, c i ^ 2 < 0
    linarith
  have hops0 : NoMultiColumn ops := fun xx fx h => hops xx fx (by simp [h])
  have hg0 := rrun_good p hlu hchol ops hops0
  have hgs := rrun_good p hlu hchol (ops ++ [.predict x, .add xx fx]) hops
  obtain ⟨F, hF, hk, hnb⟩ := predict_model p hlu hchol _ hg0.1 x hx
  obtain ⟨_, _, hXu, _, hnum, _⟩ := fit_spec p hlu hchol _ hg0.1
  have hse : s = (addPoints lb ub (Surrogate.fit p (rrun p ops)).st xx fx).st := by
    show rrun p (ops ++ [.predict x, .add xx fx]) = _
    rw [rrun_append]; rfl
  rw [(C46_accepted lb ub _ xx fx D hD).2] at hse
  have hmodel : s.model = some F := by rw [hse]; exact hF
  have hnbs : ¬ Bad p s.model := by rw [hmodel, ← hF]; exact hnb
  have hupd : s.updated = false := by rw [hse]
  have hnew : F.k < s.numPts := by
    rw [hse]
    show F.k < _ + _
    rw [hk, hnum, hg0.1.num]
    have := List.length_pos_iff.mpr hD0
    omega
  have hgood' : Good p' s := ⟨hgs.1.num, hgs.1.fac, hgs.1.upd⟩
  have hinit : ∀ q : Par d, Good q s → CholSpec q.chol → ¬ Bad q s.model →
      (∀ c, TailFree q s.Xu c → c ≠ 0 → kform q s.Xu c < 0) →
      fitNew q s = fitInit q s := fun q h1 h2 hb h3 => fit_scratch q h2 s h1 hb F hmodel hnew h3
  constructor
  · rw [Ne, (C48_solves p hlu hchol _ hops y).1, or_iff_left ((bad_iff p hlu hchol _ hops).not.mp hnbs)]
    have hdata : dataOf d ops <+: dataOf d (ops ++ [.predict x, .add xx fx]) := by
      have e : ops ++ [.predict x, .add xx fx] = (ops ++ [.predict x]) ++ [.add xx fx] := by simp
      rw [e]
      exact (dataOf_prefix ops _ (by simp)).trans (dataOf_prefix _ _ (by simp))
    have hdet0 : sysDet p ((dataOf d ops).map fun q => toUnitBox q.1 p.lb p.ub) ≠ 0 :=
      (predict_solves p hlu hchol ops hops0 x hx).1
    rw [← hgs.2.Xu]
    refine sysDet_ne_zero p _ (fun c hc hne => (hneg c hc hne).ne) fun w hw => ?_
    by_contra hw0
    refine hdet0 (sysDet_eq_zero p _ w hw0 fun z hz => hw z ?_)
    rw [hgs.2.Xu]
    exact (hdata.map _).subset hz
  · have h1 := hinit p' hgood' hchol hnbs hneg
    have h2 : (fitInit p' s).raised = true := by
      unfold fitInit
      split
      · unfold solveCoef
        simp only
        split
        · rfl
        · rw [if_pos]
          refine ⟨0, ?_, ?_⟩
          · show 0 < tail.dimTail + s.numPts
            omega
          · show upperOf (fun _ _ => 0) 0 0 = 0
            unfold upperOf; simp
      · rfl
    unfold predict Surrogate.fit
    rw [hupd, h1]
    simp [h2]

/-! ## Examples -/

/-- C91 applies to the default interpolant: after the history `demoHist` and a prediction, two more points (one of them
repeated) and predictions. -/
example (v w : ℝ) (lu' : ℕ → Mat → LuOut) : ∃ lu chol, LuSpec lu ∧ CholSpec chol ∧ CholComplete chol ∧
    let p := demoPar lu chol fun f => f
    let more : List (Op 2) := [.add (.vec [1, 1]) (.float 4), .predict 0, .add (.vec [1, 1]) (.float 5)]
    run p.lb p.ub (fun _ => none) (Surrogate.fit (demoPar lu' chol fun f => f)) (rrun p (demoHist v w ++ [.predict 0])) more =
      rrun p (demoHist v w ++ .predict 0 :: more) ∧
    (predict (demoPar lu' chol fun f => f) (rrun p (demoHist v w ++ .predict 0 :: more)) 0).2 ≠ none := by
  obtain ⟨lu, chol, h1, h2, h3⟩ := exists_library_complete
  refine ⟨lu, chol, h1, h2, h3, ?_⟩
  intro p more
  have := C91_cubic ![0, -1] ![2, 3] (by intro i; fin_cases i <;> norm_num) 1e-6 (by norm_num) (fun f => f) lu chol h1 h2 h3
    (demoHist v w) more 0 (by
      intro xx fx h
      rcases List.mem_append.mp h with h | h
      · exact demoHist_ok v w xx fx h
      · simp only [more, List.mem_cons, List.not_mem_nil, or_false] at h
        rcases h with h | h | h | h <;> cases h <;> trivial) (by simp [NoReset, more]) (.inl (by norm_num)) lu'
    (demoHist_fit lu chol h1 h2 _ v w 0)
  refine ⟨this.1, ?_⟩
  have h := this.2 0
  exact (congrArg Prod.snd h.1).trans_ne h.2

/-- The refutation applies: one point, prediction, a second point. -/
example : ∃ lu chol, LuSpec lu ∧ CholSpec chol ∧
    let p : Par 1 := ⟨fun _ => 0, fun _ => 1, linearKernel, constantTail 1, 0, fun f => f, lu, chol⟩
    (predict { p with lu := zeroLu } (rrun p [.add (.vec [0]) (.float 1), .predict 0, .add (.vec [1]) (.float 2)]) 0).2 = none := by
  obtain ⟨lu, chol, h1, h2, _⟩ := exists_library
  refine ⟨lu, chol, h1, h2, ?_⟩
  have hd1 : dataOf 1 [.add (.vec [0]) (.float 1)] = [((fun _ => 0), 1)] := by
    simp only [dataOf, List.foldl_cons, List.foldl_nil, accepted, pointsOf, valuesOf, List.length_cons, List.length_nil]
    simp
  have hd2 : dataOf 1 ([.add (.vec [0]) (.float 1)] ++ [.predict 0, .add (.vec [1]) (.float 2)]) =
      [((fun _ => 0), 1), ((fun _ => 1), 2)] := by
    simp only [dataOf, List.cons_append, List.nil_append, List.foldl_cons, List.foldl_nil, accepted, pointsOf, valuesOf,
      List.length_cons, List.length_nil]
    simp
  have hne : ((fun _ => 0) : Pt 1) ≠ fun _ => 1 := fun h => by have := congrFun h 0; norm_num at this
  refine (C91_linear_refuted (fun _ => 0) (fun _ => 1) (by simp) (constantTail 1) (.inl rfl) (fun f => f) lu chol h1 h2
    [.add (.vec [0]) (.float 1)] 0 (.vec [1]) (.float 2) [((fun _ => 1), 2)] ?_ (by simp) ?_ ?_ ?_ 0).2
  · simp [accepted, pointsOf, valuesOf]
  · intro xx fx h
    simp only [List.cons_append, List.nil_append, List.mem_cons, List.not_mem_nil, or_false] at h
    rcases h with h | h | h <;> cases h <;> trivial
  · rw [hd2]; simp [hne]
  · have h1o : NoMultiColumn ([.add (.vec [0]) (.float 1)] : List (Op 1)) := by
      intro xx fx h
      simp only [List.mem_cons, List.not_mem_nil, or_false] at h
      cases h; trivial
    rw [Ne, (C78_linear_partial (fun _ => 0) (fun _ => 1) (by simp) (fun f => f) lu chol h1 h2 _ h1o 0 (by rw [hd1]; simp)).1,
      hd1]
    simp

end Verif.Props
