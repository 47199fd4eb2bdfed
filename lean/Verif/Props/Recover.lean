import Verif.Props.Incremental

/-! # Property C94: what remains of a fit that failed -/

namespace Verif.Props

open Verif.Num Verif.Utils Verif.Surrogate Finset

variable {d : ℕ}

/-- After `reset` the interpolant is a new one, whatever happened before. -/
theorem C94_reset (p : Par d) (ops more : List (Op d)) : rrun p (ops ++ .reset :: more) = rrun p more := by
  unfold rrun run
  rw [List.foldl_append, List.foldl_cons]
  rfl

/-- A prediction with fewer points than the tail has basis functions raises, and does no harm: the interpolant is the same
as if it had not been asked. -/
theorem C94_few (p : Par d) (hlu : LuSpec p.lu) (hchol : CholSpec p.chol) (ops : List (Op d)) (hops : NoMultiColumn ops)
    (hfew : (dataOf d ops).length < p.tail.dimTail) (x : Pt d) :
    (predict p (rrun p ops) x).2 = none ∧ ∀ more, rrun p (ops ++ .predict x :: more) = rrun p (ops ++ more) := by
  obtain ⟨hg, hh⟩ := rrun_good p hlu hchol ops hops
  have hl : (rrun p ops).Xu.length = (dataOf d ops).length := by rw [hh.Xu, List.length_map]
  have hm : (rrun p ops).model = none := by
    rcases hm : (rrun p ops).model with _ | F
    · rfl
    · obtain ⟨_, h1, h2, _⟩ := hg.fac F hm
      omega
  have hu : (rrun p ops).updated = false := by
    by_contra hu
    obtain ⟨F, h1, _⟩ := hg.upd (by simpa using hu)
    rw [hm] at h1
    simp at h1
  have hf : Surrogate.fit p (rrun p ops) = ⟨rrun p ops, true⟩ := by
    have hi : fitNew p (rrun p ops) = ⟨none, true⟩ := by
      unfold fitNew
      rw [hm]
      simp only
      unfold fitInit
      rw [if_neg (by have := hg.num; omega)]
    unfold Surrogate.fit
    rw [if_neg (by simp [hu]), hi]
    simp only [Bool.not_true]
    rw [← hm, ← hu]
  refine ⟨by unfold predict; rw [hf]; simp, fun more => ?_⟩
  unfold rrun run at hf ⊢
  rw [List.foldl_append, List.foldl_append, List.foldl_cons]
  congr 1
  simp only [step]
  rw [hf]

/-- A fit that failed for another reason (the system was singular) is never forgotten: until the next `reset` every
prediction raises, whatever points are added. -/
theorem C94_stuck_refuted (p : Par d) (hlu : LuSpec p.lu) (hchol : CholSpec p.chol) (ops more : List (Op d)) (x y : Pt d)
    (hops : NoMultiColumn (ops ++ .predict x :: more)) (hmore : NoReset more)
    (henough : p.tail.dimTail ≤ (dataOf d ops).length) (hx : (predict p (rrun p ops) x).2 = none) :
    (predict p (rrun p (ops ++ .predict x :: more)) y).2 = none :=
  (C48_solves p hlu hchol _ hops y).1.mpr (.inr ⟨ops, x, more, rfl, hmore, henough, hx⟩)

/-- The positive part: unless a prediction with enough points raised since the last `reset`, the interpolant behaves like a
new one that is given all the data at once, for this prediction and for everything that follows up to the next failure. -/
theorem C94_usable_partial (p : Par d) (hlu : LuSpec p.lu) (hchol : CholSpec p.chol) (ops more : List (Op d))
    (hops : NoMultiColumn (ops ++ more)) (hff : ¬ FailedFit p (ops ++ more)) (y : Pt d) :
    (predict p (rrun p (ops ++ more)) y).2 = (predict p (rrun p (scratch (dataOf d (ops ++ more)))) y).2 :=
  (C48_scratch_partial p hlu hchol _ hops y).1 hff

/-! ## A concrete failure -/

/-- Three points on the side `x = lb` of the unit square, a prediction, then a fourth point off that side. -/
noncomputable def edgeHist : List (Op 2) :=
  [.add (.mat 3 2 ![![0, 0], ![0, 1], ![0, 1 / 2]]) (.arr1 [1, 2, 3]), .predict 0, .add (.vec [1, 0]) (.float 4)]

theorem edgeHist_ok : NoMultiColumn edgeHist := by
  intro xx fx h
  simp only [edgeHist, List.mem_cons, List.not_mem_nil, or_false] at h
  rcases h with h | h | h <;> cases h <;> trivial

theorem edgeHist_data : dataOf 2 edgeHist = [(![0, 0], 1), (![0, 1], 2), (![0, 1 / 2], 3), (![1, 0], 4)] := by
  have h2 : ∀ a b : ℝ, (fun i : Fin 2 => ([a, b] : List ℝ)[i]) = ![a, b] := by
    intro a b; funext i; fin_cases i <;> rfl
  simp only [edgeHist, dataOf, List.foldl_cons, List.foldl_nil, accepted, pointsOf, valuesOf, dite_true, List.length_cons,
    List.length_nil]
  simp [List.ofFn_succ]
  exact h2 1 0

theorem edgeHist_fails : FailedOnHyperplane edgeHist := by
  refine ⟨[.add (.mat 3 2 ![![0, 0], ![0, 1], ![0, 1 / 2]]) (.arr1 [1, 2, 3])], 0, [.add (.vec [1, 0]) (.float 4)], rfl,
    by simp, ?_, ?_⟩
  · simp [dataOf, accepted, pointsOf, valuesOf, List.ofFn_succ]
  · refine ⟨![1, 0], 0, fun h => by have := congrFun h 0; simp at this, fun x hx => ?_⟩
    simp only [dataOf, List.foldl_cons, List.foldl_nil, accepted, pointsOf, valuesOf, dite_true] at hx
    simp [List.ofFn_succ] at hx
    rcases hx with rfl | rfl | rfl <;> simp [Fin.sum_univ_two]

/-- The default interpolant (cubic kernel, linear tail, `eta = 1e-6`) on the unit square: a prediction with three points on
one side raises; when a fourth point is added every prediction still raises, though a new interpolant with the same four
points can be fitted. -/
theorem C94_refuted (trans : List ℝ → List ℝ) (lu : ℕ → Mat → LuOut) (chol : ℕ → Mat → Option Mat) (hlu : LuSpec lu)
    (hchol : CholSpec chol) (x : Pt 2) :
    let p : Par 2 := ⟨fun _ => 0, fun _ => 1, cubicKernel, linearTail 2, 1e-6, trans, lu, chol⟩
    (predict p (rrun p edgeHist) x).2 = none ∧ (predict p (rrun p (scratch (dataOf 2 edgeHist))) x).2 ≠ none := by
  intro p
  constructor
  · exact (C77_cubic _ _ (by simp) _ (by norm_num) trans lu chol hlu hchol _ edgeHist_ok x (.inl (by norm_num))).mpr
      (.inr (.inr edgeHist_fails))
  · rw [Ne, C77_cubic _ _ (by simp) _ (by norm_num) trans lu chol hlu hchol _ (scratch_ok _) x (.inl (by norm_num)),
      scratch_data, edgeHist_data]
    rintro (h | h | ⟨o₁, y, o₂, h, _⟩)
    · simp at h
    · exact not_onHyperplane_tri _ (by simp) (by simp) (by simp) h
    · have : Op.predict y ∈ o₁ ++ .predict y :: o₂ := by simp
      rw [← h] at this
      simp [scratch] at this

/-- Hence incremental fitting is not always the same as fitting from scratch: the system of the four points is nonsingular,
but the interpolant that was asked too early raises. -/
theorem C48_refuted (trans : List ℝ → List ℝ) (lu : ℕ → Mat → LuOut) (chol : ℕ → Mat → Option Mat) (hlu : LuSpec lu)
    (hchol : CholSpec chol) (x : Pt 2) :
    let p : Par 2 := ⟨fun _ => 0, fun _ => 1, cubicKernel, linearTail 2, 1e-6, trans, lu, chol⟩
    sysDet p ((dataOf 2 edgeHist).map fun q => toUnitBox q.1 p.lb p.ub) ≠ 0 ∧
    (predict p (rrun p edgeHist) x).2 ≠ (predict p (rrun p (scratch (dataOf 2 edgeHist))) x).2 := by
  intro p
  obtain ⟨h1, h2⟩ := C94_refuted trans lu chol hlu hchol x
  refine ⟨?_, by rw [h1]; exact Ne.symm h2⟩
  have := (predict_solves p hlu hchol _ (scratch_ok _) x h2).1
  rwa [scratch_data] at this

/-! ## An output transformation that raises -/

/-- A factorization that does not belong to the coefficients stays so until `reset`, and every prediction raises. -/
theorem mixed_stuck (p : Par d) (s : RSt d) (hu : s.updated = false) (F : Fac) (hF : s.model = some F) (hne : F.n ≠ F.k)
    (more : List (Op d)) (hops : NoMultiColumn more) (hmore : NoReset more) (y : Pt d) :
    (predict p (run p.lb p.ub (fun _ => none) (Surrogate.fit p) s more) y).2 = none := by
  have hfit : ∀ s : RSt d, s.updated = false → s.model = some F → Surrogate.fit p s = ⟨s, true⟩ := by
    intro s hu hF
    have : fitNew p s = ⟨some F, true⟩ := by
      unfold fitNew
      rw [hF]
      simp only
      rw [if_pos (.inl hne)]
    unfold Surrogate.fit
    rw [if_neg (by simp [hu]), this]
    simp only [Bool.not_true]
    rw [← hF, ← hu]
  have key : (run p.lb p.ub (fun _ => none) (Surrogate.fit p) s more).updated = false ∧
      (run p.lb p.ub (fun _ => none) (Surrogate.fit p) s more).model = some F := by
    induction more using List.reverseRecOn with
    | nil => exact ⟨hu, hF⟩
    | append_singleton more op ih =>
      obtain ⟨i1, i2⟩ := ih (fun xx fx h => hops xx fx (by simp [h])) (fun h => hmore (by simp [h]))
      unfold run at i1 i2 ⊢
      rw [List.foldl_append, List.foldl_cons, List.foldl_nil]
      cases op with
      | reset => exact absurd (by simp) hmore
      | add xx fx =>
        simp only [step]
        rcases ha : accepted d xx fx with _ | D
        · rw [(C46_refused_partial p.lb p.ub _ xx fx ha).2 (hops xx fx (by simp))]
          exact ⟨i1, i2⟩
        · rw [(C46_accepted p.lb p.ub _ xx fx D ha).2]
          exact ⟨rfl, i2⟩
      | predict z =>
        simp only [step]
        rw [hfit _ i1 i2]
        exact ⟨i1, i2⟩
  unfold predict
  rw [hfit _ key.1 key.2]
  simp

/-- The default interpolant after a successful prediction; points are added, and the output transformation raises once
during the next prediction.  From then on, with a transformation that works, every prediction raises until `reset`. -/
theorem C94_transformation_refuted (lb ub : Pt d) (hb : ∀ i, lb i < ub i) (eta : ℝ) (heta : 0 < eta) (trans : List ℝ → List ℝ)
    (lu : ℕ → Mat → LuOut) (chol : ℕ → Mat → Option Mat) (hlu : LuSpec lu) (hchol : CholSpec chol) (hcc : CholComplete chol)
    (ops : List (Op d)) (x : Pt d) (xx : XIn) (fx : FIn) (D : List (Pt d × ℝ)) (hD : accepted d xx fx = some D) (hD0 : D ≠ [])
    (hops : NoMultiColumn (ops ++ [.predict x, .add xx fx])) (more : List (Op d)) (hmc : NoMultiColumn more)
    (hmore : NoReset more) (y : Pt d) :
    let p : Par d := ⟨lb, ub, cubicKernel, linearTail d, eta, trans, lu, chol⟩
    (predict p (rrun p ops) x).2 ≠ none →
    (predict p (rrun p (ops ++ [.predict x, .add xx fx])) y).2 ≠ none ∧
    (predict p (run lb ub (fun _ => none) (Surrogate.fit p)
      (fitTransRaises p (rrun p (ops ++ [.predict x, .add xx fx]))) more) y).2 = none := by
  intro p hx
  have hops0 : NoMultiColumn ops := fun xx fx h => hops xx fx (by simp [h])
  have hg0 := rrun_good p hlu hchol ops hops0
  have hgs := rrun_good p hlu hchol (ops ++ [.predict x, .add xx fx]) hops
  obtain ⟨F, hF, hk, hnb⟩ := predict_model p hlu hchol _ hg0.1 x hx
  obtain ⟨_, _, hXu, _, hnum, _⟩ := fit_spec p hlu hchol _ hg0.1
  set s := rrun p (ops ++ [.predict x, .add xx fx]) with hs
  have hse : s = (addPoints lb ub (Surrogate.fit p (rrun p ops)).st xx fx).st := by
    rw [hs, rrun_append]; rfl
  rw [(C46_accepted lb ub _ xx fx D hD).2] at hse
  have hmodel : s.model = some F := by rw [hse]; exact hF
  have hnbs : ¬ Bad p s.model := by rw [hmodel, ← hF]; exact hnb
  have hupd : s.updated = false := by rw [hse]
  have hnew : F.k < s.numPts := by
    rw [hse]
    show F.k < _ + _
    rw [hk, hnum, hg0.1.num]
    have := List.length_pos_iff.mpr hD0
    omega
  have hpos : ∀ c, TailFree p s.Xu c → c ≠ 0 → 0 < kform p s.Xu c := fun c hc hne =>
    cubic_kform lb ub eta heta.le trans lu chol _ c hc hne (.inl heta)
  have hfe := fit_extends p hchol hcc s hgs.1 hnbs (by rw [hmodel]; simp) hpos lu
  refine ⟨by rw [Ne, predict_none_raised p hlu hchol s hgs.1, hfe.2.1]; simp, ?_⟩
  -- the Cholesky factorization succeeds
  obtain ⟨hnk, htk, hk', hf⟩ := hgs.1.fac F hmodel
  have hu := Good.udiag hnbs hmodel
  obtain ⟨C, hC⟩ := fit_chol p hcc s hgs.1 hnbs F hmodel hpos
  have hsn := hgs.1.num
  have hst : fitTransRaises p s = { s with
      model := some ⟨F.k, s.numPts, extL (p.tail.dimTail + F.k) F.L (l21 F.U (pNew p s.Xu F.k)) C,
        extU (p.tail.dimTail + F.k) F.U (u12 F.L F.piv (pNew p s.Xu F.k)) C,
        extPiv (p.tail.dimTail + F.k) F.piv, F.c⟩ } := by
    unfold fitTransRaises
    rw [if_neg (by simp [hupd]), hmodel]
    simp only
    rw [if_neg (by
      rintro (h | ⟨_, ⟨i, hi, h0⟩ | ⟨i, hi, h0⟩⟩)
      · exact h hnk
      · exact hu i hi h0
      · exact hf.ldiag i hi h0)]
    simp only [hC]
  rw [hst]
  set G : Fac := ⟨F.k, s.numPts, extL (p.tail.dimTail + F.k) F.L (l21 F.U (pNew p s.Xu F.k)) C,
        extU (p.tail.dimTail + F.k) F.U (u12 F.L F.piv (pNew p s.Xu F.k)) C,
        extPiv (p.tail.dimTail + F.k) F.piv, F.c⟩
  exact mixed_stuck p { s with model := some G } hupd G rfl (show s.numPts ≠ F.k by omega) more hmc hmore y

theorem scratch_new (p : Par d) (D : List (Pt d × ℝ)) :
    (rrun p (scratch D)).updated = false ∧ (rrun p (scratch D)).model = none := by
  obtain ⟨D', hD'⟩ : ∃ D', accepted d (.mat D.length d fun i j => D[i].1 j) (.arr1 (D.map Prod.snd)) = some D' := by
    simp [accepted, pointsOf, valuesOf]
  have : rrun p (scratch D) = (addPoints p.lb p.ub (rinit d) (.mat D.length d fun i j => D[i].1 j) (.arr1 (D.map Prod.snd))).st := rfl
  rw [this, (C46_accepted p.lb p.ub _ _ _ D' hD').2]
  exact ⟨rfl, rfl⟩

/-- By contrast, if the output transformation raises during a fit from scratch, no harm is done.  The linear kernel
(`eta = 0`) is always fitted from scratch: after the exception the interpolant is in the same state as a new one with the
same data. -/
theorem C94_transformation_linear (lb ub : Pt d) (hb : ∀ i, lb i < ub i) (trans : List ℝ → List ℝ) (tail : Tail d)
    (htail : tail = constantTail d ∨ tail = linearTail d)
    (lu : ℕ → Mat → LuOut) (chol : ℕ → Mat → Option Mat) (hlu : LuSpec lu) (hchol : CholSpec chol)
    (ops : List (Op d)) (x : Pt d) (xx : XIn) (fx : FIn) (D : List (Pt d × ℝ)) (hD : accepted d xx fx = some D) (hD0 : D ≠ [])
    (hops : NoMultiColumn (ops ++ [.predict x, .add xx fx]))
    (hpts : ((dataOf d (ops ++ [.predict x, .add xx fx])).map Prod.fst).Nodup) (more : List (Op d)) :
    let p : Par d := ⟨lb, ub, linearKernel, tail, 0, trans, lu, chol⟩
    (predict p (rrun p ops) x).2 ≠ none →
    run lb ub (fun _ => none) (Surrogate.fit p) (fitTransRaises p (rrun p (ops ++ [.predict x, .add xx fx]))) more =
      rrun p (scratch (dataOf d (ops ++ [.predict x, .add xx fx])) ++ more) := by
  intro p hx
  have hops0 : NoMultiColumn ops := fun xx fx h => hops xx fx (by simp [h])
  have hg0 := rrun_good p hlu hchol ops hops0
  have hgs := rrun_good p hlu hchol (ops ++ [.predict x, .add xx fx]) hops
  obtain ⟨F, hF, hk, hnb⟩ := predict_model p hlu hchol _ hg0.1 x hx
  obtain ⟨_, _, hXu, _, hnum, _⟩ := fit_spec p hlu hchol _ hg0.1
  have hsc := (rrun_good p hlu hchol _ (scratch_ok (dataOf d (ops ++ [.predict x, .add xx fx])))).2
  rw [scratch_data] at hsc
  set s := rrun p (ops ++ [.predict x, .add xx fx]) with hs
  have hse : s = (addPoints lb ub (Surrogate.fit p (rrun p ops)).st xx fx).st := by
    rw [hs, rrun_append]; rfl
  rw [(C46_accepted lb ub _ xx fx D hD).2] at hse
  have hmodel : s.model = some F := by rw [hse]; exact hF
  have hnbs : ¬ Bad p s.model := by rw [hmodel, ← hF]; exact hnb
  have hupd : s.updated = false := by rw [hse]
  have hnew : F.k < s.numPts := by
    rw [hse]
    show F.k < _ + _
    rw [hk, hnum, hg0.1.num]
    have := List.length_pos_iff.mpr hD0
    omega
  have hneg : ∀ c : Fin s.Xu.length → ℝ, TailFree p s.Xu c → c ≠ 0 → kform p s.Xu c < 0 := by
    intro c hc hne
    have hinj : Function.Injective s.Xu.get := by
      rw [hgs.2.Xu]
      exact unitBox_get_injective lb ub hb _ hpts
    have hsum : ∑ i, c i = 0 := by
      rcases htail with h | h
      · subst h; exact constantTail_constraints (fun i => s.Xu.get i) c hc
      · subst h; exact (linearTail_constraints (fun i => s.Xu.get i) c hc).1
    have := linear_form s.Xu.get hinj c hsum hne
    show ∑ i, ∑ j, c i * c j * eucl (s.Xu.get i) (s.Xu.get j) + 0 * ∑ i, c i ^ 2 < 0
    linarith
  obtain ⟨n1, n2⟩ := fit_noChol p hchol s hgs.1 hnbs F hmodel hnew hneg
  have hst : fitTransRaises p s = { s with model := none } := by
    unfold fitTransRaises
    rw [if_neg (by simp [hupd]), hmodel]
    simp only
    rw [if_neg n1]
    simp only [n2]
  have hscr : rrun p (scratch (dataOf d (ops ++ [.predict x, .add xx fx]))) = { s with model := none } := by
    set t := rrun p (scratch (dataOf d (ops ++ [.predict x, .add xx fx]))) with ht
    have h1 : t.updated = false ∧ t.model = none := scratch_new p _
    obtain ⟨a1, a2, a3, a4⟩ := hsc
    obtain ⟨b1, b2, b3, b4⟩ := hgs.2
    obtain ⟨n, X, Xu, fX, u, m⟩ := t
    obtain ⟨n', X', Xu', fX', u', m'⟩ := s
    simp only at a1 a2 a3 a4 b1 b2 b3 b4 h1 hupd ⊢
    rw [a1, a2, a3, a4, b1, b2, b3, b4, h1.1, h1.2, hupd]
  rw [hst, rrun_append, hscr]

/-- The hypotheses are met: the history `demoHist`, a prediction, and a further point. -/
example (v w : ℝ) : ∃ lu chol, LuSpec lu ∧ CholSpec chol ∧ CholComplete chol ∧
    (predict (demoPar lu chol fun f => f) (rrun (demoPar lu chol fun f => f) (demoHist v w)) 0).2 ≠ none ∧
    accepted 2 (.vec [1, 1]) (.float 4) = some [((fun i => ([1, 1] : List ℝ)[i]), 4)] := by
  obtain ⟨lu, chol, h1, h2, h3⟩ := exists_library_complete
  exact ⟨lu, chol, h1, h2, h3, demoHist_fit lu chol h1 h2 _ v w 0, by simp [accepted, pointsOf, valuesOf]⟩

/-- `C94_few` applies to two points in the plane. -/
example : (dataOf 2 [.add (.vec [1, 1]) (.float 4), .add (.vec [0, 1]) (.float 4)]).length < (linearTail 2).dimTail := by
  simp [dataOf, accepted, pointsOf, valuesOf, linearTail]

end Verif.Props
