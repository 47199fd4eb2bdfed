import Verif.Props.SopRenumber

/-! # The surrogates and the orientation of the variables (for C144) -/

namespace Verif.Props

open Verif.Num Verif.Utils Verif.Cand Verif.Design Verif.Strategy Verif.Spec Verif.Loop Verif.Sop

variable {d : ℕ}

theorem mirrorUnit_mirrorUnit (ε : Fin d → Bool) (u : Pt d) : mirrorUnit ε (mirrorUnit ε u) = u := by
  funext i
  unfold mirrorUnit
  split_ifs
  · ring
  · rfl

/-- The tail at the mirrored point. -/
structure TailMirror (ε : Fin d → Bool) (tail : Surrogate.Tail d) (T : (ℕ → ℝ) → ℕ → ℝ) : Prop where
  eval : ∀ b y, ∑ k ∈ Finset.range tail.dimTail, tail.eval (mirrorUnit ε y) k * T b k =
    ∑ k ∈ Finset.range tail.dimTail, tail.eval y k * b k
  ne : ∀ b, (∃ k < tail.dimTail, b k ≠ 0) → ∃ k < tail.dimTail, T b k ≠ 0
  orth : ∀ (n : ℕ) (lam : Fin n → ℝ) (u : Fin n → Pt d), (∀ k < tail.dimTail, ∑ i, lam i * tail.eval (u i) k = 0) →
    ∀ k < tail.dimTail, ∑ i, lam i * tail.eval (mirrorUnit ε (u i)) k = 0

theorem linear_sum (b : ℕ → ℝ) (y : Pt d) :
    ∑ k ∈ Finset.range (Surrogate.linearTail d).dimTail, (Surrogate.linearTail d).eval y k * b k =
      b 0 + ∑ i : Fin d, y i * b (i + 1) := by
  show ∑ k ∈ Finset.range (1 + d), (Surrogate.linearTail d).eval y k * b k = _
  rw [add_comm 1 d, Finset.sum_range_succ', add_comm, Finset.sum_range]
  congr 1
  · simp [Surrogate.linearTail]
  · refine Finset.sum_congr rfl fun i _ => ?_
    have : 1 ≤ (i : ℕ) + 1 ∧ (i : ℕ) + 1 < 1 + d := ⟨by omega, by have := i.2; omega⟩
    simp only [Surrogate.linearTail, this, and_self, dif_pos, Nat.add_sub_cancel]

/-- The coefficients of the mirrored tail. -/
noncomputable def mirrorCoef (ε : Fin d → Bool) (b : ℕ → ℝ) : ℕ → ℝ
  | 0 => b 0 + ∑ i : Fin d, if ε i then b (i + 1) else 0
  | k + 1 => if h : k < d then (if ε ⟨k, h⟩ then -b (k + 1) else b (k + 1)) else b (k + 1)

theorem tail_mirror (ε : Fin d → Bool) {tail : Surrogate.Tail d}
    (hT : tail = Surrogate.constantTail d ∨ tail = Surrogate.linearTail d) : ∃ T, TailMirror ε tail T := by
  rcases hT with rfl | rfl
  · exact ⟨fun b => b, fun _ _ => rfl, fun _ h => h, fun n lam u h k hk => h k hk⟩
  · refine ⟨mirrorCoef ε, fun b y => ?_, fun b => ?_, fun n lam u h k hk => ?_⟩
    · rw [linear_sum, linear_sum]
      simp only [mirrorCoef, Fin.is_lt, dif_pos, Fin.eta]
      rw [add_assoc, ← Finset.sum_add_distrib]
      congr 1
      refine Finset.sum_congr rfl fun i _ => ?_
      unfold mirrorUnit
      split_ifs <;> ring
    · rintro ⟨k, hk, hb⟩
      by_contra hall
      push Not at hall
      have h1 : ∀ i : Fin d, b (i + 1) = 0 := by
        intro i
        have := hall (i + 1) (by have := i.2; show (i : ℕ) + 1 < 1 + d; omega)
        simp only [mirrorCoef, Fin.is_lt, dif_pos, Fin.eta] at this
        split_ifs at this
        · simpa using this
        · exact this
      have h0 := hall 0 (by show 0 < 1 + d; omega)
      simp only [mirrorCoef, h1, ite_self, Finset.sum_const_zero, add_zero] at h0
      cases k with
      | zero => exact hb h0
      | succ k => exact hb (h1 ⟨k, by have : k + 1 < 1 + d := hk; omega⟩)
    · by_cases hk0 : 1 ≤ k
      · have hi : k - 1 < d := by have : k < 1 + d := hk; omega
        have hev : ∀ y : Pt d, (Surrogate.linearTail d).eval y k = y ⟨k - 1, hi⟩ := fun y => by
          have : 1 ≤ k ∧ k < 1 + d := ⟨hk0, hk⟩
          simp only [Surrogate.linearTail, this, and_self, dif_pos]
        have e0 := h 0 (by show 0 < 1 + d; omega)
        have e1 := h k hk
        simp only [hev] at e1 ⊢
        have : ∀ y : Pt d, (Surrogate.linearTail d).eval y 0 = 1 := fun y => by simp [Surrogate.linearTail]
        simp only [this, mul_one] at e0
        unfold mirrorUnit
        split_ifs
        · simp only [mul_sub, mul_one, Finset.sum_sub_distrib, e0, e1, sub_zero]
        · exact e1
      · obtain rfl : k = 0 := by omega
        have : ∀ y : Pt d, (Surrogate.linearTail d).eval y 0 = 1 := fun y => by simp [Surrogate.linearTail]
        have e0 := h 0 hk
        simp only [this] at e0 ⊢
        exact e0

/-- The parameters of the mirrored surrogate. -/
noncomputable def mirrorPar (ε : Fin d → Bool) (p : Surrogate.Par d) : Surrogate.Par d :=
  { p with lb := fun i => if ε i then -p.ub i else p.lb i
           ub := fun i => if ε i then -p.lb i else p.ub i }

theorem coef_mirror (ε : Fin d → Bool) (p : Surrogate.Par d) (hb : ∀ i, p.lb i < p.ub i) {T : (ℕ → ℝ) → ℕ → ℝ}
    (hT : TailMirror ε p.tail T) (D : List (Pt d × ℝ)) {v lam b : ℕ → ℝ} (h : Surrogate.Coef p D v lam b) :
    Surrogate.Coef (mirrorPar ε p) (mirrorData ε D) v lam (T b) ∧
      ∀ y, Surrogate.kernelPart (mirrorPar ε p) (mirrorData ε D) lam (mirrorUnit ε y) +
          Surrogate.tailPart (mirrorPar ε p) (T b) (mirrorUnit ε y) =
        Surrogate.kernelPart p D lam y + Surrogate.tailPart p b y := by
  have hlen : (mirrorData ε D).length = D.length := by simp [mirrorData]
  let e : Fin D.length ≃ Fin (mirrorData ε D).length := (finCongr hlen).symm
  have hget : ∀ i : Fin D.length, toUnitBox (mirrorData ε D)[e i].1 (mirrorPar ε p).lb (mirrorPar ε p).ub =
      mirrorUnit ε (toUnitBox D[i].1 p.lb p.ub) := by
    intro i
    have : (mirrorData ε D)[e i].1 = mirror ε D[i].1 := by
      simp only [mirrorData, Fin.getElem_fin, List.getElem_map]
      rfl
    rw [this]; exact toUnitBox_mirror ε hb _
  have htail : ∀ y, Surrogate.tailPart (mirrorPar ε p) (T b) (mirrorUnit ε y) = Surrogate.tailPart p b y :=
    fun y => hT.eval b y
  have hker : ∀ y, Surrogate.kernelPart (mirrorPar ε p) (mirrorData ε D) lam (mirrorUnit ε y) =
      Surrogate.kernelPart p D lam y := by
    intro y
    unfold Surrogate.kernelPart
    rw [← Equiv.sum_comp e]
    refine Finset.sum_congr rfl fun i _ => ?_
    rw [hget, eucl_mirrorUnit]
    rfl
  refine ⟨⟨fun k hk => ?_, fun i => ?_⟩, fun y => by rw [hker, htail]⟩
  · rw [← Equiv.sum_comp e]
    have := hT.orth D.length (fun i => lam i) (fun i => toUnitBox D[i].1 p.lb p.ub) h.orth k hk
    refine Eq.trans (Finset.sum_congr rfl fun i _ => ?_) this
    rw [hget]
    rfl
  · obtain ⟨i, rfl⟩ := e.surjective i
    rw [hget, hker, htail]
    exact h.fits i

/-- RBF interpolants (every kernel, constant or linear tail, every output transformation): with mirrored bounds and data the
prediction at the mirrored point is the same, or both raise an exception. -/
theorem C144_rbf_orientation (ε : Fin d → Bool) (p : Surrogate.Par d) (hlu : Surrogate.LuSpec p.lu)
    (hchol : Surrogate.CholSpec p.chol) (hb : ∀ i, p.lb i < p.ub i)
    (hT : p.tail = Surrogate.constantTail d ∨ p.tail = Surrogate.linearTail d) (D : List (Pt d × ℝ)) :
    (rbfSurr p).MirrorAt ε (rbfSurr { p with
      lb := fun i => if ε i then -p.ub i else p.lb i
      ub := fun i => if ε i then -p.lb i else p.ub i }) D := by
  obtain ⟨T, hTm⟩ := tail_mirror ε hT
  have hvals : (mirrorData ε D).map Prod.snd = D.map Prod.snd := by simp [mirrorData, List.map_map, Function.comp_def]
  have key1 : ∀ (p : Surrogate.Par d) (_ : Surrogate.LuSpec p.lu) (_ : Surrogate.CholSpec p.chol) (_ : ∀ i, p.lb i < p.ub i)
      (_ : p.tail = Surrogate.constantTail d ∨ p.tail = Surrogate.linearTail d) (D : List (Pt d × ℝ)) (x : Pt d),
      (Surrogate.predict p (Surrogate.rrun p (scratch D)) x).2 = none →
      (Surrogate.predict (mirrorPar ε p) (Surrogate.rrun (mirrorPar ε p) (scratch (mirrorData ε D))) (mirror ε x)).2 = none := by
    intro p hlu hchol hb hT D x h
    obtain ⟨T, hTm⟩ := tail_mirror ε hT
    rw [Surrogate.predict_none_coef p hlu hchol _ (scratch_ok _) (scratch_noFail _ _)] at h
    rw [Surrogate.predict_none_coef (mirrorPar ε p) hlu hchol _ (scratch_ok _) (scratch_noFail _ _)]
    rw [scratch_data] at h ⊢
    obtain ⟨lam, b, hc, hne⟩ := h
    refine ⟨lam, _, (coef_mirror ε p hb hTm D hc).1, ?_⟩
    rcases hne with ⟨i, hi, hne⟩ | hne
    · exact .inl ⟨i, by simpa [mirrorData] using hi, hne⟩
    · exact .inr (hTm.ne b hne)
  have hb' : ∀ i, (mirrorPar ε p).lb i < (mirrorPar ε p).ub i := by
    intro i
    have := hb i
    show (if ε i then -p.ub i else p.lb i) < (if ε i then -p.lb i else p.ub i)
    split_ifs
    · linarith
    · exact this
  have hpp : mirrorPar ε (mirrorPar ε p) = p := by
    have a : (fun i => if ε i then -(mirrorPar ε p).ub i else (mirrorPar ε p).lb i) = p.lb := by
      funext i
      simp only [mirrorPar]
      split_ifs <;> simp
    have b : (fun i => if ε i then -(mirrorPar ε p).lb i else (mirrorPar ε p).ub i) = p.ub := by
      funext i
      simp only [mirrorPar]
      split_ifs <;> simp
    unfold mirrorPar at a b ⊢
    simp only at a b ⊢
    rw [a, b]
  have h : ∀ x : Pt d, (Surrogate.predict (mirrorPar ε p) (Surrogate.rrun (mirrorPar ε p) (scratch (mirrorData ε D)))
      (mirror ε x)).2 = (Surrogate.predict p (Surrogate.rrun p (scratch D)) x).2 := by
    intro x
    by_cases hn : (Surrogate.predict p (Surrogate.rrun p (scratch D)) x).2 = none
    · rw [hn]; exact key1 p hlu hchol hb hT D x hn
    · have hn' : (Surrogate.predict (mirrorPar ε p) (Surrogate.rrun (mirrorPar ε p) (scratch (mirrorData ε D))) (mirror ε x)).2 ≠ none := by
        intro h'
        apply hn
        have := key1 (mirrorPar ε p) hlu hchol hb' hT (mirrorData ε D) (mirror ε x) h'
        have e1 : mirrorData ε (mirrorData ε D) = D := by
          simp only [mirrorData, List.map_map, Function.comp_def, mirror_mirror]
          simp
        rw [e1, hpp, mirror_mirror] at this
        exact this
      obtain ⟨lam, b, hc⟩ := Surrogate.exists_coef p hlu hchol _ (scratch_ok _) ⟨x, hn⟩
      have e := Surrogate.predict_coef p hlu hchol _ (scratch_ok _) ⟨x, hn⟩ lam b hc x
      rw [scratch_data] at hc e
      obtain ⟨hc', hk⟩ := coef_mirror ε p hb hTm D hc
      have e' := Surrogate.predict_coef (mirrorPar ε p) hlu hchol _ (scratch_ok (mirrorData ε D)) ⟨mirror ε x, hn'⟩ lam (T b)
        (by rw [scratch_data, hvals]; exact hc') (mirror ε x)
      rw [scratch_data, show toUnitBox (mirror ε x) (mirrorPar ε p).lb (mirrorPar ε p).ub = mirrorUnit ε (toUnitBox x p.lb p.ub) from
        toUnitBox_mirror ε hb x] at e'
      rw [e, e']
      exact congrArg some (hk (toUnitBox x p.lb p.ub))
  refine ⟨?_, rfl⟩
  show ((rbfSurr (mirrorPar ε p)).mean (mirrorData ε D)).map _ = _
  simp only [rbfSurr]
  by_cases hn : ∃ x, (Surrogate.predict p (Surrogate.rrun p (scratch D)) x).2 = none
  · obtain ⟨x, hx⟩ := hn
    have hn' : ∃ y, (Surrogate.predict (mirrorPar ε p) (Surrogate.rrun (mirrorPar ε p) (scratch (mirrorData ε D))) y).2 = none :=
      ⟨mirror ε x, by rw [h]; exact hx⟩
    rw [if_pos hn', if_pos ⟨x, hx⟩]; rfl
  · have hn' : ¬ ∃ y, (Surrogate.predict (mirrorPar ε p) (Surrogate.rrun (mirrorPar ε p) (scratch (mirrorData ε D))) y).2 = none := by
      rintro ⟨y, hy⟩
      rw [← mirror_mirror ε y, h] at hy
      exact hn ⟨_, hy⟩
    rw [if_neg hn, if_neg hn']
    simp only [Option.map_some, h]

/-- With an RBF interpolant nothing is assumed about the surrogate. -/
theorem C144_rbf_run_partial (ε : Fin d → Bool) (p : Surrogate.Par d) (hlu : Surrogate.LuSpec p.lu) (hchol : Surrogate.CholSpec p.chol)
    (hT : p.tail = Surrogate.constantTail d ∨ p.tail = Surrogate.linearTail d) (hp : ∀ i, p.lb i < p.ub i)
    (L : SopSetup d) (hL : L.base.srbf = none) (hb : ∀ i, L.prob.lb i < L.prob.ub i)
    (f f' : Pt d → Val) (hf : ∀ x, f' (fun i => if ε i then -x i else x i) = f x) (D : List (Pt d)) (es : List (SEv d))
    (hD : L.base.numPts ≤ D.length) (hr : ∀ r, SEv.propose r ∈ es → L.base.numPts ≤ r.design.length) :
    let S' := rbfSurr { p with lb := fun i => if ε i then -p.ub i else p.lb i, ub := fun i => if ε i then -p.lb i else p.ub i }
    (sopLoopRun L (rbfSurr p) f D es = none ↔
      sopLoopRun (L.mirror ε) S' f' (D.map fun x i => if ε i then -x i else x i)
        (es.map (SEv.map (fun x i => if ε i then -x i else x i) (CandRnd.mirror ε))) = none) ∧
    ∀ w, sopLoopRun L (rbfSurr p) f D es = some w →
      ∃ w', sopLoopRun (L.mirror ε) S' f' (D.map fun x i => if ε i then -x i else x i)
        (es.map (SEv.map (fun x i => if ε i then -x i else x i) (CandRnd.mirror ε))) = some w' ∧ MirrorRun ε w.sys w'.sys :=
  C144_orientation_partial ε L hL hb _ _ f f' hf D es hD hr fun _ w' _ _ => C144_rbf_orientation ε p hlu hchol hp hT (surrData w'.sys.st)

/-- The default Gaussian process, if the hyperparameters chosen for the mirrored data are the same. -/
theorem C144_gp_orientation (ε : Fin d → Bool) (lb ub : Pt d) (hb : ∀ i, lb i < ub i) (trans : List ℝ → List ℝ)
    (hyp hyp' : List (Pt d) → List ℝ → Surrogate.Hyper d)
    (hh : ∀ X y, hyp' (X.map fun u i => if ε i then 1 - u i else u i) y = hyp X y) (D : List (Pt d × ℝ)) :
    (gpSurr lb ub trans (gpReg hyp)).MirrorAt ε
      (gpSurr (fun i => if ε i then -ub i else lb i) (fun i => if ε i then -lb i else ub i) trans (gpReg hyp')) D := by
  have hkern : ∀ (θ : Surrogate.Hyper d) (x y : Pt d), θ.kern (mirrorUnit ε x) (mirrorUnit ε y) = θ.kern x y := by
    intro θ x y
    unfold Surrogate.Hyper.kern
    have : ∀ k, ((mirrorUnit ε x k - mirrorUnit ε y k) / θ.len k) ^ 2 = ((x k - y k) / θ.len k) ^ 2 := by
      intro k
      unfold mirrorUnit
      split_ifs
      · ring
      · rfl
    simp only [this]
  have hreg : ∀ (X : List (Pt d)) (y : List ℝ) (u : Pt d),
      gpReg hyp' (X.map (mirrorUnit ε)) y (mirrorUnit ε u) = gpReg hyp X y u := by
    intro X y u
    have hlen : (X.map (mirrorUnit ε)).length = X.length := List.length_map ..
    let e : Fin X.length ≃ Fin (X.map (mirrorUnit ε)).length := (finCongr hlen).symm
    have hX : (fun i => (fun i : Fin (X.map (mirrorUnit ε)).length => (X.map (mirrorUnit ε))[i]) (e i)) =
        fun i => mirrorUnit ε X[i] := by
      funext i
      simp [e]
    have hy : (fun i => (fun i : Fin (X.map (mirrorUnit ε)).length => y.getD i 0) (e i)) = fun i : Fin X.length => y.getD i 0 := by
      funext i; rfl
    have hcov : Surrogate.gpCov (hyp X y) (fun i : Fin X.length => mirrorUnit ε X[i]) =
        Surrogate.gpCov (hyp X y) fun i : Fin X.length => X[i] := by
      unfold Surrogate.gpCov
      simp only [hkern]
    have hvec : Surrogate.gpVec (hyp X y) (fun i : Fin X.length => mirrorUnit ε X[i]) (mirrorUnit ε u) =
        Surrogate.gpVec (hyp X y) (fun i : Fin X.length => X[i]) u := by
      unfold Surrogate.gpVec
      simp only [hkern]
    unfold gpReg
    rw [show hyp' (X.map (mirrorUnit ε)) y = _ from hh X y]
    rw [← Surrogate.gpMean_equiv _ _ _ _ e, ← Surrogate.gpVar_equiv _ _ _ e, hX, hy]
    simp only [Surrogate.gpMean, Surrogate.gpVar, hcov, hvec]
  have h1 : (mirrorData ε D).map Prod.snd = D.map Prod.snd := by simp [mirrorData, List.map_map, Function.comp_def]
  have h3 : ∀ x : Pt d, toUnitBox (mirror ε x) (fun i => if ε i then -ub i else lb i) (fun i => if ε i then -lb i else ub i) =
      mirrorUnit ε (toUnitBox x lb ub) := toUnitBox_mirror ε hb
  have h2 : (mirrorData ε D).map (fun e => toUnitBox e.1 (fun i => if ε i then -ub i else lb i) (fun i => if ε i then -lb i else ub i)) =
      (D.map fun e => toUnitBox e.1 lb ub).map (mirrorUnit ε) := by
    simp only [mirrorData, List.map_map, Function.comp_def, h3]
  constructor
  · simp only [gpSurr, h1, h2, h3, hreg, Option.map_some]
  · simp only [gpSurr, h1, h2, h3, hreg, Option.map_some]

end Verif.Props
