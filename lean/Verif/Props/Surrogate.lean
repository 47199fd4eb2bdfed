import Verif.Surrogate.Generic
import Verif.Surrogate.Exist
import Mathlib.Tactic.FinCases

/-! # Properties C46, C47, C48, C50: surrogate data and RBF fitting -/

namespace Verif.Props

open Verif.Num Verif.Utils Verif.Surrogate Finset

variable {d : ℕ} {M : Type}

/-! ## Specification of the data of a history of calls -/

/-- The values denoted by `fx`; `none` for a Python `int` and for arrays with more than one column. -/
def valuesOf : FIn → Option (List ℝ)
  | .float v => some [v]
  | .int _ => none
  | .arr0 v => some [v]
  | .arr1 l => some l
  | .arr2 _ m data => if h : m = 1 then some (List.ofFn fun i => data i ⟨0, by omega⟩) else none

/-- The points denoted by `xx`; `none` for the wrong dimension. -/
def pointsOf (d : ℕ) : XIn → Option (List (Pt d))
  | .vec x => if h : x.length = d then some [fun i => x[i]] else none
  | .mat _ m data => if h : m = d then some (List.ofFn fun i j => data i (Fin.cast h.symm j)) else none

/-- The data denoted by a call of `add_points`; `none` if the shapes do not fit. -/
def accepted (d : ℕ) (xx : XIn) (fx : FIn) : Option (List (Pt d × ℝ)) :=
  match pointsOf d xx, valuesOf fx with
  | some P, some V => if P.length = V.length then some (P.zip V) else none
  | _, _ => none

/-- The data after a history: those accepted since the last `reset`, in order. -/
def dataOf (d : ℕ) (ops : List (Op d)) : List (Pt d × ℝ) :=
  ops.foldl (fun D op => match op with
    | .add xx fx => D ++ (accepted d xx fx).getD []
    | .reset => []
    | .predict _ => D) []

/-- `fx` is not an array with several columns. -/
def OneColumn : FIn → Prop
  | .arr2 _ m _ => m = 1
  | _ => True

/-- No call of the history passes values with several columns. -/
def NoMultiColumn (ops : List (Op d)) : Prop := ∀ xx fx, Op.add xx fx ∈ ops → OneColumn fx

/-! ## C46 -/

theorem rows_points (xx : XIn) (P : List (Pt d)) (h : pointsOf d xx = some P) :
    xx.rows.2 = d ∧ xx.rows.1.map (toPt d) = P ∧ xx.rows.1.length = P.length := by
  cases xx with
  | vec x =>
    simp only [pointsOf] at h
    split at h
    · rename_i hx
      simp only [Option.some.injEq] at h
      subst h
      refine ⟨hx, ?_, by simp [XIn.rows]⟩
      simp only [XIn.rows, List.map_cons, List.map_nil]
      congr 1
      funext i
      have : (i : ℕ) < x.length := by rw [hx]; exact i.2
      simp [toPt, this]
    · simp at h
  | mat n m data =>
    simp only [pointsOf] at h
    split at h
    · rename_i hm
      subst hm
      simp only [Option.some.injEq] at h
      subst h
      refine ⟨rfl, ?_, by simp [XIn.rows]⟩
      simp only [XIn.rows, List.map_ofFn]
      congr 1
      funext i j
      simp [toPt]
    · simp at h

theorem rows_points_none (xx : XIn) (h : pointsOf d xx = none) : xx.rows.2 ≠ d := by
  cases xx with
  | vec x => simp only [pointsOf] at h; split at h <;> simp_all [XIn.rows]
  | mat n m data => simp only [pointsOf] at h; split at h <;> simp_all [XIn.rows]

theorem rows_values (fx : FIn) (V : List ℝ) (h : valuesOf fx = some V) :
    ∃ rows, fx.rows = some (rows, 1) ∧ rows.map (fun r => r.getD 0 0) = V ∧ rows.length = V.length := by
  cases fx with
  | float v => simp only [valuesOf, Option.some.injEq] at h; subst h; exact ⟨_, rfl, rfl, rfl⟩
  | int v => simp [valuesOf] at h
  | arr0 v => simp only [valuesOf, Option.some.injEq] at h; subst h; exact ⟨_, rfl, rfl, rfl⟩
  | arr1 l =>
    simp only [valuesOf, Option.some.injEq] at h; subst h
    refine ⟨_, rfl, ?_, by simp⟩
    rw [List.map_map]
    conv_rhs => rw [← List.map_id l]
    exact List.map_congr_left fun _ _ => rfl
  | arr2 n m data =>
    simp only [valuesOf] at h
    split at h
    · rename_i hm
      subst hm
      simp only [Option.some.injEq] at h; subst h
      refine ⟨_, rfl, ?_, by simp⟩
      rw [List.map_ofFn]
      congr 1
    · simp at h

theorem rows_values_none (fx : FIn) (h1 : OneColumn fx) (h : valuesOf fx = none) : fx.rows = none := by
  cases fx with
  | int v => rfl
  | arr2 n m data => simp only [OneColumn] at h1; simp [valuesOf, h1] at h
  | float v => simp [valuesOf] at h
  | arr0 v => simp [valuesOf] at h
  | arr1 l => simp [valuesOf] at h

/-- Well-shaped data are appended: points, unit-box points, values and count; the surrogate is then out of date, what was
fitted before is left alone. -/
theorem C46_accepted (lb ub : Pt d) (s : St d M) (xx : XIn) (fx : FIn) (D : List (Pt d × ℝ))
    (h : accepted d xx fx = some D) :
    (addPoints lb ub s xx fx).raised = false ∧
    (addPoints lb ub s xx fx).st =
      { numPts := s.numPts + D.length, X := s.X ++ D.map Prod.fst,
        Xu := (s.X ++ D.map Prod.fst).map fun x => toUnitBox x lb ub,
        fX := s.fX ++ D.map Prod.snd, updated := false, model := s.model } := by
  unfold accepted at h
  rcases hP : pointsOf d xx with _ | P <;> rcases hV : valuesOf fx with _ | V <;> rw [hP, hV] at h <;> simp only at h
  · simp at h
  · simp at h
  · simp at h
  · split at h
    · rename_i hl
      simp only [Option.some.injEq] at h
      subst h
      obtain ⟨a1, a2, a3⟩ := rows_points xx P hP
      obtain ⟨rows, b1, b2, b3⟩ := rows_values fx V hV
      have hz1 : (P.zip V).map Prod.fst = P := List.map_fst_zip hl.le
      have hz2 : (P.zip V).map Prod.snd = V := List.map_snd_zip hl.ge
      have hzl : (P.zip V).length = P.length := by simp [hl]
      unfold addPoints
      simp only [b1]
      rw [if_pos ⟨by omega, a1⟩]
      simp only [if_true, a2, b2, a3, hz1, hz2, hzl, and_self]
    · simp at h

/-- Everything else is refused; unless the values have several columns nothing changes. -/
theorem C46_refused_partial (lb ub : Pt d) (s : St d M) (xx : XIn) (fx : FIn) (h : accepted d xx fx = none) :
    (addPoints lb ub s xx fx).raised = true ∧ (OneColumn fx → (addPoints lb ub s xx fx).st = s) := by
  unfold accepted at h
  unfold addPoints
  rcases hf : fx.rows with _ | ⟨frows, fcols⟩
  · simp
  · simp only
    by_cases hc : xx.rows.1.length = frows.length ∧ xx.rows.2 = d
    · rw [if_pos hc]
      rcases hP : pointsOf d xx with _ | P
      · exact absurd hc.2 (rows_points_none xx hP)
      · obtain ⟨a1, a2, a3⟩ := rows_points xx P hP
        rcases hV : valuesOf fx with _ | V
        · by_cases ho : OneColumn fx
          · rw [rows_values_none fx ho hV] at hf; simp at hf
          · rw [if_neg]
            · exact ⟨rfl, fun h => absurd h ho⟩
            · intro h1
              apply ho
              cases fx <;> simp_all [OneColumn, FIn.rows]
        · obtain ⟨rows, b1, b2, b3⟩ := rows_values fx V hV
          rw [hf] at b1
          simp only [Option.some.injEq, Prod.mk.injEq] at b1
          rw [hP, hV] at h
          simp only at h
          rw [if_pos (by rw [← a3, hc.1, b1.1, b3])] at h
          simp at h
    · rw [if_neg hc]
      exact ⟨rfl, fun _ => rfl⟩

/-- Values with several columns are refused, but only after the points were stored: the surrogate then has a point without
value. -/
theorem C46_refuted : ∃ (s : St 1 Unit) (xx : XIn) (fx : FIn),
    s = { numPts := 0, X := [], Xu := [], fX := [], updated := false, model := () } ∧
    (addPoints (fun _ => 0) (fun _ => 1) s xx fx).raised = true ∧
    (addPoints (fun _ => 0) (fun _ => 1) s xx fx).st.X.length = 1 ∧
    (addPoints (fun _ => 0) (fun _ => 1) s xx fx).st.fX.length = 0 ∧
    (addPoints (fun _ => 0) (fun _ => 1) s xx fx).st.numPts = 0 := by
  refine ⟨_, .vec [0], .arr2 1 2 (fun _ _ => 0), rfl, ?_⟩
  simp [addPoints, FIn.rows, XIn.rows]

/-- `reset` forgets all data. -/
theorem C46_reset (clear : M → M) (s : St d M) :
    (reset clear s).numPts = 0 ∧ (reset clear s).X = [] ∧ (reset clear s).Xu = [] ∧ (reset clear s).fX = [] ∧
      (reset clear s).updated = false := ⟨rfl, rfl, rfl, rfl, rfl⟩

/-- The stored data are those of the list `D`. -/
structure Holds (lb ub : Pt d) (D : List (Pt d × ℝ)) (s : St d M) : Prop where
  num : s.numPts = D.length
  X : s.X = D.map Prod.fst
  Xu : s.Xu = D.map fun q => toUnitBox q.1 lb ub
  fX : s.fX = D.map Prod.snd

/-- A fit does not touch the data. -/
def KeepsData (fit : St d M → Res (St d M)) : Prop :=
  ∀ s, (fit s).st.numPts = s.numPts ∧ (fit s).st.X = s.X ∧ (fit s).st.Xu = s.Xu ∧ (fit s).st.fX = s.fX

theorem dataOf_snoc (ops : List (Op d)) (op : Op d) : dataOf d (ops ++ [op]) =
    match op with
    | .add xx fx => dataOf d ops ++ (accepted d xx fx).getD []
    | .reset => []
    | .predict _ => dataOf d ops := by
  unfold dataOf
  rw [List.foldl_append, List.foldl_cons, List.foldl_nil]

/-- After any history of calls the surrogate holds exactly the data accepted since the last reset, in order. -/
theorem C46_history (lb ub : Pt d) (clear : M → M) (fit : St d M → Res (St d M)) (hfit : KeepsData fit) (m : M)
    (ops : List (Op d)) (hops : NoMultiColumn ops) :
    Holds lb ub (dataOf d ops)
      (run lb ub clear fit { numPts := 0, X := [], Xu := [], fX := [], updated := false, model := m } ops) := by
  induction ops using List.reverseRecOn with
  | nil => exact ⟨rfl, rfl, rfl, rfl⟩
  | append_singleton ops op ih =>
    have ih := ih fun xx fx h => hops xx fx (by simp [h])
    rw [dataOf_snoc]
    unfold run at ih ⊢
    rw [List.foldl_append, List.foldl_cons, List.foldl_nil]
    set s := ops.foldl (step lb ub clear fit) { numPts := 0, X := [], Xu := [], fX := [], updated := false, model := m }
    cases op with
    | add xx fx =>
      simp only [step]
      rcases ha : accepted d xx fx with _ | D
      · rw [(C46_refused_partial lb ub s xx fx ha).2 (hops xx fx (by simp))]
        simpa using ih
      · rw [(C46_accepted lb ub s xx fx D ha).2]
        simp only [Option.getD_some]
        exact ⟨by simp [ih.num], by simp [ih.X], by simp [ih.X, Function.comp_def], by simp [ih.fX]⟩
    | reset => exact ⟨rfl, rfl, rfl, rfl⟩
    | predict x =>
      obtain ⟨h1, h2, h3, h4⟩ := hfit s
      simp only [step]
      exact ⟨h1.trans ih.num, h2.trans ih.X, h3.trans ih.Xu, h4.trans ih.fX⟩

theorem fit_keepsData (p : Par d) : KeepsData (Surrogate.fit p) := by
  intro s
  unfold Surrogate.fit
  split <;> exact ⟨rfl, rfl, rfl, rfl⟩

theorem extFit_keepsData {Mod : Type} (trans : List ℝ → List ℝ) (ext : List (List (Pt d) × List ℝ) → Mod) :
    KeepsData (extFit trans ext) := by
  intro s
  unfold extFit
  split <;> exact ⟨rfl, rfl, rfl, rfl⟩

/-- A concrete history: a vector with a float, a reset, a matrix with a list of values, a prediction. -/
example : dataOf 1 [.add (.vec [2]) (.float 5), .reset, .add (.mat 2 1 fun i _ => i.1) (.arr1 [3, 4]), .predict 0] =
    [((fun _ => 0), 3), ((fun _ => 1), 4)] := by
  simp only [dataOf, List.foldl_cons, List.foldl_nil, accepted, pointsOf, valuesOf, dite_true]
  simp [List.ofFn_succ]

/-! ## C48: incremental fitting -/

theorem rrun_good (p : Par d) (hlu : LuSpec p.lu) (hchol : CholSpec p.chol) (ops : List (Op d))
    (hops : NoMultiColumn ops) : Good p (rrun p ops) ∧ Holds p.lb p.ub (dataOf d ops) (rrun p ops) := by
  refine ⟨?_, C46_history p.lb p.ub _ _ (fit_keepsData p) none ops hops⟩
  induction ops using List.reverseRecOn with
  | nil =>
    refine ⟨rfl, fun F hF => ?_, fun h => ?_⟩
    · simp [rrun, run, rinit] at hF
    · simp [rrun, run, rinit] at h
  | append_singleton ops op ih =>
    have hops' : NoMultiColumn ops := fun xx fx h => hops xx fx (by simp [h])
    have ih := ih hops'
    have hh := C46_history p.lb p.ub (fun _ => none) _ (fit_keepsData p) none ops hops'
    unfold rrun run at ih ⊢
    unfold run at hh
    rw [List.foldl_append, List.foldl_cons, List.foldl_nil]
    change Holds p.lb p.ub (dataOf d ops) (ops.foldl (step p.lb p.ub (fun _ => none) (Surrogate.fit p)) (rinit d)) at hh
    set s := ops.foldl (step p.lb p.ub (fun _ => none) (Surrogate.fit p)) (rinit d) with hs
    cases op with
    | add xx fx =>
      simp only [step]
      rcases ha : accepted d xx fx with _ | D
      · rw [(C46_refused_partial p.lb p.ub s xx fx ha).2 (hops xx fx (by simp))]
        exact ih
      · rw [(C46_accepted p.lb p.ub s xx fx D ha).2]
        have hXu : (s.X ++ D.map Prod.fst).map (fun x => toUnitBox x p.lb p.ub) =
            s.Xu ++ D.map (fun q => toUnitBox q.1 p.lb p.ub) := by
          rw [List.map_append, hh.X, hh.Xu, List.map_map, List.map_map]; rfl
        rw [hXu]
        refine ⟨?_, ?_, by simp⟩
        · simp [ih.num]
        · intro F hF
          obtain ⟨h0, h1, h2, h3⟩ := ih.fac F hF
          refine ⟨h0, h1, by simp only [List.length_append]; omega, ?_⟩
          exact h3.congr fun i hi j hj => (sysMat_append p s.Xu _ i j (by omega) (by omega)).symm
    | reset =>
      simp only [step, reset]
      exact ⟨rfl, by simp, by simp⟩
    | predict x =>
      simp only [step]
      exact (fit_spec p hlu hchol s ih).1

/-- Two solutions of a nonsingular system give the same predictions. -/
theorem evalAt_unique (p : Par d) (X : List (Pt d)) (f : List ℝ) (c c' : Vec) (hdet : sysDet p X ≠ 0)
    (h : Solves p X f c) (h' : Solves p X f c') (y : Pt d) : evalAt p X X.length c y = evalAt p X X.length c' y := by
  have hall : ∀ j < p.tail.dimTail + X.length, c j = c' j := by
    by_contra hne
    push Not at hne
    obtain ⟨j, hj, hjne⟩ := hne
    apply hdet
    unfold sysDet
    rw [← Matrix.exists_mulVec_eq_zero_iff]
    refine ⟨fun i => c i - c' i, ?_, ?_⟩
    · intro h0
      have := congrFun h0 ⟨j, hj⟩
      exact hjne (sub_eq_zero.mp this)
    · funext i
      simp only [Matrix.mulVec, dotProduct, Pi.zero_apply, toMatrix, Matrix.of_apply]
      have h1 := h i i.2
      have h2 := h' i i.2
      rw [Finset.sum_range] at h1 h2
      simp only [mul_sub, Finset.sum_sub_distrib, h1, h2, sub_self]
  unfold evalAt
  congr 1
  · refine Finset.sum_congr rfl fun i hi => ?_
    rw [hall _ (by have := mem_range.mp hi; omega)]
  · refine Finset.sum_congr rfl fun i hi => ?_
    rw [hall _ (by have := mem_range.mp hi; omega)]

/-- A prediction raises exactly if the fit does. -/
theorem predict_none_raised (p : Par d) (hlu : LuSpec p.lu) (hchol : CholSpec p.chol) (s : RSt d) (hg : Good p s) (x : Pt d) :
    (predict p s x).2 = none ↔ (Surrogate.fit p s).raised = true := by
  obtain ⟨h1, h2, h3, h4, h5, h6, h7, _⟩ := fit_spec p hlu hchol s hg
  unfold predict
  rcases hb : (Surrogate.fit p s).raised with _ | _
  · obtain ⟨F, hF, _⟩ := h1.upd (h7 hb)
    simp [hF, hb]
  · simp [hb]

/-- Since the last `reset` a prediction was made with at least as many points as the tail has basis functions, and it
raised (a `LinAlgError`, because the system was singular). -/
def FailedFit (p : Par d) (ops : List (Op d)) : Prop :=
  ∃ (o₁ : List (Op d)) (x : Pt d) (o₂ : List (Op d)), ops = o₁ ++ .predict x :: o₂ ∧ Op.reset ∉ o₂ ∧
    p.tail.dimTail ≤ (dataOf d o₁).length ∧ (predict p (rrun p o₁) x).2 = none

theorem failedFit_nil (p : Par d) : ¬ FailedFit p [] := by
  rintro ⟨o₁, x, o₂, h, _⟩
  simp at h

theorem failedFit_snoc (p : Par d) (ops : List (Op d)) (op : Op d) : FailedFit p (ops ++ [op]) ↔
    op ≠ .reset ∧ (FailedFit p ops ∨
      ∃ x, op = .predict x ∧ p.tail.dimTail ≤ (dataOf d ops).length ∧ (predict p (rrun p ops) x).2 = none) := by
  constructor
  · rintro ⟨o₁, x, o₂, h, hr, ht, hn⟩
    rcases List.eq_nil_or_concat o₂ with rfl | ⟨o₂, a, rfl⟩
    · obtain ⟨rfl, h2⟩ := List.append_inj' h rfl
      simp only [List.cons.injEq, and_true] at h2
      subst h2
      exact ⟨by simp, .inr ⟨x, rfl, ht, hn⟩⟩
    · have h' : ops ++ [op] = (o₁ ++ .predict x :: o₂) ++ [a] := by simpa using h
      obtain ⟨rfl, h2⟩ := List.append_inj' h' rfl
      simp only [List.cons.injEq, and_true] at h2
      subst h2
      exact ⟨fun h0 => hr (by simp [h0]), .inl ⟨o₁, x, o₂, rfl, fun h0 => hr (by simp [h0]), ht, hn⟩⟩
  · rintro ⟨hne, ⟨o₁, x, o₂, rfl, hr, ht, hn⟩ | ⟨x, rfl, ht, hn⟩⟩
    · refine ⟨o₁, x, o₂ ++ [op], by simp, fun h0 => ?_, ht, hn⟩
      rcases List.mem_append.mp h0 with h0 | h0
      · exact hr h0
      · exact hne (List.mem_singleton.mp h0).symm
    · exact ⟨ops, x, [], rfl, by simp, ht, hn⟩

theorem rrun_snoc (p : Par d) (ops : List (Op d)) (op : Op d) :
    rrun p (ops ++ [op]) = step p.lb p.ub (fun _ => none) (Surrogate.fit p) (rrun p ops) op := by
  unfold rrun run; rw [List.foldl_append, List.foldl_cons, List.foldl_nil]

/-- What is stored is that of a failed fit exactly if there was one since the last reset. -/
theorem bad_iff (p : Par d) (hlu : LuSpec p.lu) (hchol : CholSpec p.chol) (ops : List (Op d))
    (hops : NoMultiColumn ops) : Bad p (rrun p ops).model ↔ FailedFit p ops := by
  induction ops using List.reverseRecOn with
  | nil => simp [failedFit_nil, Bad, rrun, run, rinit]
  | append_singleton ops op ih =>
    have hops' : NoMultiColumn ops := fun xx fx h => hops xx fx (by simp [h])
    have ih := ih hops'
    obtain ⟨hg, hh⟩ := rrun_good p hlu hchol ops hops'
    rw [rrun_snoc, failedFit_snoc]
    cases op with
    | add xx fx =>
      simp only [step, ne_eq, reduceCtorEq, not_false_eq_true, false_and, exists_false, or_false, true_and]
      rcases ha : accepted d xx fx with _ | D
      · rw [(C46_refused_partial p.lb p.ub _ xx fx ha).2 (hops xx fx (by simp)), ih]
      · rw [(C46_accepted p.lb p.ub _ xx fx D ha).2, ← ih]
    | reset => simp [step, reset, Bad]
    | predict x =>
      simp only [step, ne_eq, reduceCtorEq, not_false_eq_true, true_and, Op.predict.injEq]
      obtain ⟨_, _, _, _, _, h6, _, h8⟩ := fit_spec p hlu hchol _ hg
      have hl : (dataOf d ops).length = (rrun p ops).Xu.length := by rw [hh.Xu]; simp
      rw [h8, ih]
      constructor
      · rintro (h | ⟨h1, h2⟩)
        · exact .inl h
        · exact .inr ⟨x, rfl, by omega, (predict_none_raised p hlu hchol _ hg x).mpr (h6.mpr (.inl h2))⟩
      · rintro (h | ⟨y, rfl, h1, h2⟩)
        · exact .inl h
        · rcases h6.mp ((predict_none_raised p hlu hchol _ hg x).mp h2) with h | h
          · exact .inr ⟨by omega, h⟩
          · exact .inl (ih.mp h)

/-- What a prediction is in any reachable state: an exception exactly for a singular system or after a failed fit,
otherwise the expansion with coefficients that solve the full system of all current data. -/
theorem C48_solves (p : Par d) (hlu : LuSpec p.lu) (hchol : CholSpec p.chol) (ops : List (Op d))
    (hops : NoMultiColumn ops) (x : Pt d) :
    let X := (dataOf d ops).map fun q => toUnitBox q.1 p.lb p.ub
    let f := (dataOf d ops).map Prod.snd
    ((predict p (rrun p ops) x).2 = none ↔ sysDet p X = 0 ∨ FailedFit p ops) ∧
    (sysDet p X ≠ 0 → ¬ FailedFit p ops → ∃ c, Solves p X f c ∧
      ∀ x, (predict p (rrun p ops) x).2 = some (evalAt p X X.length c (toUnitBox x p.lb p.ub))) := by
  obtain ⟨hg, hh⟩ := rrun_good p hlu hchol ops hops
  have hbad := bad_iff p hlu hchol ops hops
  simp only
  rw [← hh.Xu, ← hh.fX]
  set s := rrun p ops
  obtain ⟨h1, h2, h3, h4, h5, h6, h7, _⟩ := fit_spec p hlu hchol s hg
  refine ⟨by rw [predict_none_raised p hlu hchol s hg, h6, hbad], fun hdet hff => ?_⟩
  have hr : (Surrogate.fit p s).raised = false := by
    rcases hb : (Surrogate.fit p s).raised with _ | _
    · rfl
    · rcases h6.mp hb with h | h
      · exact absurd h hdet
      · exact absurd (hbad.mp h) hff
  obtain ⟨F, hF, hk, _, hs⟩ := h1.upd (h7 hr)
  rw [h3, h4] at hs
  refine ⟨F.c, hs, fun x => ?_⟩
  unfold predict
  simp only [hr, hF, h3, h5, hg.num]
  simp

/-- If a prediction is given, the system is nonsingular, no fit failed since the last reset, and the coefficients solve the
system. -/
theorem predict_solves (p : Par d) (hlu : LuSpec p.lu) (hchol : CholSpec p.chol) (ops : List (Op d))
    (hops : NoMultiColumn ops) (x : Pt d) (hx : (predict p (rrun p ops) x).2 ≠ none) :
    let X := (dataOf d ops).map fun q => toUnitBox q.1 p.lb p.ub
    sysDet p X ≠ 0 ∧ ¬ FailedFit p ops ∧ ∃ c, Solves p X ((dataOf d ops).map Prod.snd) c ∧
      ∀ x, (predict p (rrun p ops) x).2 = some (evalAt p X X.length c (toUnitBox x p.lb p.ub)) := by
  obtain ⟨h1, h2⟩ := C48_solves p hlu hchol ops hops x
  have h := mt h1.mpr hx
  push Not at h
  exact ⟨h.1, h.2, h2 h.1 h.2⟩

theorem dataOf_prefix (ops : List (Op d)) (op : Op d) (h : op ≠ .reset) : dataOf d ops <+: dataOf d (ops ++ [op]) := by
  rw [dataOf_snoc]
  cases op with
  | add xx fx => exact List.prefix_append _ _
  | reset => exact absurd rfl h
  | predict x => exact List.prefix_refl _

/-- Without a reset data are only added. -/
theorem dataOf_prefix_append (o₁ o₂ : List (Op d)) (h : Op.reset ∉ o₂) : dataOf d o₁ <+: dataOf d (o₁ ++ o₂) := by
  induction o₂ using List.reverseRecOn with
  | nil => simp
  | append_singleton o₂ op ih =>
    rw [← List.append_assoc]
    exact (ih fun h0 => h (by simp [h0])).trans (dataOf_prefix _ _ fun h0 => h (by simp [h0]))

/-- A fit fails for the first time because the system is singular. -/
theorem failedFit_iff (p : Par d) (hlu : LuSpec p.lu) (hchol : CholSpec p.chol) (ops : List (Op d))
    (hops : NoMultiColumn ops) : FailedFit p ops ↔
    ∃ (o₁ : List (Op d)) (x : Pt d) (o₂ : List (Op d)), ops = o₁ ++ .predict x :: o₂ ∧ Op.reset ∉ o₂ ∧
      p.tail.dimTail ≤ (dataOf d o₁).length ∧ sysDet p ((dataOf d o₁).map fun q => toUnitBox q.1 p.lb p.ub) = 0 := by
  constructor
  · intro h
    induction hn : ops.length using Nat.strong_induction_on generalizing ops with
    | _ n ih =>
      obtain ⟨o₁, x, o₂, rfl, hr, ht, hx⟩ := h
      have h1 : NoMultiColumn o₁ := fun xx fx h => hops xx fx (by simp [h])
      rcases (C48_solves p hlu hchol o₁ h1 x).1.mp hx with h | h
      · exact ⟨o₁, x, o₂, rfl, hr, ht, h⟩
      · obtain ⟨a, y, b, e, hr', ht', hd⟩ := ih o₁.length (by rw [← hn]; simp) o₁ h1 h rfl
        refine ⟨a, y, b ++ .predict x :: o₂, by rw [e]; simp, ?_, ht', hd⟩
        simp [hr, hr']
  · rintro ⟨o₁, x, o₂, rfl, hr, ht, hd⟩
    have h1 : NoMultiColumn o₁ := fun xx fx h => hops xx fx (by simp [h])
    exact ⟨o₁, x, o₂, rfl, hr, ht, (C48_solves p hlu hchol o₁ h1 x).1.mpr (.inl hd)⟩

/-- A history without predictions has no failed fit. -/
theorem not_failedFit (p : Par d) (ops : List (Op d)) (h : ∀ x, Op.predict x ∉ ops) : ¬ FailedFit p ops := by
  rintro ⟨o₁, x, o₂, rfl, _⟩
  exact h x (by simp)

/-- History independence: two histories with the same data give the same predictions (and exceptions), however additions,
predictions and resets were interleaved, unless only one of them has a failed fit. -/
theorem C48_history_partial (p : Par d) (hlu : LuSpec p.lu) (hchol : CholSpec p.chol) (ops ops' : List (Op d))
    (hops : NoMultiColumn ops) (hops' : NoMultiColumn ops') (heq : dataOf d ops = dataOf d ops')
    (hff : FailedFit p ops ↔ FailedFit p ops') (x : Pt d) :
    (predict p (rrun p ops) x).2 = (predict p (rrun p ops') x).2 := by
  obtain ⟨a1, a2⟩ := C48_solves p hlu hchol ops hops x
  obtain ⟨b1, b2⟩ := C48_solves p hlu hchol ops' hops' x
  rw [heq] at a1 a2
  by_cases hdet : sysDet p ((dataOf d ops').map fun q => toUnitBox q.1 p.lb p.ub) = 0 ∨ FailedFit p ops'
  · rw [a1.mpr (hdet.imp_right hff.mpr), b1.mpr hdet]
  · push Not at hdet
    obtain ⟨c, hc, e⟩ := a2 hdet.1 fun h => hdet.2 (hff.mp h)
    obtain ⟨c', hc', e'⟩ := b2 hdet.1 hdet.2
    rw [e, e', evalAt_unique p _ _ c c' hdet.1 hc hc']

/-- The history that adds all data in one call. -/
def scratch (D : List (Pt d × ℝ)) : List (Op d) :=
  [.add (.mat D.length d fun i j => D[i].1 j) (.arr1 (D.map Prod.snd))]

theorem scratch_ok (D : List (Pt d × ℝ)) : NoMultiColumn (scratch D) := by
  intro xx fx h
  rw [scratch, List.mem_singleton] at h
  cases h
  trivial

theorem scratch_data (D : List (Pt d × ℝ)) : dataOf d (scratch D) = D := by
  simp only [scratch, dataOf, List.foldl_cons, List.foldl_nil, List.nil_append, accepted, pointsOf, valuesOf, dite_true]
  rw [if_pos (by simp)]
  simp only [Option.getD_some]
  apply List.ext_getElem
  · simp
  · intro n h1 h2
    simp

theorem scratch_noFail (p : Par d) (D : List (Pt d × ℝ)) : ¬ FailedFit p (scratch D) :=
  not_failedFit p _ (by simp [scratch])

/-- The prediction after any history is either that of a new interpolant that gets all points in one call, or an exception
because an earlier fit failed. -/
theorem C48_scratch_partial (p : Par d) (hlu : LuSpec p.lu) (hchol : CholSpec p.chol) (ops : List (Op d))
    (hops : NoMultiColumn ops) (x : Pt d) :
    (¬ FailedFit p ops → (predict p (rrun p ops) x).2 = (predict p (rrun p (scratch (dataOf d ops))) x).2) ∧
    (FailedFit p ops → (predict p (rrun p ops) x).2 = none) := by
  refine ⟨fun h => ?_, fun h => (C48_solves p hlu hchol ops hops x).1.mpr (.inr h)⟩
  exact C48_history_partial p hlu hchol ops _ hops (scratch_ok _) (scratch_data _).symm
    (iff_of_false h (scratch_noFail p _)) x

/-- In particular, a history all of whose predictions with enough points succeeded (since the last reset): the next one is
that of a new interpolant. -/
theorem C48_incremental (p : Par d) (hlu : LuSpec p.lu) (hchol : CholSpec p.chol) (ops : List (Op d))
    (hops : NoMultiColumn ops)
    (hok : ∀ o₁ x o₂, ops = o₁ ++ .predict x :: o₂ → Op.reset ∉ o₂ → p.tail.dimTail ≤ (dataOf d o₁).length →
      (predict p (rrun p o₁) x).2 ≠ none) (x : Pt d) :
    (predict p (rrun p ops) x).2 = (predict p (rrun p (scratch (dataOf d ops))) x).2 :=
  (C48_scratch_partial p hlu hchol ops hops x).1 fun ⟨o₁, y, o₂, h1, h2, h3, h4⟩ => hok o₁ y o₂ h1 h2 h3 h4

/-- The contracts can be met, and there is a history with a nonsingular system in which a fit is extended: one point,
prediction, a second point (constant tail, linear kernel `|x - y|`). -/
example : ∃ p : Par 1, LuSpec p.lu ∧ CholSpec p.chol ∧
    sysDet p (([((fun _ => 0), 1), ((fun _ => 1), 2)] : List (Pt 1 × ℝ)).map fun q => toUnitBox q.1 p.lb p.ub) ≠ 0 ∧
    dataOf 1 [.add (.vec [0]) (.float 1), .predict 0, .add (.vec [1]) (.float 2)] = [((fun _ => 0), 1), ((fun _ => 1), 2)] := by
  obtain ⟨lu, chol, h1, h2, _⟩ := exists_library
  refine ⟨⟨fun _ => 0, fun _ => 1, linearKernel, constantTail 1, 0, fun f => f, lu, chol⟩, h1, h2, ?_, ?_⟩
  · unfold sysDet
    have : toMatrix 3 (sysMat (⟨fun _ => 0, fun _ => 1, linearKernel, constantTail 1, 0, fun f => f, lu, chol⟩ : Par 1)
        [(fun _ => 0), (fun _ => 1)]) = !![0, 1, 1; 1, 0, 1; 1, 1, 0] := by
      ext i j
      fin_cases i <;> fin_cases j <;>
        simp [toMatrix, sysMat, constantTail, linearKernel, eucl]
    have he : ([((fun _ => 0), 1), ((fun _ => 1), 2)] : List (Pt 1 × ℝ)).map (fun q => toUnitBox q.1 (fun _ => 0) fun _ => 1) =
        [(fun _ => 0), (fun _ => 1)] := by
      simp only [List.map_cons, List.map_nil, List.cons.injEq, and_true]
      constructor <;> (funext i; simp [toUnitBox])
    simp only [he]
    show (toMatrix 3 _).det ≠ 0
    rw [this]
    simp [Matrix.det_fin_three]
  · simp only [dataOf, List.foldl_cons, List.foldl_nil, accepted, pointsOf, valuesOf, List.length_cons, List.length_nil]
    simp

/-! ## C47: interpolation -/

/-- Whenever a prediction is given, there are coefficients `c` of the kernel part, orthogonal to the polynomial tail, such
that the prediction at the `i`-th data point is the transformed value minus `eta * c i`.  (The output transformation keeps
the number of values.) -/
theorem C47_interpolation (p : Par d) (hlu : LuSpec p.lu) (hchol : CholSpec p.chol)
    (htr : ∀ f, (p.trans f).length = f.length) (ops : List (Op d)) (hops : NoMultiColumn ops) (x : Pt d)
    (hx : (predict p (rrun p ops) x).2 ≠ none) :
    ∃ c : ℕ → ℝ,
      (∀ k < p.tail.dimTail,
        ∑ i : Fin (dataOf d ops).length, c i * p.tail.eval (toUnitBox (dataOf d ops)[i].1 p.lb p.ub) k = 0) ∧
      ∀ i : Fin (dataOf d ops).length, (predict p (rrun p ops) (dataOf d ops)[i].1).2 =
        some ((p.trans ((dataOf d ops).map Prod.snd)).getD i 0 - p.eta * c i) := by
  obtain ⟨hdet, _, c, hc, he⟩ := predict_solves p hlu hchol ops hops x hx
  set D := dataOf d ops with hD
  set X := D.map fun q => toUnitBox q.1 p.lb p.ub with hX
  have hlen : X.length = D.length := by simp [hX]
  have hget : ∀ i : Fin D.length, X.getD i 0 = toUnitBox D[i].1 p.lb p.ub := by
    intro i; simp [hX]
  set t := p.tail.dimTail with ht
  refine ⟨fun i => c (t + i), ?_, ?_⟩
  · intro k hk
    have := hc k (by omega)
    rw [Finset.sum_range_add, hlen] at this
    have hz : ∑ j ∈ range t, sysMat p X k j * c j = 0 := by
      apply Finset.sum_eq_zero
      intro j hj
      unfold sysMat
      simp only
      rw [if_pos hk, if_pos (mem_range.mp hj), zero_mul]
    rw [hz, zero_add, Finset.sum_range] at this
    have hrhs : rhsOf p (D.map Prod.snd) k = 0 := by unfold rhsOf rhsVec; rw [if_pos hk]
    rw [hrhs] at this
    rw [← this]
    refine Finset.sum_congr rfl fun i _ => ?_
    unfold sysMat
    simp only
    rw [if_pos hk, if_neg (by omega), ← ht, show t + i.1 - t = i.1 by omega, hget i]
    ring
  · intro i
    have hi2 : i.1 < D.length := i.2
    rw [he]
    congr 1
    have hi : t + i.1 < t + X.length := by omega
    have := hc (t + i) hi
    have hrhs : rhsOf p (D.map Prod.snd) (t + i) = (p.trans (D.map Prod.snd)).getD i 0 := by
      unfold rhsOf rhsVec; rw [if_neg (by omega), ← ht, show t + i.1 - t = i.1 by omega]
    rw [hrhs, Finset.sum_range_add] at this
    rw [← this]
    unfold evalAt
    have e1 : ∑ j ∈ range t, sysMat p X (t + i) j * c j =
        ∑ k ∈ range t, p.tail.eval (toUnitBox D[i].1 p.lb p.ub) k * c k := by
      refine Finset.sum_congr rfl fun k hk => ?_
      unfold sysMat
      simp only
      rw [if_neg (by omega), if_pos (mem_range.mp hk), ← ht, show t + i.1 - t = i.1 by omega, hget i]
    have e2 : ∑ j ∈ range X.length, sysMat p X (t + i) (t + j) * c (t + j) =
        ∑ j ∈ range X.length, p.kernel.eval (eucl (toUnitBox D[i].1 p.lb p.ub) (X.getD j 0)) * c (t + j) +
          p.eta * c (t + i) := by
      have e3 : ∀ j ∈ range X.length, sysMat p X (t + i) (t + j) * c (t + j) =
          p.kernel.eval (eucl (toUnitBox D[i].1 p.lb p.ub) (X.getD j 0)) * c (t + j) +
            if j = i.1 then p.eta * c (t + j) else 0 := by
        intro j _
        unfold sysMat
        simp only
        rw [if_neg (by omega), if_neg (by omega), ← ht, show t + i.1 - t = i.1 by omega, show t + j - t = j by omega, hget i]
        by_cases hj : j = i.1
        · rw [if_pos (by omega), if_pos hj]; ring
        · rw [if_neg (by omega), if_neg hj]; ring
      rw [Finset.sum_congr rfl e3, Finset.sum_add_distrib]
      congr 1
      rw [Finset.sum_ite_eq', if_pos (mem_range.mpr (by omega))]
    rw [e1, e2]
    ring

/-- Without regularization the interpolant reproduces the (transformed) data. -/
theorem C47_exact (p : Par d) (hlu : LuSpec p.lu) (hchol : CholSpec p.chol)
    (htr : ∀ f, (p.trans f).length = f.length) (heta : p.eta = 0) (ops : List (Op d)) (hops : NoMultiColumn ops) (x : Pt d)
    (hx : (predict p (rrun p ops) x).2 ≠ none) (i : Fin (dataOf d ops).length) :
    (predict p (rrun p ops) (dataOf d ops)[i].1).2 =
      some ((p.trans ((dataOf d ops).map Prod.snd))[i]'(by rw [htr, List.length_map]; exact i.2)) := by
  obtain ⟨c, _, h⟩ := C47_interpolation p hlu hchol htr ops hops x hx
  rw [h i, heta, zero_mul, sub_zero]
  have : (i : ℕ) < (p.trans ((dataOf d ops).map Prod.snd)).length := by rw [htr, List.length_map]; exact i.2
  simp [List.getD_eq_getElem?_getD, this]

/-! ## C50: no stale predictions -/

/-- Wrapped models: after a call of `predict` the model in use is the one fitted last, and it was fitted to exactly the
current data. -/
theorem C50_fresh {Mod : Type} (lb ub : Pt d) (trans : List ℝ → List ℝ) (ext : List (List (Pt d) × List ℝ) → Mod)
    (ops : List (Op d)) (hops : NoMultiColumn ops) (x : Pt d) :
    ∃ h, (extRun lb ub trans ext (ops ++ [.predict x])).model.fits =
        ((dataOf d ops).map (fun q => toUnitBox q.1 lb ub), trans ((dataOf d ops).map Prod.snd)) :: h ∧
      (extRun lb ub trans ext (ops ++ [.predict x])).model.mod =
        some (ext (extRun lb ub trans ext (ops ++ [.predict x])).model.fits) := by
  have inv : ∀ ops : List (Op d), NoMultiColumn ops → (extRun lb ub trans ext ops).updated = true →
      ∃ h, (extRun lb ub trans ext ops).model.fits =
        ((dataOf d ops).map (fun q => toUnitBox q.1 lb ub), trans ((dataOf d ops).map Prod.snd)) :: h ∧
      (extRun lb ub trans ext ops).model.mod = some (ext (extRun lb ub trans ext ops).model.fits) := by
    intro ops
    induction ops using List.reverseRecOn with
    | nil => intro _ h; simp [extRun, run, extInit] at h
    | append_singleton ops op ih =>
      intro hops hu
      have hops' : NoMultiColumn ops := fun xx fx h => hops xx fx (by simp [h])
      have hh := C46_history lb ub id _ (extFit_keepsData trans ext) (⟨none, []⟩ : Ext d Mod) ops hops'
      change Holds lb ub (dataOf d ops) (extRun lb ub trans ext ops) at hh
      have hstep : extRun lb ub trans ext (ops ++ [op]) = step lb ub id (extFit trans ext) (extRun lb ub trans ext ops) op := by
        unfold extRun run; rw [List.foldl_append, List.foldl_cons, List.foldl_nil]
      rw [hstep] at hu ⊢
      rw [dataOf_snoc]
      cases op with
      | add xx fx =>
        simp only [step] at hu ⊢
        rcases ha : accepted d xx fx with _ | D
        · rw [(C46_refused_partial lb ub _ xx fx ha).2 (hops xx fx (by simp))] at hu ⊢
          simpa using ih hops' hu
        · rw [(C46_accepted lb ub _ xx fx D ha).2] at hu
          simp at hu
      | reset => simp [step, reset] at hu
      | predict x =>
        simp only [step]
        unfold extFit
        by_cases hu' : (extRun lb ub trans ext ops).updated = true
        · rw [if_pos hu']; exact ih hops' hu'
        · rw [if_neg hu']
          simp only
          rw [hh.Xu, hh.fX]
          exact ⟨_, rfl, trivial⟩
  have hops2 : NoMultiColumn (ops ++ [Op.predict x]) := by
    intro xx fx h
    rcases List.mem_append.mp h with h | h
    · exact hops xx fx h
    · simp at h
  have hd : dataOf d (ops ++ [Op.predict x]) = dataOf d ops := by rw [dataOf_snoc]
  have := inv (ops ++ [.predict x]) hops2 (by
    unfold extRun run
    rw [List.foldl_append, List.foldl_cons, List.foldl_nil]
    simp only [step]
    unfold extFit
    split
    · assumption
    · rfl)
  rwa [hd] at this

/-- A second prediction without new data does not fit again and does not raise an exception (wrapped models). -/
theorem C50_once {Mod : Type} (lb ub : Pt d) (trans : List ℝ → List ℝ) (ext : List (List (Pt d) × List ℝ) → Mod)
    (ops : List (Op d)) (x y : Pt d) :
    extRun lb ub trans ext (ops ++ [.predict x, .predict y]) = extRun lb ub trans ext (ops ++ [.predict x]) ∧
      (extFit trans ext (extRun lb ub trans ext (ops ++ [.predict x]))).raised = false := by
  unfold extRun run
  simp only [List.foldl_append, List.foldl_cons, List.foldl_nil, step]
  set s := ops.foldl (step lb ub id (extFit trans ext)) (extInit d Mod)
  have hu : (extFit trans ext s).st.updated = true := by
    unfold extFit
    split
    · assumption
    · rfl
  set s' := (extFit trans ext s).st
  unfold extFit
  rw [if_pos hu]
  exact ⟨rfl, rfl⟩

/-- RBF: the prediction never depends on anything but the current data (C48), and a successful fit is not repeated. -/
theorem C50_rbf_once (p : Par d) (s : RSt d) (h : (Surrogate.fit p s).raised = false) :
    (Surrogate.fit p (Surrogate.fit p s).st).st = (Surrogate.fit p s).st ∧
      (Surrogate.fit p (Surrogate.fit p s).st).raised = false := by
  have hu : (Surrogate.fit p s).st.updated = true := by
    unfold Surrogate.fit at h ⊢
    by_cases hs : s.updated = true
    · rw [if_pos hs]; exact hs
    · rw [if_neg hs] at h ⊢
      simpa using h
  set s' := (Surrogate.fit p s).st
  unfold Surrogate.fit
  rw [if_pos hu]
  exact ⟨rfl, rfl⟩

/-- Nonvacuity: a history with new data after a fit; the second prediction fits the two points. -/
example (Mod : Type) (ext : List (List (Pt 1) × List ℝ) → Mod) :
    ((extRun (fun _ => 0) (fun _ => 1) identityT ext
      [.add (.vec [0]) (.float 1), .predict 0, .add (.vec [1]) (.float 2), .predict 0]).model.fits).length = 2 := by
  simp [extRun, run, step, extFit, addPoints, FIn.rows, XIn.rows, extInit]

end Verif.Props
