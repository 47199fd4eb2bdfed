import Verif.Strategy.StepPF
import Verif.Props.Strategy

/-! # Property C98: failed evaluations (inf, NaN) and the step control of SRBF and DYCORS -/

namespace Verif.Props

open Verif.Validate Verif.Strategy

/-! ## Specification -/

/-- The step control with a finite or no best value, as in `Strategy/Model.lean`. -/
noncomputable def embed (z : Srbf) (conv : Bool) : StepPF where
  status := z.status
  failcount := z.failcount
  radius := z.radius
  fbest := match z.fbest with
    | none => .posInf
    | some b => .fin (b : ℝ)
  converged := conv

/-- What a failed step does: the best value stays, one more failure is counted. -/
def FailedStep (z z' : StepPF) : Prop := z'.fbest = z.fbest ∧ z'.failcount = z.failcount + 1

/-! ## Proofs -/

theorem pyMin_fin (v : ℚ) (q : List ℚ) : pyMin (.fin (v : ℝ)) (q.map fun x : ℚ => .fin (x : ℝ)) = .fin ((q.foldl min v : ℚ) : ℝ) := by
  unfold pyMin
  induction q generalizing v with
  | nil => rfl
  | cons x q ih =>
    rw [List.map_cons, List.foldl_cons, List.foldl_cons]
    simp only [ltPF, Rat.cast_lt]
    by_cases h : x < v
    · rw [if_pos h, min_eq_right h.le]; exact ih x
    · rw [if_neg h, min_eq_left (not_lt.mp h)]; exact ih v

/-- With finite values the function is the one of the main model. -/
theorem C98_finite (ftol mftol : ℤ) (z : Srbf) (conv : Bool) (v : ℚ) (q : List ℚ) :
    (embed z conv).adjust ftol mftol (.fin (v : ℝ)) (q.map fun x : ℚ => .fin (x : ℝ)) =
      embed (z.adjust ftol mftol (q.foldl min v)).1 (conv || (z.adjust ftol mftol (q.foldl min v)).2.2) := by
  set f := q.foldl min v with hf
  have himp : (ltPF (.fin (f : ℝ)) (threshold (embed z conv).fbest) ∨ infinite (embed z conv).fbest) ↔ z.isImprovement f = true := by
    unfold Srbf.isImprovement embed
    cases z.fbest with
    | none => simp [threshold, ltPF, infinite]
    | some b =>
      simp only [threshold, ltPF, infinite, or_false, decide_eq_true_eq]
      have : ((b : ℝ) - 1 / 1000 * |(b : ℝ)|) = ((b - 1 / 1000 * |b| : ℚ) : ℝ) := by push_cast; rfl
      rw [this, Rat.cast_lt]
  unfold StepPF.adjust Srbf.adjust
  rw [pyMin_fin, ← hf]
  simp only [himp]
  by_cases h1 : z.isImprovement f = true
  · simp only [h1, if_true]
    split_ifs <;> simp_all [embed, succtol] <;> omega
  · simp only [h1, if_false]
    split_ifs <;> simp_all [embed, succtol] <;> omega

/-! ### inf -/

theorem pyMin_posInf (q : List PyFloat) (h : ∀ v ∈ q, v = .posInf) : pyMin .posInf q = .posInf := by
  unfold pyMin
  induction q with
  | nil => rfl
  | cons v q ih =>
    rw [List.foldl_cons, h v (by simp), if_neg (by simp [ltPF])]
    exact ih fun w hw => h w (by simp [hw])

/-- Values that are numbers or `inf`: `inf` is left out, if there is a number. -/
theorem pyMin_ignores (v : PyFloat) (q : List PyFloat) (h : ∀ x ∈ v :: q, x = .posInf ∨ ∃ r, x = .fin r) :
    (∀ x ∈ v :: q, x = .posInf) ∧ pyMin v q = .posInf ∨ ∃ r rs, (v :: q).filter (fun x => match x with
      | .posInf => false
      | _ => true) = .fin r :: rs ∧ pyMin v q = pyMin (.fin r) rs := by
  have key : ∀ (q : List PyFloat) (r : ℝ), (∀ x ∈ q, x = .posInf ∨ ∃ r, x = .fin r) →
      pyMin (.fin r) q = pyMin (.fin r) (q.filter (fun x => match x with
      | .posInf => false
      | _ => true)) := by
    intro q
    induction q with
    | nil => intro r _; rfl
    | cons x q ih =>
      intro r hq
      have hq' : ∀ y ∈ q, y = .posInf ∨ ∃ r, y = .fin r := fun y hy => hq y (by simp [hy])
      rcases hq x (by simp) with rfl | ⟨t, rfl⟩
      · rw [List.filter_cons_of_neg (by simp), ← ih r hq']
        unfold pyMin
        rw [List.foldl_cons, if_neg (by simp [ltPF])]
      · rw [List.filter_cons_of_pos (by simp)]
        unfold pyMin
        rw [List.foldl_cons, List.foldl_cons]
        by_cases ht : ltPF (.fin t) (.fin r)
        · rw [if_pos ht]; exact ih t hq'
        · rw [if_neg ht]; exact ih r hq'
  induction q generalizing v with
  | nil =>
    rcases h v (by simp) with rfl | ⟨r, rfl⟩
    · exact .inl ⟨by simp, rfl⟩
    · exact .inr ⟨r, [], by simp, rfl⟩
  | cons x q ih =>
    rcases h v (by simp) with rfl | ⟨r, rfl⟩
    · have e : pyMin .posInf (x :: q) = pyMin x q := by
        unfold pyMin
        rw [List.foldl_cons]
        congr 1
        rcases h x (by simp) with rfl | ⟨r, rfl⟩
        · simp
        · rw [if_pos (by simp [ltPF])]
      rcases ih x (fun y hy => h y (by simp only [List.mem_cons] at hy ⊢; tauto)) with ⟨h1, h2⟩ | ⟨r, rs, h1, h2⟩
      · exact .inl ⟨by simpa using h1, by rw [e, h2]⟩
      · exact .inr ⟨r, rs, by rw [List.filter_cons_of_neg (by simp)]; exact h1, by rw [e, h2]⟩
    · refine .inr ⟨r, _, List.filter_cons_of_pos (by simp), key _ r fun y hy => h y ?_⟩
      simp only [List.mem_cons] at hy ⊢
      tauto

theorem adjust_failed (ftol mftol : ℤ) (z : StepPF) (v : PyFloat) (q : List PyFloat)
    (h : ¬ (ltPF (pyMin v q) (threshold z.fbest) ∨ infinite z.fbest)) : FailedStep z (z.adjust ftol mftol v q) := by
  unfold StepPF.adjust FailedStep
  dsimp only
  rw [if_neg h]
  split_ifs <;> exact ⟨rfl, rfl⟩

theorem adjust_improved (ftol mftol : ℤ) (z : StepPF) (v : PyFloat) (q : List PyFloat)
    (h : ltPF (pyMin v q) (threshold z.fbest) ∨ infinite z.fbest) :
    (z.adjust ftol mftol v q).fbest = pyMin v q ∧ (z.adjust ftol mftol v q).failcount = 0 := by
  unfold StepPF.adjust
  dsimp only
  rw [if_pos h]
  split_ifs <;> exact ⟨rfl, rfl⟩

open Classical in
theorem adjust_converged (ftol mftol : ℤ) (z : StepPF) (v : PyFloat) (q : List PyFloat)
    (h : mftol ≤ (z.adjust ftol mftol v q).failcount) : (z.adjust ftol mftol v q).converged = true := by
  have key : ∀ t : StepPF, mftol ≤ (if mftol ≤ t.failcount ∨ t.radius ≤ radiusMin then { t with converged := true } else t).failcount →
      (if mftol ≤ t.failcount ∨ t.radius ≤ radiusMin then { t with converged := true } else t).converged = true := by
    intro t ht
    split_ifs at ht ⊢ with h1
    · rfl
    · exact absurd (.inl ht) h1
  exact key _ h

/-- In a batch with a number, `inf` plays no role, whatever the state. -/
theorem C98_ignored (ftol mftol : ℤ) (z : StepPF) (v : PyFloat) (q : List PyFloat)
    (h : ∀ x ∈ v :: q, x = .posInf ∨ ∃ r, x = .fin r) (hn : ∃ r, PyFloat.fin r ∈ v :: q) :
    ∃ r rs, (v :: q).filter (fun x => match x with
      | .posInf => false
      | _ => true) = .fin r :: rs ∧ z.adjust ftol mftol v q = z.adjust ftol mftol (.fin r) rs := by
  rcases pyMin_ignores v q h with ⟨h1, _⟩ | ⟨r, rs, h1, h2⟩
  · obtain ⟨r, hr⟩ := hn
    exact absurd (h1 _ hr) (by simp)
  · refine ⟨r, rs, h1, ?_⟩
    unfold StepPF.adjust
    rw [h2]

/-- A batch with nothing but `inf` is a failed step, once there is a best value. -/
theorem C98_inf_partial (ftol mftol : ℤ) (z : StepPF) (b : ℝ) (hz : z.fbest = .fin b) (q : List PyFloat)
    (hq : ∀ v ∈ q, v = .posInf) : FailedStep z (z.adjust ftol mftol .posInf q) := by
  apply adjust_failed
  rw [pyMin_posInf q hq, hz]
  simp [threshold, ltPF, infinite]

/-- Before there is a best value, `inf` is counted as an improvement: if the evaluations of a run all return `inf`, the strategy
counts successes and never a failure, does not shrink the radius, and the run never converges. -/
theorem C98_inf_refuted (ftol mftol : ℤ) (hf : 0 < ftol) (hm : 0 < mftol) (n : ℕ) :
    let z := StepPF.init.run ftol mftol (List.replicate n (.posInf, []))
    z.failcount = 0 ∧ z.radius = radiusMax ∧ z.converged = false ∧ z.fbest = .posInf := by
  have key : ∀ n, let z := StepPF.init.run ftol mftol (List.replicate n (.posInf, []))
      z.failcount = 0 ∧ z.radius = radiusMax ∧ z.converged = false ∧ z.fbest = .posInf ∧ 0 ≤ z.status ∧ z.status < 3 := by
    intro n
    induction n with
    | zero => simp [StepPF.run, StepPF.init, radiusMax]
    | succ n ih =>
      obtain ⟨h1, h2, h3, h4, h5, h6⟩ := ih
      unfold StepPF.run at *
      rw [List.replicate_succ', List.foldl_append, List.foldl_cons, List.foldl_nil]
      set z := List.foldl (fun z b => StepPF.adjust ftol mftol z b.1 b.2) StepPF.init (List.replicate n (PyFloat.posInf, []))
      dsimp only
      have hmin : radiusMin < radiusMax := by norm_num [radiusMin, radiusMax]
      have hr : min (2 * radiusMax) radiusMax = radiusMax := by norm_num [radiusMax]
      have himp : infinite z.fbest := by rw [h4]; trivial
      have h7 : ¬ max 1 (z.status + 1) ≤ -ftol := by omega
      have h9 : ¬ (mftol ≤ 0 ∨ radiusMax ≤ radiusMin) := by push Not; exact ⟨hm, hmin⟩
      have h10 : pyMin .posInf [] = .posInf := rfl
      unfold StepPF.adjust
      simp only [himp, or_true, if_true, h7, if_false, h10]
      by_cases h8 : succtol ≤ max 1 (z.status + 1)
      · simp only [h8, if_true, h2, hr, h9, if_false]
        exact ⟨trivial, trivial, h3, trivial, le_rfl, by norm_num⟩
      · simp only [h8, if_false, h2, h9]
        unfold succtol at h8
        exact ⟨trivial, trivial, h3, trivial, by omega, by omega⟩
  obtain ⟨h1, h2, h3, h4, _⟩ := key n
  exact ⟨h1, h2, h3, h4⟩

/-! ### NaN -/

theorem pyMin_nan (q : List PyFloat) : pyMin .nan q = .nan := by
  unfold pyMin
  induction q with
  | nil => rfl
  | cons v q ih => rw [List.foldl_cons, if_neg (by cases v <;> simp [ltPF])]; exact ih

/-- NaN is skipped if it is not the first of a batch. -/
theorem C98_nan_later (ftol mftol : ℤ) (z : StepPF) (v : PyFloat) (q₁ q₂ : List PyFloat) :
    z.adjust ftol mftol v (q₁ ++ .nan :: q₂) = z.adjust ftol mftol v (q₁ ++ q₂) := by
  have : pyMin v (q₁ ++ .nan :: q₂) = pyMin v (q₁ ++ q₂) := by
    unfold pyMin
    rw [List.foldl_append, List.foldl_append, List.foldl_cons, if_neg (by simp [ltPF])]
  unfold StepPF.adjust
  rw [this]

/-- A batch that begins with NaN is a failed step, once there is a best value ... -/
theorem C98_nan_partial (ftol mftol : ℤ) (z : StepPF) (b : ℝ) (hz : z.fbest = .fin b) (q : List PyFloat) :
    FailedStep z (z.adjust ftol mftol .nan q) := by
  apply adjust_failed
  rw [pyMin_nan, hz]
  simp [threshold, ltPF, infinite]

/-- ... although the other values of the batch may be improvements: the order of the results matters. -/
theorem C98_order_refuted : ∃ (z : StepPF) (b : ℝ), z.fbest = .fin b ∧
    (z.adjust 4 16 .nan [.fin (b - 1)]).fbest = .fin b ∧ (z.adjust 4 16 (.fin (b - 1)) [.nan]).fbest = .fin (b - 1) := by
  refine ⟨{ StepPF.init with fbest := .fin 1 }, 1, rfl, (C98_nan_partial 4 16 _ 1 rfl _).1, ?_⟩
  have h : pyMin (.fin ((1 : ℝ) - 1)) [.nan] = .fin (1 - 1) := by
    unfold pyMin
    rw [List.foldl_cons, List.foldl_nil, if_neg (by simp [ltPF])]
  rw [(adjust_improved 4 16 _ _ _ (.inl ?_)).1, h]
  rw [h]
  simp only [threshold, ltPF]
  norm_num

/-- If the first adaptive value of a run is NaN (first of its batch), it becomes the best value, and whatever is found later is a
failure: after `mftol` more steps the run is declared converged. -/
theorem C98_nan_refuted (ftol mftol : ℤ) (q : List PyFloat) (bs : List (PyFloat × List PyFloat)) :
    let z := (StepPF.init.adjust ftol mftol .nan q).run ftol mftol bs
    z.fbest = .nan ∧ z.failcount = bs.length ∧ (mftol ≤ bs.length → 0 < bs.length → z.converged = true) := by
  intro z
  induction bs using List.reverseRecOn with
  | nil =>
    have h : (StepPF.init.adjust ftol mftol .nan q).fbest = .nan ∧ (StepPF.init.adjust ftol mftol .nan q).failcount = 0 := by
      have := adjust_improved ftol mftol StepPF.init .nan q (.inr trivial)
      rwa [pyMin_nan] at this
    exact ⟨h.1, h.2, fun _ h => by simp at h⟩
  | append_singleton bs b ih =>
    obtain ⟨h1, h2, -⟩ := ih
    have e : z = ((StepPF.init.adjust ftol mftol .nan q).run ftol mftol bs).adjust ftol mftol b.1 b.2 := by
      show StepPF.run _ _ _ _ = _
      unfold StepPF.run
      rw [List.foldl_append, List.foldl_cons, List.foldl_nil]
    obtain ⟨h3, h4⟩ := adjust_failed ftol mftol ((StepPF.init.adjust ftol mftol .nan q).run ftol mftol bs) b.1 b.2
      (by rw [h1]; simp [threshold, infinite]; cases pyMin b.1 b.2 <;> simp [ltPF])
    rw [e]
    refine ⟨h3.trans h1, by rw [h4, h2]; push_cast [List.length_append]; simp, fun hm _ => ?_⟩
    have hc : mftol ≤ (((StepPF.init.adjust ftol mftol .nan q).run ftol mftol bs).adjust ftol mftol b.1 b.2).failcount := by
      rw [h4, h2]
      simpa using hm
    exact adjust_converged ftol mftol _ _ _ hc

/-- `-inf` as best value is not kept: the next value, whatever it is, counts as an improvement and replaces it. -/
theorem C98_neginf_refuted (ftol mftol : ℤ) (z : StepPF) (hz : z.fbest = .negInf) (v : PyFloat) :
    (z.adjust ftol mftol v []).fbest = v ∧ (z.adjust ftol mftol v []).failcount = 0 := by
  exact adjust_improved ftol mftol z v [] (.inr (by rw [hz]; trivial))

/-- A best value is reached by the first number: the hypothesis of `C98_inf_partial` and `C98_nan_partial`. -/
example (r : ℝ) : (StepPF.init.adjust 4 16 (.fin r) [.posInf]).fbest = .fin r := by
  rw [(adjust_improved 4 16 StepPF.init _ _ (.inr trivial)).1]
  unfold pyMin
  rw [List.foldl_cons, List.foldl_nil, if_neg (by simp [ltPF])]

/-- A batch with two numbers and `inf`. -/
example : ∀ x ∈ [PyFloat.posInf, .fin 2, .fin 1], x = .posInf ∨ ∃ r, x = PyFloat.fin r := by
  simp

/-- `-inf` is reached as a best value. -/
example : (StepPF.init.adjust 4 16 .negInf []).fbest = .negInf := (adjust_improved 4 16 StepPF.init _ _ (.inr trivial)).1

end Verif.Props
