import Verif.Props.Loop

/-! # Property C81: the stopping rule of EI and LCB strategies -/

namespace Verif.Props

open Verif.Num Verif.Utils Verif.Cand Verif.Design Verif.Strategy Verif.Spec Verif.Loop ProbabilityTheory

variable {d h : ℕ} {L : Setup d}

/-! ## Specification -/

/-- The tolerance: the user's value, by default `1e-6` times the range of the known values. -/
def IsTolerance (tol : Option ℝ) (values : List Val) (t : ℝ) : Prop :=
  match tol with
  | some e => t = e
  | none => ∃ hi lo : Val, IsGreatest {v | v ∈ values} hi ∧ IsLeast {v | v ∈ values} lo ∧
      t = 1 / 1000000 * ((hi : ℝ) - (lo : ℝ))

/-- All values known to the strategy: those of extra points, and those of completed evaluations. -/
def knownValues (cfg : Config (Pt d)) (w : Sys (Pt d)) : List Val :=
  (known cfg.extras ++ completions w.st.log).map Prod.snd

/-- Expected improvement over `b` of a normal variable with mean `m` and deviation `s`. -/
noncomputable def expImprovement (b m s : ℝ) : ℝ := ∫ y, max (b - y) 0 ∂(gaussianReal m (s ^ 2).toNNReal)

/-- `EIStrategy(ei_tol=tol, dtol=dtol)` in state `s` asks `ei_ga` for `n` points and gets `g`; the surrogate predicts
`mean` and `std`, the random outcomes of the genetic algorithm are `runs`. -/
def EiCall (L : Setup d) (s : State (Pt d)) (n : ℕ) (tol : Option ℝ) (dtol : ℝ) (mean std : Pt d → ℝ)
    (runs : List (GARun d h)) (g : Option (List (Pt d))) : Prop :=
  ∃ (k : ℕ) (X : Fin (k + 1) → Pt d) (fX : Fin (k + 1) → ℝ),
    s.curX = List.ofFn X ∧ s.curFX.map (fun v => ((v : ℚ) : ℝ)) = List.ofFn fX ∧
    runs.length = n ∧ (∀ r ∈ runs, ∀ q i, 0 ≤ r.unit q i ∧ r.unit q i ≤ 1) ∧
    g = eiGa L.prob mean std (fX (argmin fX)) (X 0) (List.ofFn fun i : Fin k => X i.succ) s.Xpend dtol
      (tolOf tol s.fX) runs

/-- The same for `LCBStrategy`. -/
def LcbCall (L : Setup d) (s : State (Pt d)) (n : ℕ) (kappa : ℝ) (tol : Option ℝ) (dtol : ℝ) (mean std : Pt d → ℝ)
    (runs : List (GARun d h)) (g : Option (List (Pt d))) : Prop :=
  ∃ (k : ℕ) (X : Fin (k + 1) → Pt d) (fX : Fin (k + 1) → ℝ),
    s.curX = List.ofFn X ∧ s.curFX.map (fun v => ((v : ℚ) : ℝ)) = List.ofFn fX ∧
    runs.length = n ∧ (∀ r ∈ runs, ∀ q i, 0 ≤ r.unit q i ∧ r.unit q i ≤ 1) ∧
    g = lcbGa L.prob mean std kappa (X 0) (List.ofFn fun i : Fin k => X i.succ) s.Xpend dtol
      (((lowest s.fX : ℚ) : ℝ) - tolOf tol s.fX) runs

/-- These are the calls of the closed loop. -/
theorem genOf_ei {tol : Option ℝ} {dtol : ℝ} (hm : L.method = .ei tol dtol) {s : State (Pt d)} {n : ℕ}
    {g : Option (List (Pt d))} : GenOf L s n g ↔
      L.cfg.srbf = none ∧ ∃ (h : ℕ) (mean std : Pt d → ℝ) (runs : List (GARun d h)), EiCall L s n tol dtol mean std runs g := by
  unfold GenOf EiCall
  rw [hm]
  constructor
  · rintro ⟨k, X, fX, h1, h2, h3, h, mean, std, runs, h4, h5, h6⟩
    exact ⟨h3, h, mean, std, runs, k, X, fX, h1, h2, h4, h5, h6⟩
  · rintro ⟨h3, h, mean, std, runs, k, X, fX, h1, h2, h4, h5, h6⟩
    exact ⟨k, X, fX, h1, h2, h3, h, mean, std, runs, h4, h5, h6⟩

theorem genOf_lcb {kappa : ℝ} {tol : Option ℝ} {dtol : ℝ} (hm : L.method = .lcb kappa tol dtol) {s : State (Pt d)} {n : ℕ}
    {g : Option (List (Pt d))} : GenOf L s n g ↔
      L.cfg.srbf = none ∧ ∃ (h : ℕ) (mean std : Pt d → ℝ) (runs : List (GARun d h)),
        LcbCall L s n kappa tol dtol mean std runs g := by
  unfold GenOf LcbCall
  rw [hm]
  constructor
  · rintro ⟨k, X, fX, h1, h2, h3, h, mean, std, runs, h4, h5, h6⟩
    exact ⟨h3, h, mean, std, runs, k, X, fX, h1, h2, h4, h5, h6⟩
  · rintro ⟨h3, h, mean, std, runs, k, X, fX, h1, h2, h4, h5, h6⟩
    exact ⟨k, X, fX, h1, h2, h3, h, mean, std, runs, h4, h5, h6⟩

/-! ## Range and minimum of the values -/

theorem foldl_min_le (l : List Val) (a : Val) : l.foldl min a ≤ a ∧ (∀ v ∈ l, l.foldl min a ≤ v) ∧
    (l.foldl min a = a ∨ l.foldl min a ∈ l) := by
  induction l generalizing a with
  | nil => simp
  | cons b l ih =>
    obtain ⟨h1, h2, h3⟩ := ih (min a b)
    simp only [List.foldl_cons]
    refine ⟨h1.trans (min_le_left _ _), ?_, ?_⟩
    · intro v hv
      rcases List.mem_cons.mp hv with rfl | hv
      · exact h1.trans (min_le_right _ _)
      · exact h2 v hv
    · rcases h3 with h3 | h3
      · rw [h3]
        rcases min_choice a b with h | h
        · exact .inl h
        · rw [h]; exact .inr List.mem_cons_self
      · exact .inr (List.mem_cons_of_mem _ h3)

theorem le_foldl_max (l : List Val) (a : Val) : a ≤ l.foldl max a ∧ (∀ v ∈ l, v ≤ l.foldl max a) ∧
    (l.foldl max a = a ∨ l.foldl max a ∈ l) := by
  induction l generalizing a with
  | nil => simp
  | cons b l ih =>
    obtain ⟨h1, h2, h3⟩ := ih (max a b)
    simp only [List.foldl_cons]
    refine ⟨(le_max_left _ _).trans h1, ?_, ?_⟩
    · intro v hv
      rcases List.mem_cons.mp hv with rfl | hv
      · exact (le_max_right _ _).trans h1
      · exact h2 v hv
    · rcases h3 with h3 | h3
      · rw [h3]
        rcases max_choice a b with h | h
        · exact .inl h
        · rw [h]; exact .inr List.mem_cons_self
      · exact .inr (List.mem_cons_of_mem _ h3)

theorem isLeast_lowest {l : List Val} (hl : l ≠ []) : IsLeast {v | v ∈ l} (lowest l) := by
  obtain ⟨_, h2, h3⟩ := foldl_min_le l (l.headD 0)
  refine ⟨?_, fun v hv => h2 v hv⟩
  rcases h3 with h3 | h3
  · change lowest l ∈ l
    unfold lowest
    rw [h3]
    cases l with
    | nil => exact absurd rfl hl
    | cons a l => simp
  · exact h3

theorem isGreatest_highest {l : List Val} (hl : l ≠ []) : IsGreatest {v | v ∈ l} (l.foldl max (l.headD 0)) := by
  obtain ⟨_, h2, h3⟩ := le_foldl_max l (l.headD 0)
  refine ⟨?_, fun v hv => h2 v hv⟩
  rcases h3 with h3 | h3
  · change l.foldl max (l.headD 0) ∈ l
    rw [h3]
    cases l with
    | nil => exact absurd rfl hl
    | cons a l => simp
  · exact h3

theorem tolOf_eq {tol : Option ℝ} {l : List Val} {t : ℝ} (h : IsTolerance tol l t) : tolOf tol l = t := by
  unfold IsTolerance at h
  cases tol with
  | some e => simp only at h; rw [h]; rfl
  | none =>
    obtain ⟨hi, lo, h1, h2, rfl⟩ := h
    have hl : l ≠ [] := fun e => by rw [e] at h1; exact absurd h1.1 (by simp)
    have e1 := (isGreatest_highest hl).unique h1
    have e2 := (isLeast_lowest hl).unique h2
    simp only [tolOf, Option.getD_none, spread]
    change 1e-6 * (((l.foldl max (l.headD 0) - lowest l : ℚ)) : ℝ) = _
    rw [e1, e2]
    push_cast
    norm_num

/-- A tolerance exists as soon as a value is known. -/
theorem exists_tolerance (tol : Option ℝ) {l : List Val} (hl : l ≠ []) : ∃ t, IsTolerance tol l t := by
  cases tol with
  | some e => exact ⟨e, rfl⟩
  | none => exact ⟨_, _, _, isGreatest_highest hl, isLeast_lowest hl, rfl⟩

theorem best_eq {l : List Val} {k : ℕ} {fX : Fin (k + 1) → ℝ} (h : l.map (fun v => ((v : ℚ) : ℝ)) = List.ofFn fX) {b : Val}
    (hb : IsLeast {v | v ∈ l} b) : fX (argmin fX) = b := by
  apply le_antisymm
  · have : ((b : ℚ) : ℝ) ∈ List.ofFn fX := by rw [← h]; exact List.mem_map.mpr ⟨b, hb.1, rfl⟩
    obtain ⟨i, hi⟩ := (List.mem_ofFn' _ _).mp this
    rw [← hi]; exact argmin_le fX i
  · have : fX (argmin fX) ∈ l.map (fun v => ((v : ℚ) : ℝ)) := by rw [h]; exact (List.mem_ofFn' _ _).mpr ⟨_, rfl⟩
    obtain ⟨v, hv, he⟩ := List.mem_map.mp this
    rw [← he]
    exact_mod_cast hb.2 hv

/-! ## The loops of the auxiliary problems -/

theorem lcbGaLoop_none (p : OptProb d) (merit : List (Pt d) → Pt d → WithTop ℝ) (target : ℝ) (runs : List (GARun d h))
    (XX : List (Pt d)) : lcbGaLoop p merit target runs XX = none →
      ∃ k, ∃ hk : k < runs.length, ∃ chosen, lcbGaLoop p merit target (runs.take k) XX = some chosen ∧
        (target : WithTop ℝ) < (optimize p.ga (fun Y => merit (XX ++ chosen) (roundVars Y p.intVar p.lb p.ub))
          runs[k].unit runs[k].gens).bestValue := by
  induction runs generalizing XX with
  | nil => simp [lcbGaLoop]
  | cons r rs ih =>
    simp only [lcbGaLoop]
    set s := optimize p.ga (fun Y => merit XX (roundVars Y p.intVar p.lb p.ub)) r.unit r.gens with hsdef
    by_cases hlt : s.bestValue > (target : WithTop ℝ)
    · intro _
      exact ⟨0, by simp, [], by simp [lcbGaLoop], by simpa [← hsdef] using hlt⟩
    · simp only [hlt, if_false]
      intro hn
      have hn' : lcbGaLoop p merit target rs (XX ++ [s.best]) = none := by
        cases hh : lcbGaLoop p merit target rs (XX ++ [s.best]) with
        | none => rfl
        | some l => simp [hh] at hn
      obtain ⟨k, hk, chosen, h1, h2⟩ := ih _ hn'
      refine ⟨k + 1, by simpa using hk, s.best :: chosen, ?_, ?_⟩
      · simp only [List.take_succ_cons, lcbGaLoop, ← hsdef, hlt, if_false, h1]
      · simpa using h2

/-- The points on which the genetic algorithm evaluates its objective `f` in one call. -/
noncomputable def visited {α : Type} [LinearOrder α] (p : OptProb d) (f : Pt d → α) (r : GARun d h) : List (Pt d) :=
  (optimize p.ga f r.unit r.gens).evaluated

theorem visited_feasible {α : Type} [LinearOrder α] {p : OptProb d} (ok : ProbOk p) (f : Pt d → α) {r : GARun d h}
    (hr : RunOk r) : ∀ x ∈ visited p f r, Feasible p x :=
  (C33_feasible p.ga (fun i => (ok.lt i).le) ok.lbInt ok.ubInt f r.unit hr r.gens).1

/-! ## The theorems -/

/-- Every point that `EIStrategy` queues has an expected improvement over the best value of the current run of at least
the tolerance; for every reachable state, surrogate and random outcome. -/
theorem C81_ei_queued (ok : ProbOk L.prob) {w : Sys (Pt d)} (hw : LoopReach L w) {n : ℕ} {tol : Option ℝ} {dtol : ℝ}
    {mean std : Pt d → ℝ} (hs : ∀ x, 0 < std x) {runs : List (GARun d h)} {pts : List (Pt d)}
    (hc : EiCall L w.st n tol dtol mean std runs (some pts)) {t : ℝ} (ht : IsTolerance tol (knownValues L.cfg w) t)
    {b : Val} (hb : IsLeast {v | v ∈ w.st.curFX} b) :
    pts.length = n ∧ ∀ x ∈ pts, t ≤ expImprovement b (mean x) (std x) := by
  obtain ⟨k, X, fX, h1, h2, h3, h4, h5⟩ := hc
  have hbest := best_eq h2 hb
  have htol : tolOf tol w.st.fX = t := tolOf_eq (by rw [(C03_history hw.reach).2.1]; exact ht)
  rw [hbest, htol] at h5
  obtain ⟨e1, e2⟩ := eiGaLoop_spec ok _ t runs (fun r hr q i => h4 r hr q i) _ pts h5.symm
  refine ⟨e1.trans h3, fun x hx => ?_⟩
  obtain ⟨i, hi, rfl⟩ := List.getElem_of_mem hx
  refine ((e2 i hi).2).trans ?_
  unfold expImprovement
  rw [← eiFormula_eq _ _ _ (hs _)]
  unfold eiMerit
  split
  · exact eiFormula_nonneg _ _ _ (hs _)
  · exact le_rfl

open Classical in
/-- `EIStrategy` gives the run up only if, after some points `chosen` for this batch, every (feasible) point that the
genetic algorithm looked at, maximizing the expected improvement, is too close to known, pending or chosen points or has an
expected improvement below the tolerance. -/
theorem C81_ei_stop (ok : ProbOk L.prob) {w : Sys (Pt d)} (hw : LoopReach L w) {n : ℕ} {tol : Option ℝ} {dtol : ℝ}
    {mean std : Pt d → ℝ} (hs : ∀ x, 0 < std x) {runs : List (GARun d h)}
    (hc : EiCall L w.st n tol dtol mean std runs none) {t : ℝ} (ht : IsTolerance tol (knownValues L.cfg w) t)
    {b : Val} (hb : IsLeast {v | v ∈ w.st.curFX} b) :
    ∃ (r : GARun d h) (chosen : List (Pt d)) (f : Pt d → ℝ), r ∈ runs ∧ chosen.length < n ∧
      (∀ x, Feasible L.prob x → f x = if 0 < dtol ∧ ¬ Separated dtol x (w.st.curX ++ w.st.Xpend ++ chosen) then 0
        else -expImprovement b (mean x) (std x)) ∧
      (∀ x ∈ visited L.prob f r, Feasible L.prob x) ∧ (visited L.prob f r).length = (r.gens.length + 1) * (2 * (h + 1)) ∧
      ∀ x ∈ visited L.prob f r, (0 < dtol ∧ ¬ Separated dtol x (w.st.curX ++ w.st.Xpend ++ chosen)) ∨
        expImprovement b (mean x) (std x) < t := by
  obtain ⟨k, X, fX, h1, h2, h3, h4, h5⟩ := hc
  have hbest := best_eq h2 hb
  have htol : tolOf tol w.st.fX = t := tolOf_eq (by rw [(C03_history hw.reach).2.1]; exact ht)
  rw [hbest, htol] at h5
  obtain ⟨j, hj, chosen, e1, e2⟩ := (C30_none L.prob _ t runs _).mp h5.symm
  have hlen := (eiGaLoop_spec ok _ t (runs.take j) (fun r hr q i => h4 r (List.mem_of_mem_take hr) q i) _ chosen e1).1
  have hcx : w.st.curX ++ w.st.Xpend ++ chosen =
      X 0 :: ((List.ofFn fun i : Fin k => X i.succ) ++ w.st.Xpend ++ chosen) := by
    rw [h1, List.ofFn_succ]; rfl
  have hval : ∀ x, Feasible L.prob x →
      -eiMerit mean std b (X 0) ((List.ofFn fun i : Fin k => X i.succ) ++ w.st.Xpend ++ chosen) dtol
        (roundVars x L.prob.intVar L.prob.lb L.prob.ub) =
      if 0 < dtol ∧ ¬ Separated dtol x (w.st.curX ++ w.st.Xpend ++ chosen) then 0
        else -expImprovement b (mean x) (std x) := by
    intro x hf
    rw [roundVars_id hf]
    unfold eiMerit expImprovement
    have hiff := le_nearestDist_iff (x := x) (L := X 0 :: ((List.ofFn fun i : Fin k => X i.succ) ++ w.st.Xpend ++ chosen))
      (by simp) dtol
    rw [minDist_eq, ← eiFormula_eq _ _ _ (hs _), hcx]
    by_cases hcl : 0 < dtol ∧ ¬ Separated dtol x (X 0 :: ((List.ofFn fun i : Fin k => X i.succ) ++ w.st.Xpend ++ chosen))
    · rw [if_pos hcl, if_pos ⟨hcl.1, not_le.mp fun hh => hcl.2 (hiff.mp hh)⟩, neg_zero]
    · rw [if_neg hcl, if_neg fun hh => hcl ⟨hh.1, fun hh' => absurd (hiff.mpr hh') (not_le.mpr hh.2)⟩]
  refine ⟨runs[j], chosen, (fun Y => -eiMerit mean std b (X 0)
      ((List.ofFn fun i : Fin k => X i.succ) ++ w.st.Xpend ++ chosen) dtol (roundVars Y L.prob.intVar L.prob.lb L.prob.ub)),
    List.getElem_mem hj, ?_, hval,
    visited_feasible ok _ (fun q i => h4 _ (List.getElem_mem hj) q i), C34_count _ _ _ _, fun x hx => ?_⟩
  · rw [hlen, List.length_take, ← h3]; omega
  · have hle := (C34_elitist L.prob.ga _ (initialPop L.prob.ga runs[j].unit) runs[j].gens).2.2 x hx
    have hf := visited_feasible ok _ (fun q i => h4 _ (List.getElem_mem hj) q i) x hx
    have hlt := lt_of_le_of_lt (neg_le_neg hle) e2
    rw [hval x hf] at hlt
    split at hlt
    · rename_i hcl; exact .inl hcl
    · right; rwa [neg_neg] at hlt

/-- Every point that `LCBStrategy` queues has a lower confidence bound of at most the best value ever seen minus the
tolerance. -/
theorem C81_lcb_queued (ok : ProbOk L.prob) {w : Sys (Pt d)} (hw : LoopReach L w) {n : ℕ} {kappa : ℝ} {tol : Option ℝ}
    {dtol : ℝ} {mean std : Pt d → ℝ} {runs : List (GARun d h)} {pts : List (Pt d)}
    (hc : LcbCall L w.st n kappa tol dtol mean std runs (some pts)) {t : ℝ}
    (ht : IsTolerance tol (knownValues L.cfg w) t) {b : Val} (hb : IsLeast {v | v ∈ knownValues L.cfg w} b) :
    pts.length = n ∧ ∀ x ∈ pts, mean x - kappa * std x ≤ b - t := by
  obtain ⟨k, X, fX, h1, h2, h3, h4, h5⟩ := hc
  have hfX := (C03_history hw.reach).2.1
  have htol : tolOf tol w.st.fX = t := tolOf_eq (by rw [hfX]; exact ht)
  have hlow : lowest w.st.fX = b := by
    rw [hfX]
    refine (isLeast_lowest fun e => ?_).unique hb
    have := hb.1
    unfold knownValues at this
    rw [e] at this
    exact absurd this (by simp)
  rw [hlow, htol] at h5
  obtain ⟨e1, e2⟩ := lcbGaLoop_spec ok _ _ runs (fun r hr q i => h4 r hr q i) _ pts h5.symm
  refine ⟨e1.trans h3, fun x hx => ?_⟩
  obtain ⟨i, hi, rfl⟩ := List.getElem_of_mem hx
  have := (e2 i hi).2
  unfold lcbMerit at this
  split at this
  · exact absurd this (not_le.mpr (WithTop.coe_lt_top _))
  · exact WithTop.coe_le_coe.mp this

open Classical in
/-- `LCBStrategy` gives the run up only if, after some points `chosen` for this batch, every (feasible) point that the
genetic algorithm looked at, minimizing the lower confidence bound, is too close to known, pending or chosen points or has a
lower confidence bound above the best value ever seen minus the tolerance. -/
theorem C81_lcb_stop (ok : ProbOk L.prob) {w : Sys (Pt d)} (hw : LoopReach L w) {n : ℕ} {kappa : ℝ} {tol : Option ℝ}
    {dtol : ℝ} {mean std : Pt d → ℝ} {runs : List (GARun d h)}
    (hc : LcbCall L w.st n kappa tol dtol mean std runs none) {t : ℝ}
    (ht : IsTolerance tol (knownValues L.cfg w) t) {b : Val} (hb : IsLeast {v | v ∈ knownValues L.cfg w} b) :
    ∃ (r : GARun d h) (chosen : List (Pt d)) (f : Pt d → WithTop ℝ), r ∈ runs ∧ chosen.length < n ∧
      (∀ x, Feasible L.prob x → f x = if 0 < dtol ∧ ¬ Separated dtol x (w.st.curX ++ w.st.Xpend ++ chosen) then ⊤
        else ((mean x - kappa * std x : ℝ) : WithTop ℝ)) ∧
      (∀ x ∈ visited L.prob f r, Feasible L.prob x) ∧ (visited L.prob f r).length = (r.gens.length + 1) * (2 * (h + 1)) ∧
      ∀ x ∈ visited L.prob f r, (0 < dtol ∧ ¬ Separated dtol x (w.st.curX ++ w.st.Xpend ++ chosen)) ∨
        b - t < mean x - kappa * std x := by
  obtain ⟨k, X, fX, h1, h2, h3, h4, h5⟩ := hc
  have hfX := (C03_history hw.reach).2.1
  have htol : tolOf tol w.st.fX = t := tolOf_eq (by rw [hfX]; exact ht)
  have hlow : lowest w.st.fX = b := by
    rw [hfX]
    refine (isLeast_lowest fun e => ?_).unique hb
    have := hb.1
    unfold knownValues at this
    rw [e] at this
    exact absurd this (by simp)
  rw [hlow, htol] at h5
  obtain ⟨j, hj, chosen, e1, e2⟩ := lcbGaLoop_none L.prob _ _ runs _ h5.symm
  have hlen := (lcbGaLoop_spec ok _ _ (runs.take j) (fun r hr q i => h4 r (List.mem_of_mem_take hr) q i) _ chosen e1).1
  have hcx : w.st.curX ++ w.st.Xpend ++ chosen =
      X 0 :: ((List.ofFn fun i : Fin k => X i.succ) ++ w.st.Xpend ++ chosen) := by
    rw [h1, List.ofFn_succ]; rfl
  have hval : ∀ x, Feasible L.prob x →
      lcbMerit mean std kappa (X 0) ((List.ofFn fun i : Fin k => X i.succ) ++ w.st.Xpend ++ chosen) dtol
        (roundVars x L.prob.intVar L.prob.lb L.prob.ub) =
      if 0 < dtol ∧ ¬ Separated dtol x (w.st.curX ++ w.st.Xpend ++ chosen) then ⊤
        else ((mean x - kappa * std x : ℝ) : WithTop ℝ) := by
    intro x hf
    rw [roundVars_id hf]
    unfold lcbMerit
    have hiff := le_nearestDist_iff (x := x) (L := X 0 :: ((List.ofFn fun i : Fin k => X i.succ) ++ w.st.Xpend ++ chosen))
      (by simp) dtol
    rw [minDist_eq, hcx]
    by_cases hcl : 0 < dtol ∧ ¬ Separated dtol x (X 0 :: ((List.ofFn fun i : Fin k => X i.succ) ++ w.st.Xpend ++ chosen))
    · rw [if_pos hcl, if_pos ⟨hcl.1, not_le.mp fun hh => hcl.2 (hiff.mp hh)⟩]
    · rw [if_neg hcl, if_neg fun hh => hcl ⟨hh.1, fun hh' => absurd (hiff.mpr hh') (not_le.mpr hh.2)⟩]
  refine ⟨runs[j], chosen, (fun Y => lcbMerit mean std kappa (X 0)
      ((List.ofFn fun i : Fin k => X i.succ) ++ w.st.Xpend ++ chosen) dtol (roundVars Y L.prob.intVar L.prob.lb L.prob.ub)),
    List.getElem_mem hj, ?_, hval,
    visited_feasible ok _ (fun q i => h4 _ (List.getElem_mem hj) q i), C34_count _ _ _ _, fun x hx => ?_⟩
  · rw [hlen, List.length_take, ← h3]; omega
  · have hle := (C34_elitist L.prob.ga _ (initialPop L.prob.ga runs[j].unit) runs[j].gens).2.2 x hx
    have hf := visited_feasible ok _ (fun q i => h4 _ (List.getElem_mem hj) q i) x hx
    have hlt := lt_of_lt_of_le e2 hle
    change _ < lcbMerit mean std kappa (X 0) ((List.ofFn fun i : Fin k => X i.succ) ++ w.st.Xpend ++ chosen) dtol
      (roundVars x L.prob.intVar L.prob.lb L.prob.ub) at hlt
    rw [hval x hf] at hlt
    split at hlt
    · rename_i hcl; exact .inl hcl
    · exact .inr (WithTop.coe_lt_coe.mp hlt)

/-! ## The hypotheses are met -/

/-- A run on `[0, 1]`: both design points have been evaluated. -/
theorem loop_ready (m : Method) (v1 v2 : Val) : ∃ w, LoopReach ⟨unitProb, loopCfg [], m⟩ w ∧
    Idle (loopCfg []) w [] [((fun _ => 1), v1), ((fun _ => 0), v2)] := by
  have hD := design_unit unitProb rfl rfl
  have r0 : LoopReach ⟨unitProb, loopCfg [], m⟩ _ := LoopReach.create [fun _ => 0, fun _ => 1] hD
  have i0 : Idle (loopCfg []) (Sys.create (loopCfg []) (oracleOf ⟨unitProb, loopCfg [], m⟩ [fun _ => 0, fun _ => 1] none))
      ([fun _ => 0] ++ [fun _ => 1]) [] := by
    constructor <;> simp [Sys.create, create_eq, State.blank, unknownExtras, known, knownExtras, loopCfg]
    · rfl
    · rfl
  obtain ⟨w1, r1, i1⟩ := i0.cycle hD (by norm_num [loopCfg]) r0 v1
  obtain ⟨w2, r2, i2⟩ := Idle.cycle (q := []) (x := fun _ => 0) (L := ⟨unitProb, loopCfg [], m⟩) hD (by norm_num [loopCfg]) r1 i1 v2
  exact ⟨w2, r2, i2⟩

/-- EI with the default tolerance proposes the point 1/2 if the surrogate promises enough, and gives up if `dtol` excludes
the whole interval. -/
example : (∃ w runs, LoopReach ⟨unitProb, loopCfg [], .ei none 0.1⟩ w ∧ IsLeast {v | v ∈ w.st.curFX} 3 ∧
      IsTolerance none (knownValues (loopCfg []) w) (1 / 1000000) ∧
      EiCall (h := 0) ⟨unitProb, loopCfg [], .ei none 0.1⟩ w.st 1 none 0.1 (fun _ => -10) (fun _ => 1) runs
        (some [fun _ => 1 / 2])) ∧
    ∃ w runs, LoopReach ⟨unitProb, loopCfg [], .ei none 5⟩ w ∧
      EiCall (h := 0) ⟨unitProb, loopCfg [], .ei none 5⟩ w.st 1 none 5 (fun _ => -10) (fun _ => 1) runs none := by
  have hr : roundVars (fun _ => 1 / 2 : Pt 1) unitProb.intVar unitProb.lb unitProb.ub = fun _ => 1 / 2 := by
    simp [roundVars, unitProb]
  have ht : ∀ w : Sys (Pt 1), Idle (loopCfg []) w [] [((fun _ => 1), 3), ((fun _ => 0), 4)] →
      IsTolerance none (knownValues (loopCfg []) w) (1 / 1000000) := by
    intro w hi
    refine ⟨4, 3, ?_, ?_, by norm_num⟩
    · simp [knownValues, hi.log, known, loopCfg, IsGreatest, upperBounds]; norm_num
    · simp [knownValues, hi.log, known, loopCfg, IsLeast, lowerBounds]; norm_num
  constructor
  · obtain ⟨w, r, hi⟩ := loop_ready (.ei none 0.1) 3 4
    have hb : IsLeast {v | v ∈ w.st.curFX} 3 := by
      simp [hi.curFX, IsLeast, lowerBounds]; norm_num
    refine ⟨w, [midRun], r, hb, ht w hi, 1, ![fun _ => 1, fun _ => 0], ![3, 4], by simp [hi.curX], by simp [hi.curFX], rfl,
      ?_, ?_⟩
    · intro r hr q i
      rw [List.mem_singleton.mp hr]; norm_num [midRun]
    · have h1 : tolOf none w.st.fX = 1 / 1000000 :=
        tolOf_eq (by rw [(C03_history r.reach).2.1]; exact ht w hi)
      have h2 : (![3, 4] : Fin 2 → ℝ) (argmin (![3, 4] : Fin 2 → ℝ)) = (3 : ℚ) := best_eq (l := w.st.curFX) (fX := ![3, 4]) (by simp [hi.curFX]) hb
      rw [h1, h2, hi.xpend]
      symm
      refine eiGaLoop_one (midRun_best _) ?_
      rw [hr]
      have hfar : Separated 0.1 (fun _ => 1 / 2 : Pt 1) [fun _ => 1, fun _ => 0] := by
        intro y hy
        simp only [List.mem_cons, List.not_mem_nil, or_false] at hy
        rcases hy with rfl | rfl
        · simp only [eucl, Fin.sum_univ_one]
          rw [Real.sqrt_sq_eq_abs, abs_of_neg (by norm_num)]; norm_num
        · simp only [eucl, Fin.sum_univ_one]
          rw [Real.sqrt_sq_eq_abs]; norm_num [abs_of_pos]
      refine le_trans ?_ ((C32_bounds (fun _ => -10) (fun _ => 1) ((3 : ℚ) : ℝ) (fun _ => 1) [fun _ => 0] 0.1
        (fun _ => 1 / 2 : Pt 1) one_pos).2.1 hfar)
      norm_num
  · obtain ⟨w, r, hi⟩ := loop_ready (.ei none 5) 3 4
    refine ⟨w, [midRun], r, 1, ![fun _ => 1, fun _ => 0], ![3, 4], by simp [hi.curX], by simp [hi.curFX], rfl, ?_, ?_⟩
    · intro r hr q i
      rw [List.mem_singleton.mp hr]; norm_num [midRun]
    · have h1 : tolOf none w.st.fX = 1 / 1000000 :=
        tolOf_eq (by rw [(C03_history r.reach).2.1]; exact ht w hi)
      rw [h1, hi.xpend]
      symm
      refine (C30_none _ _ _ _ _).mpr ⟨0, by simp, [], rfl, ?_⟩
      have key : ∀ f : Pt 1 → ℝ, f (fun _ => 1 / 2) = 0 → -(optimize unitProb.ga f midRun.unit midRun.gens).bestValue <
          1 / 1000000 := by
        intro f hf
        have hv := (C34_elitist unitProb.ga f (initialPop unitProb.ga midRun.unit) midRun.gens).1
        change (optimize unitProb.ga f midRun.unit midRun.gens).bestValue =
          f (optimize unitProb.ga f midRun.unit midRun.gens).best at hv
        rw [hv, midRun_best, hf]; norm_num
      refine key _ ?_
      change -eiMerit (fun _ => -10) (fun _ => 1) ((![3, 4] : Fin 2 → ℝ) (argmin (![3, 4] : Fin 2 → ℝ)))
        (fun _ => 1 : Pt 1) [fun _ => 0] 5 (roundVars (fun _ => 1 / 2) unitProb.intVar unitProb.lb unitProb.ub) = 0
      rw [hr, (C32_bounds _ _ _ _ _ _ _ one_pos).2.2 ?_ (by norm_num), neg_zero]
      intro hsep
      have := hsep (fun _ => 0) (by simp)
      simp only [eucl, Fin.sum_univ_one] at this
      rw [Real.sqrt_sq_eq_abs] at this
      norm_num [abs_of_pos] at this

/-- LCB proposes the point 1/2 if the surrogate promises enough. -/
example : ∃ w, LoopReach ⟨unitProb, loopCfg [], .lcb 2 (some 0) 0.1⟩ w ∧ IsLeast {v | v ∈ knownValues (loopCfg []) w} 0 ∧
    ∃ (h : ℕ) (mean std : Pt 1 → ℝ) (runs : List (GARun 1 h)),
      LcbCall ⟨unitProb, loopCfg [], .lcb 2 (some 0) 0.1⟩ w.st 1 2 (some 0) 0.1 mean std runs (some [fun _ => 1 / 2]) := by
  obtain ⟨w, r, hi⟩ := loop_ready (.lcb 2 (some 0) 0.1) 0 0
  refine ⟨w, r, ?_, ((genOf_lcb (L := ⟨unitProb, loopCfg [], .lcb 2 (some 0) 0.1⟩) rfl).mp
    (lcb_gen [] 0 (by simp [known, lowest]) w.st (by simp [hi.curX]) (by simp [hi.curFX]) hi.xpend
      (by simp [hi.fX, loopCfg]))).2⟩
  simp [knownValues, hi.log, known, loopCfg, IsLeast, lowerBounds]

end Verif.Props
