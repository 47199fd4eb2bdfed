import Verif.Props.Acquisition
import Verif.Props.Stop

/-!
# C30, C31, C114: when `ei_ga` and `lcb_ga` give up

The exact condition for `None`, stated with the points that the genetic algorithm looked at, and what it means for a batch
on a discrete domain.  Source: /repo/pySOT/auxiliary_problems/ei_ga.py:33-61, lcb_ga.py:34-60.
-/

namespace Verif.Props

open Verif.Num Verif.Spec Verif.Utils Verif.Cand ProbabilityTheory

variable {d h : ℕ}

open Classical in
/-- The function that the genetic algorithm minimizes to find the next point for `ei_ga`: minus the expected improvement of
the rounded point, zero if it is within `dtol` of the points in `L`. -/
noncomputable def eiTarget (p : OptProb d) (mean std : Pt d → ℝ) (fbest dtol : ℝ) (L : List (Pt d)) (Y : Pt d) : ℝ :=
  if Separated dtol (roundVars Y p.intVar p.lb p.ub) L then
    -eiFormula fbest (mean (roundVars Y p.intVar p.lb p.ub)) (std (roundVars Y p.intVar p.lb p.ub))
  else 0

open Classical in
/-- The function that the genetic algorithm minimizes to find the next point for `lcb_ga`: the lower confidence bound of
the rounded point, infinite if it is within `dtol` of the points in `L`. -/
noncomputable def lcbTarget (p : OptProb d) (mean std : Pt d → ℝ) (kappa dtol : ℝ) (L : List (Pt d)) (Y : Pt d) :
    WithTop ℝ :=
  if Separated dtol (roundVars Y p.intVar p.lb p.ub) L then
    ((mean (roundVars Y p.intVar p.lb p.ub) - kappa * std (roundVars Y p.intVar p.lb p.ub) : ℝ) : WithTop ℝ)
  else ⊤

theorem eiTarget_eq (p : OptProb d) (mean std : Pt d → ℝ) (fbest : ℝ) {dtol : ℝ} (hd : 0 < dtol) (x0 : Pt d)
    (ys : List (Pt d)) :
    (fun Y => -eiMerit mean std fbest x0 ys dtol (roundVars Y p.intVar p.lb p.ub)) =
      eiTarget p mean std fbest dtol (x0 :: ys) := by
  funext Y
  unfold eiMerit eiTarget
  rw [minDist_eq]
  by_cases hs : Separated dtol (roundVars Y p.intVar p.lb p.ub) (x0 :: ys)
  · rw [if_pos hs, if_neg fun hc => absurd ((le_nearestDist_iff (by simp) dtol).mpr hs) (not_le.mpr hc.2)]
  · rw [if_neg hs, if_pos ⟨hd, not_le.mp fun hc => hs ((le_nearestDist_iff (by simp) dtol).mp hc)⟩, neg_zero]

theorem lcbTarget_eq (p : OptProb d) (mean std : Pt d → ℝ) (kappa : ℝ) {dtol : ℝ} (hd : 0 < dtol) (x0 : Pt d)
    (ys : List (Pt d)) :
    (fun Y => lcbMerit mean std kappa x0 ys dtol (roundVars Y p.intVar p.lb p.ub)) =
      lcbTarget p mean std kappa dtol (x0 :: ys) := by
  funext Y
  unfold lcbMerit lcbTarget
  rw [minDist_eq]
  by_cases hs : Separated dtol (roundVars Y p.intVar p.lb p.ub) (x0 :: ys)
  · rw [if_pos hs, if_neg fun hc => absurd ((le_nearestDist_iff (by simp) dtol).mpr hs) (not_le.mpr hc.2)]
  · rw [if_neg hs, if_pos ⟨hd, not_le.mp fun hc => hs ((le_nearestDist_iff (by simp) dtol).mp hc)⟩]

/-- `None` is returned exactly if one of the searches, after the points `chosen` for this batch, saw no point that is
separated from the evaluated, pending and chosen points and has an expected improvement of at least the tolerance. -/
theorem C30_giveup (p : OptProb d) (ok : ProbOk p) (mean std : Pt d → ℝ) (fbest : ℝ) (x0 : Pt d) (xs Xpend : List (Pt d))
    (dtol tol : ℝ) (hd : 0 < dtol) (ht : 0 < tol) (runs : List (GARun d h)) (hr : ∀ r ∈ runs, RunOk r) :
    eiGa p mean std fbest x0 xs Xpend dtol tol runs = none ↔
      ∃ k, ∃ hk : k < runs.length, ∃ chosen,
        eiGa p mean std fbest x0 xs Xpend dtol tol (runs.take k) = some chosen ∧
        ∀ x ∈ (optimize p.ga (eiTarget p mean std fbest dtol (x0 :: xs ++ Xpend ++ chosen))
            runs[k].unit runs[k].gens).evaluated,
          Feasible p x ∧ ¬ (Separated dtol x (x0 :: xs ++ Xpend ++ chosen) ∧ tol ≤ eiFormula fbest (mean x) (std x)) := by
  unfold eiGa
  rw [C30_none]
  refine exists_congr fun k => exists_congr fun hk => exists_congr fun chosen => and_congr_right fun _ => ?_
  have hcons : x0 :: xs ++ Xpend ++ chosen = x0 :: (xs ++ Xpend ++ chosen) := rfl
  beta_reduce
  rw [hcons, List.headD_cons, List.tail_cons, eiTarget_eq p mean std fbest hd]
  set f := eiTarget p mean std fbest dtol (x0 :: (xs ++ Xpend ++ chosen)) with hf
  have hrun := hr runs[k] (List.getElem_mem hk)
  have hfe := C33_feasible p.ga (fun i => (ok.lt i).le) ok.lbInt ok.ubInt f runs[k].unit hrun runs[k].gens
  have hel := C34_elitist p.ga f (initialPop p.ga runs[k].unit) runs[k].gens
  change (optimize p.ga f runs[k].unit runs[k].gens).bestValue = f (optimize p.ga f runs[k].unit runs[k].gens).best ∧
    (optimize p.ga f runs[k].unit runs[k].gens).best ∈ (optimize p.ga f runs[k].unit runs[k].gens).evaluated ∧
    (∀ x ∈ (optimize p.ga f runs[k].unit runs[k].gens).evaluated,
      (optimize p.ga f runs[k].unit runs[k].gens).bestValue ≤ f x) at hel
  have hval : ∀ x, Feasible p x → (Separated dtol x (x0 :: (xs ++ Xpend ++ chosen)) →
      f x = -eiFormula fbest (mean x) (std x)) ∧ (¬ Separated dtol x (x0 :: (xs ++ Xpend ++ chosen)) → f x = 0) := by
    intro x hx
    rw [hf]; unfold eiTarget; rw [roundVars_id hx]
    exact ⟨fun hs => if_pos hs, fun hs => if_neg hs⟩
  constructor
  · intro hlt x hx
    refine ⟨hfe.1 x hx, fun hc => ?_⟩
    have h1 := hel.2.2 x hx
    rw [(hval x (hfe.1 x hx)).1 hc.1] at h1
    linarith [hc.2]
  · intro hall
    obtain ⟨h1, h2⟩ := hall _ hel.2.1
    have hv := hval _ h1
    rw [hel.1]
    by_cases hs : Separated dtol (optimize p.ga f runs[k].unit runs[k].gens).best (x0 :: (xs ++ Xpend ++ chosen))
    · rw [hv.1 hs, neg_neg]
      exact not_le.mp fun hc => h2 ⟨hs, hc⟩
    · rw [hv.2 hs]; simpa using ht

theorem lcbGaLoop_none_iff (p : OptProb d) (merit : List (Pt d) → Pt d → WithTop ℝ) (target : ℝ) (runs : List (GARun d h))
    (XX : List (Pt d)) :
    lcbGaLoop p merit target runs XX = none ↔
      ∃ k, ∃ hk : k < runs.length, ∃ chosen, lcbGaLoop p merit target (runs.take k) XX = some chosen ∧
        (target : WithTop ℝ) <
          (optimize p.ga (fun Y => merit (XX ++ chosen) (roundVars Y p.intVar p.lb p.ub)) runs[k].unit runs[k].gens).bestValue := by
  induction runs generalizing XX with
  | nil => simp [lcbGaLoop]
  | cons r rs ih =>
    simp only [lcbGaLoop]
    set s := optimize p.ga (fun Y => merit XX (roundVars Y p.intVar p.lb p.ub)) r.unit r.gens with hsdef
    by_cases hlt : s.bestValue > (target : WithTop ℝ)
    · simp only [hlt, if_true, true_iff]
      exact ⟨0, by simp, [], by simp [lcbGaLoop], by simpa [← hsdef] using hlt⟩
    · simp only [hlt, if_false]
      constructor
      · intro hn
        have hn' : lcbGaLoop p merit target rs (XX ++ [s.best]) = none := by
          cases hh : lcbGaLoop p merit target rs (XX ++ [s.best]) with
          | none => rfl
          | some l => simp [hh] at hn
        obtain ⟨k, hk, chosen, h1, h2⟩ := (ih _).mp hn'
        refine ⟨k + 1, by simpa using hk, s.best :: chosen, ?_, ?_⟩
        · simp only [List.take_succ_cons, lcbGaLoop, ← hsdef, hlt, if_false, h1]
        · simpa using h2
      · rintro ⟨k, hk, chosen, h1, h2⟩
        cases k with
        | zero =>
          simp only [List.take_zero, lcbGaLoop, Option.some.injEq] at h1
          subst h1
          exact absurd (by simpa [← hsdef] using h2) hlt
        | succ k =>
          simp only [List.take_succ_cons, lcbGaLoop, ← hsdef, hlt, if_false] at h1
          split at h1
          · simp at h1
          · rename_i l hl
            simp only [Option.some.injEq] at h1
            subst h1
            have : lcbGaLoop p merit target rs (XX ++ [s.best]) = none :=
              (ih _).mpr ⟨k, by simpa using hk, l, hl, by simpa using h2⟩
            rw [this]

/-- The same for `lcb_ga`: no point seen in one of the searches is separated from the known points and has a lower
confidence bound of at most the target. -/
theorem C31_giveup (p : OptProb d) (ok : ProbOk p) (mean std : Pt d → ℝ) (kappa : ℝ) (x0 : Pt d) (xs Xpend : List (Pt d))
    (dtol target : ℝ) (hd : 0 < dtol) (runs : List (GARun d h)) (hr : ∀ r ∈ runs, RunOk r) :
    lcbGa p mean std kappa x0 xs Xpend dtol target runs = none ↔
      ∃ k, ∃ hk : k < runs.length, ∃ chosen,
        lcbGa p mean std kappa x0 xs Xpend dtol target (runs.take k) = some chosen ∧
        ∀ x ∈ (optimize p.ga (lcbTarget p mean std kappa dtol (x0 :: xs ++ Xpend ++ chosen))
            runs[k].unit runs[k].gens).evaluated,
          Feasible p x ∧ ¬ (Separated dtol x (x0 :: xs ++ Xpend ++ chosen) ∧ mean x - kappa * std x ≤ target) := by
  unfold lcbGa
  rw [lcbGaLoop_none_iff]
  refine exists_congr fun k => exists_congr fun hk => exists_congr fun chosen => and_congr_right fun _ => ?_
  have hcons : x0 :: xs ++ Xpend ++ chosen = x0 :: (xs ++ Xpend ++ chosen) := rfl
  beta_reduce
  rw [hcons, List.headD_cons, List.tail_cons, lcbTarget_eq p mean std kappa hd]
  set f := lcbTarget p mean std kappa dtol (x0 :: (xs ++ Xpend ++ chosen)) with hf
  have hrun := hr runs[k] (List.getElem_mem hk)
  have hfe := C33_feasible p.ga (fun i => (ok.lt i).le) ok.lbInt ok.ubInt f runs[k].unit hrun runs[k].gens
  have hel := C34_elitist p.ga f (initialPop p.ga runs[k].unit) runs[k].gens
  change (optimize p.ga f runs[k].unit runs[k].gens).bestValue = f (optimize p.ga f runs[k].unit runs[k].gens).best ∧
    (optimize p.ga f runs[k].unit runs[k].gens).best ∈ (optimize p.ga f runs[k].unit runs[k].gens).evaluated ∧
    (∀ x ∈ (optimize p.ga f runs[k].unit runs[k].gens).evaluated,
      (optimize p.ga f runs[k].unit runs[k].gens).bestValue ≤ f x) at hel
  have hval : ∀ x, Feasible p x → (Separated dtol x (x0 :: (xs ++ Xpend ++ chosen)) →
      f x = ((mean x - kappa * std x : ℝ) : WithTop ℝ)) ∧
      (¬ Separated dtol x (x0 :: (xs ++ Xpend ++ chosen)) → f x = ⊤) := by
    intro x hx
    rw [hf]; unfold lcbTarget; rw [roundVars_id hx]
    exact ⟨fun hs => if_pos hs, fun hs => if_neg hs⟩
  constructor
  · intro hlt x hx
    refine ⟨hfe.1 x hx, fun hc => ?_⟩
    have h1 := hel.2.2 x hx
    rw [(hval x (hfe.1 x hx)).1 hc.1] at h1
    exact absurd (lt_of_lt_of_le hlt h1) (not_lt.mpr (WithTop.coe_le_coe.mpr hc.2))
  · intro hall
    obtain ⟨h1, h2⟩ := hall _ hel.2.1
    have hv := hval _ h1
    rw [hel.1]
    by_cases hs : Separated dtol (optimize p.ga f runs[k].unit runs[k].gens).best (x0 :: (xs ++ Xpend ++ chosen))
    · rw [hv.1 hs, WithTop.coe_lt_coe]
      exact not_le.mp fun hc => h2 ⟨hs, hc⟩
    · rw [hv.2 hs]; exact WithTop.coe_lt_top _

/-! ## C114: batches at the end of a discrete domain -/

theorem nodup_of_separated {res : List (Pt d)} {δ : ℝ} (hd : 0 < δ) (hp : res.Pairwise fun x y => δ ≤ eucl x y) :
    res.Nodup := by
  refine hp.imp fun {x y} hxy heq => ?_
  subst heq
  have : eucl x x = 0 := by simp [eucl]
  linarith

theorem not_mem_of_separated {x : Pt d} {L : List (Pt d)} {δ : ℝ} (hd : 0 < δ) (hs : Separated δ x L) : x ∉ L := by
  intro hx
  have := hs x hx
  have h0 : eucl x x = 0 := by simp [eucl]
  linarith

theorem batch_too_large {p : OptProb d} {L res : List (Pt d)} {δ : ℝ} {n : ℕ} (hd : 0 < δ) (hlen : res.length = n)
    (hf : ∀ x ∈ res, Feasible p x) (hs : ∀ x ∈ res, Separated δ x L) (hp : res.Pairwise fun x y => δ ≤ eucl x y)
    (S : Finset (Pt d)) (hS : ∀ x, Feasible p x → x ∉ L → x ∈ S) : n ≤ S.card := by
  classical
  have h1 : res.toFinset ⊆ S := fun x hx =>
    hS x (hf x (List.mem_toFinset.mp hx)) (not_mem_of_separated hd (hs x (List.mem_toFinset.mp hx)))
  have h2 := Finset.card_le_card h1
  rw [List.toFinset_card_of_nodup (nodup_of_separated hd hp), hlen] at h2
  exact h2

/-- If the points of the domain that are neither evaluated nor pending are all in the finite set `S`, and a batch is larger
than `S`, then `ei_ga` returns `None`, whatever the surrogate and the random draws: no point is proposed. -/
theorem C114_ei_short (p : OptProb d) (ok : ProbOk p) (mean std : Pt d → ℝ) (fbest : ℝ) (x0 : Pt d)
    (xs Xpend : List (Pt d)) (dtol tol : ℝ) (hd : 0 < dtol) (ht : 0 < tol) (runs : List (GARun d h))
    (hr : ∀ r ∈ runs, RunOk r) (S : Finset (Pt d)) (hS : ∀ x, Feasible p x → x ∉ x0 :: xs ++ Xpend → x ∈ S)
    (hlt : S.card < runs.length) : eiGa p mean std fbest x0 xs Xpend dtol tol runs = none := by
  cases hres : eiGa p mean std fbest x0 xs Xpend dtol tol runs with
  | none => rfl
  | some res =>
    obtain ⟨h1, h2, h3, h4, -⟩ := C30_separated p ok mean std fbest x0 xs Xpend dtol tol hd ht runs hr res hres
    exact absurd (batch_too_large hd h1 h2 h3 h4 S hS) (not_le.mpr hlt)

/-- The same for `lcb_ga`. -/
theorem C114_lcb_short (p : OptProb d) (ok : ProbOk p) (mean std : Pt d → ℝ) (kappa : ℝ) (x0 : Pt d)
    (xs Xpend : List (Pt d)) (dtol target : ℝ) (hd : 0 < dtol) (runs : List (GARun d h))
    (hr : ∀ r ∈ runs, RunOk r) (S : Finset (Pt d)) (hS : ∀ x, Feasible p x → x ∉ x0 :: xs ++ Xpend → x ∈ S)
    (hlt : S.card < runs.length) : lcbGa p mean std kappa x0 xs Xpend dtol target runs = none := by
  cases hres : lcbGa p mean std kappa x0 xs Xpend dtol target runs with
  | none => rfl
  | some res =>
    obtain ⟨h1, h2, h3, h4, -⟩ := C31_separated p ok mean std kappa x0 xs Xpend dtol target hd runs hr res hres
    exact absurd (batch_too_large hd h1 h2 h3 h4 S hS) (not_le.mpr hlt)

/-- With one point per call (asynchronous mode, batch size 1) the claim holds: if the genetic algorithm saw a separated
point of sufficient expected improvement, such a point is returned. -/
theorem C114_ei_single (p : OptProb d) (ok : ProbOk p) (mean std : Pt d → ℝ) (fbest : ℝ) (x0 : Pt d)
    (xs Xpend : List (Pt d)) (dtol tol : ℝ) (hd : 0 < dtol) (ht : 0 < tol) (r : GARun d h) (hr : RunOk r)
    (hex : ∃ x ∈ (optimize p.ga (eiTarget p mean std fbest dtol (x0 :: xs ++ Xpend)) r.unit r.gens).evaluated,
      Separated dtol x (x0 :: xs ++ Xpend) ∧ tol ≤ eiFormula fbest (mean x) (std x)) :
    ∃ x, eiGa p mean std fbest x0 xs Xpend dtol tol [r] = some [x] ∧ Feasible p x ∧ Separated dtol x (x0 :: xs ++ Xpend) ∧
      tol ≤ eiFormula fbest (mean x) (std x) := by
  have hrs : ∀ r' ∈ [r], RunOk r' := fun r' h' => by rw [List.mem_singleton.mp h']; exact hr
  cases hres : eiGa p mean std fbest x0 xs Xpend dtol tol [r] with
  | none =>
    obtain ⟨k, hk, chosen, h1, h2⟩ := (C30_giveup p ok mean std fbest x0 xs Xpend dtol tol hd ht [r] hrs).mp hres
    obtain rfl : k = 0 := by simpa using hk
    simp only [List.take_zero, eiGa, eiGaLoop, Option.some.injEq] at h1
    subst h1
    obtain ⟨x, hx, hc⟩ := hex
    simp only [List.append_nil, List.getElem_cons_zero] at h2
    exact absurd hc (h2 x hx).2
  | some res =>
    obtain ⟨h1, h2, h3, -, h5⟩ := C30_separated p ok mean std fbest x0 xs Xpend dtol tol hd ht [r] hrs res hres
    obtain ⟨x, rfl⟩ := List.length_eq_one_iff.mp (by simpa using h1)
    exact ⟨x, rfl, h2 x (by simp), h3 x (by simp), h5 x (by simp)⟩

/-- In the strategy: if EIStrategy (given tolerance `t > 0`) asks for more points than the domain has left, nothing is
proposed and the run counts as converged, in every state. -/
theorem C114_ei_strategy {L : Loop.Setup d} (ok : ProbOk L.prob) {s : Strategy.State (Pt d)} {n : ℕ} {t dtol : ℝ}
    (hd : 0 < dtol) (ht : 0 < t) {mean std : Pt d → ℝ} {runs : List (GARun d h)} {g : Option (List (Pt d))}
    (hc : EiCall L s n (some t) dtol mean std runs g) (S : Finset (Pt d))
    (hS : ∀ x, Feasible L.prob x → x ∉ s.curX ++ s.Xpend → x ∈ S) (hlt : S.card < n) : g = none := by
  obtain ⟨k, X, fX, h1, -, h3, h4, h5⟩ := hc
  rw [h5]
  refine C114_ei_short L.prob ok mean std _ _ _ _ dtol _ hd ht runs h4 S (fun x hx hn => hS x hx ?_) (h3 ▸ hlt)
  rwa [h1, List.ofFn_succ]

/-- The same for LCBStrategy. -/
theorem C114_lcb_strategy {L : Loop.Setup d} (ok : ProbOk L.prob) {s : Strategy.State (Pt d)} {n : ℕ} {kappa dtol : ℝ}
    {tol : Option ℝ} (hd : 0 < dtol) {mean std : Pt d → ℝ} {runs : List (GARun d h)} {g : Option (List (Pt d))}
    (hc : LcbCall L s n kappa tol dtol mean std runs g) (S : Finset (Pt d))
    (hS : ∀ x, Feasible L.prob x → x ∉ s.curX ++ s.Xpend → x ∈ S) (hlt : S.card < n) : g = none := by
  obtain ⟨k, X, fX, h1, -, h3, h4, h5⟩ := hc
  rw [h5]
  refine C114_lcb_short L.prob ok mean std _ _ _ _ dtol _ hd runs h4 S (fun x hx hn => hS x hx ?_) (h3 ▸ hlt)
  rwa [h1, List.ofFn_succ]

/-- One integer variable with the values 0 and 1. -/
noncomputable def oneBit : OptProb 1 := { lb := fun _ => 0, ub := fun _ => 1, intVar := [0] }

theorem oneBit_ok : ProbOk oneBit :=
  ⟨fun _ => by norm_num [oneBit], fun i _ => ⟨0, by simp [oneBit]⟩, fun i _ => ⟨1, by simp [oneBit]⟩⟩

/-- Refuted for batches: of the domain {0, 1} the point 0 is evaluated and the other one has an expected improvement of at
least 10 (tolerance 1).  Asked for one point, `ei_ga` returns it; asked for two it returns `None` for all draws. -/
theorem C114_refuted :
    ∃ mean std : Pt 1 → ℝ, (∀ x, 0 < std x) ∧ 10 ≤ eiFormula 0 (mean fun _ => 1) (std fun _ => 1) ∧
      (∃ r : GARun 1 0, RunOk r ∧ eiGa oneBit mean std 0 (fun _ => 0) [] [] 0.1 1 [r] = some [fun _ => 1]) ∧
      ∀ h, ∀ r r' : GARun 1 h, RunOk r → RunOk r' →
        eiGa oneBit mean std 0 (fun _ => 0) [] [] 0.1 1 [r, r'] = none := by
  have hfar : Separated 0.1 (fun _ => 1 : Pt 1) [fun _ => 0] := by
    intro y hy
    rw [List.mem_singleton.mp hy]
    simp only [eucl, Fin.sum_univ_one]
    rw [Real.sqrt_sq_eq_abs]; norm_num [abs_of_pos]
  have hei : (10 : ℝ) ≤ eiFormula 0 (-10) 1 := by
    have h1 := (C32_bounds (fun _ => -10) (fun _ => 1) 0 (fun _ => 0) [] 0.1 (fun _ => 1 : Pt 1) one_pos).2.1 hfar
    have h2 : eiMerit (fun _ => -10) (fun _ => 1) 0 (fun _ => 0) [] 0.1 (fun _ => 1 : Pt 1) = eiFormula 0 (-10) 1 := by
      unfold eiMerit
      rw [minDist_eq, if_neg fun hc => absurd ((le_nearestDist_iff (by simp) _).mpr hfar) (not_le.mpr hc.2)]
    rw [h2] at h1; linarith
  refine ⟨fun _ => -10, fun _ => 1, fun _ => one_pos, hei, ⟨⟨fun _ _ => 1, []⟩, fun k i => by norm_num, ?_⟩, ?_⟩
  · refine eiGaLoop_one (x := fun _ => 1) ?_ ?_
    · have hb : ∀ k : Fin (popSize 0), initialRound oneBit.ga (initialPop oneBit.ga (fun _ _ => (1 : ℝ)) k) = fun _ => 1 := by
        intro k
        funext i
        have hi : i = 0 := Subsingleton.elim _ _
        subst hi
        have h1 : initialPop oneBit.ga (fun _ _ => (1 : ℝ)) k = (fun _ => 1 : Pt 1) := by
          funext i; simp [initialPop, oneBit, OptProb.ga]
        rw [h1]
        have h2 : rint 1 = 1 := by exact_mod_cast rint_intCast 1
        simp [initialRound, OptProb.ga, oneBit, nudgeCol, roundCols, h2, not_lt.mpr (zero_le_one' ℝ)]
      exact hb _
    · have hr : roundVars (fun _ => 1 : Pt 1) oneBit.intVar oneBit.lb oneBit.ub = fun _ => 1 :=
        roundVars_id (p := oneBit) ⟨fun i => by norm_num [oneBit], fun i _ => ⟨1, by simp⟩⟩
      rw [hr]
      change (1 : ℝ) ≤ eiMerit (fun _ => -10) (fun _ => 1) 0 (fun _ => 0) [] 0.1 (fun _ => 1 : Pt 1)
      unfold eiMerit
      rw [minDist_eq, if_neg fun hc => absurd ((le_nearestDist_iff (by simp) _).mpr hfar) (not_le.mpr hc.2)]
      linarith
  · intro h r r' hr hr'
    refine C114_ei_short oneBit oneBit_ok _ _ 0 _ [] [] 0.1 1 (by norm_num) one_pos [r, r'] ?_ {fun _ => 1} ?_ (by simp)
    · intro r'' h''
      rcases List.mem_pair.mp h'' with rfl | rfl <;> assumption
    · intro x hx hn
      obtain ⟨k, hk⟩ := hx.2 0 (by simp [oneBit])
      have hb := hx.1 0
      simp only [oneBit] at hb
      have hk0 : (0 : ℝ) ≤ k ∧ (k : ℝ) ≤ 1 := by rw [← hk]; exact hb
      have h0 : 0 ≤ k := by exact_mod_cast hk0.1
      have h1 : k ≤ 1 := by exact_mod_cast hk0.2
      have hxk : x = fun _ => (k : ℝ) := by
        funext i; rw [Subsingleton.elim i 0]; exact hk
      rcases (by omega : k = 0 ∨ k = 1) with rfl | rfl
      · exact absurd (by simp [hxk]) hn
      · simp [hxk]

end Verif.Props
