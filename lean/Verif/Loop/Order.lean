import Verif.Loop.Run
import Verif.Cand.CandProofs

/-!
# The auxiliary problems do not depend on the order of the data

Used for C122: `generate_evals` gives the same points if the evaluated points are listed in another order, provided that the
surrogate does not depend on the order and that the best value is attained at one point only (`np.argmin` takes the first).
-/

namespace Verif.Loop

open Verif.Num Verif.Utils Verif.Cand Verif.Design Verif.Strategy Verif.Spec

variable {d : ℕ}

/-- The surrogate does not depend on the order of its data (C87 for the RBF interpolant, C115 for the Gaussian process). -/
def OrderFreeSurr (S : Surr d) : Prop := ∀ A B : List (Pt d × ℝ), A.Perm B → S.mean A = S.mean B ∧ S.std A = S.std B

/-- The evaluations of the current run with the smallest value are evaluations of one point. -/
def UniqueBest (s : State (Pt d)) : Prop :=
  ∀ p ∈ s.curX.zip s.curFX, ∀ q ∈ s.curX.zip s.curFX, (∀ r ∈ s.curX.zip s.curFX, p.2 ≤ r.2) →
    (∀ r ∈ s.curX.zip s.curFX, q.2 ≤ r.2) → p.1 = q.1

/-- The same data in possibly different order. -/
structure SameData (s s' : State (Pt d)) : Prop where
  cur : ∃ c c' : List (Pt d × Val), c.Perm c' ∧ s.curX = c.map Prod.fst ∧ s.curFX = c.map Prod.snd ∧
    s'.curX = c'.map Prod.fst ∧ s'.curFX = c'.map Prod.snd
  fX : s.fX.Perm s'.fX
  X : s.X.length = s'.X.length
  surr : s.surr.Perm s'.surr
  Xpend : s.Xpend.Perm s'.Xpend
  srbf : s.srbf = s'.srbf

theorem nearestDist_congr (x : Pt d) {A B : List (Pt d)} (h : ∀ y, y ∈ A ↔ y ∈ B) : nearestDist x A = nearestDist x B := by
  unfold nearestDist
  exact Equiv.iInf_congr (Equiv.subtypeEquivRight h) fun _ => rfl

theorem minDist_congr (x y z : Pt d) {A B : List (Pt d)} (h : ∀ w, w ∈ y :: A ↔ w ∈ z :: B) : minDist x y A = minDist x z B := by
  rw [minDist_eq, minDist_eq, nearestDist_congr x h]

theorem wdm_congr {n n' m : ℕ} (pred : Pt d → ℝ) (X : Fin (n + 1) → Pt d) (X' : Fin (n' + 1) → Pt d) (P P' : List (Pt d))
    (h : ∀ y, y ∈ List.ofFn X ++ P ↔ y ∈ List.ofFn X' ++ P') (cand : Fin (m + 1) → Pt d) (ws : List ℝ) (dtol : ℝ) :
    weightedDistanceMerit pred X P cand ws dtol = weightedDistanceMerit pred X' P' cand ws dtol := by
  unfold weightedDistanceMerit wdmIdx
  congr 2
  funext j
  apply minDist_congr
  intro w
  have := h w
  rw [List.ofFn_succ, List.ofFn_succ] at this
  simpa using this

/-- The best of the listed evaluations. -/
theorem best_of (x0 : Pt d) (xs : List (Pt d)) (c : List (Pt d × Val)) (hX : x0 :: xs = c.map Prod.fst)
    (hcl : c.length = xs.length + 1) (fX : Fin (xs.length + 1) → ℝ)
    (hf : ∀ i : Fin (xs.length + 1), fX i = (((c[i.1]'(by rw [hcl]; exact i.2)).2 : ℚ) : ℝ)) :
    ∃ p ∈ c, (∀ q ∈ c, p.2 ≤ q.2) ∧ xbestOf (fun i : Fin (xs.length + 1) => (x0 :: xs)[i]) fX = p.1 ∧
      fX (argmin fX) = ((p.2 : ℚ) : ℝ) := by
  obtain ⟨k, hk⟩ : ∃ k, k = argmin fX := ⟨_, rfl⟩
  have hle : ∀ j, fX k ≤ fX j := by intro j; rw [hk]; exact argmin_le fX j
  refine ⟨c[k.1]'(by rw [hcl]; exact k.2), List.getElem_mem _, ?_, ?_, ?_⟩
  · intro q hq
    obtain ⟨i, hi, rfl⟩ := List.getElem_of_mem hq
    have := hle ⟨i, by omega⟩
    rw [hf, hf] at this
    exact_mod_cast this
  · unfold xbestOf
    rw [← hk]
    simp only [hX]
    simp
  · rw [← hk, hf]

theorem lowest_perm {a b : List Val} (h : a.Perm b) : lowest a = lowest b := by
  have key : ∀ (l : List Val) (v : Val), l.foldl min v ≤ v ∧ (∀ x ∈ l, l.foldl min v ≤ x) ∧ (l.foldl min v = v ∨ l.foldl min v ∈ l) := by
    intro l
    induction l with
    | nil => intro v; simp
    | cons y l ih =>
      intro v
      obtain ⟨h1, h2, h3⟩ := ih (min v y)
      simp only [List.foldl_cons]
      refine ⟨h1.trans (min_le_left _ _), ?_, ?_⟩
      · intro x hx
        rcases List.mem_cons.mp hx with rfl | hx
        · exact h1.trans (min_le_right _ _)
        · exact h2 x hx
      · rcases h3 with h3 | h3
        · rcases min_choice v y with h | h
          · left; rw [h3, h]
          · right; rw [h3, h]; simp
        · right; exact List.mem_cons_of_mem _ h3
  unfold lowest
  cases a with
  | nil => rw [h.nil_eq]
  | cons x a =>
    cases b with
    | nil => exact absurd h.symm.nil_eq (by simp)
    | cons y b =>
      simp only [List.headD_cons]
      obtain ⟨_, h2, h3⟩ := key (x :: a) x
      obtain ⟨_, g2, g3⟩ := key (y :: b) y
      have h3 : (x :: a).foldl min x ∈ x :: a := by rcases h3 with h | h; · rw [h]; simp
                                                    · exact h
      have g3 : (y :: b).foldl min y ∈ y :: b := by rcases g3 with h | h; · rw [h]; simp
                                                    · exact h
      exact le_antisymm (h2 _ (h.symm.subset g3)) (g2 _ (h.subset h3))

theorem spread_perm {a b : List Val} (h : a.Perm b) : spread a = spread b := by
  have neg : ∀ (l : List Val) (v : Val), l.foldl max v = -((l.map fun x => -x).foldl min (-v)) := by
    intro l
    induction l with
    | nil => intro v; simp
    | cons y l ih => intro v; simp only [List.foldl_cons, List.map_cons, ih, min_neg_neg]
  have hlow := lowest_perm h
  have hlow' := lowest_perm (h.map fun x => -x)
  have hh : ∀ l : List Val, (l.map fun x => -x).headD 0 = -(l.headD 0) := by intro l; cases l <;> simp
  unfold lowest at hlow hlow'
  unfold spread
  rw [neg a, neg b, ← hh, ← hh, hlow, hlow']

theorem tolOf_perm (tol : Option ℝ) {a b : List Val} (h : a.Perm b) : tolOf tol a = tolOf tol b := by
  unfold tolOf; rw [spread_perm h]

theorem eiGaLoop_congr {h : ℕ} (p : OptProb d) (m m' : List (Pt d) → Pt d → ℝ) (tol : ℝ)
    (hm : ∀ A B : List (Pt d), A ≠ [] → B ≠ [] → (∀ y, y ∈ A ↔ y ∈ B) → m A = m' B) (rs : List (GARun d h)) :
    ∀ A B : List (Pt d), A ≠ [] → B ≠ [] → (∀ y, y ∈ A ↔ y ∈ B) → eiGaLoop p m tol rs A = eiGaLoop p m' tol rs B := by
  induction rs with
  | nil => intros; rfl
  | cons r rs ih =>
    intro A B hA hB hAB
    have e := hm A B hA hB hAB
    have ih' : ∀ z, eiGaLoop p m tol rs (A ++ [z]) = eiGaLoop p m' tol rs (B ++ [z]) := fun z =>
      ih _ _ (by simp) (by simp) (fun y => by simp [hAB])
    simp only [eiGaLoop, e, ih']

theorem lcbGaLoop_congr {h : ℕ} (p : OptProb d) (m m' : List (Pt d) → Pt d → WithTop ℝ) (tol : ℝ)
    (hm : ∀ A B : List (Pt d), A ≠ [] → B ≠ [] → (∀ y, y ∈ A ↔ y ∈ B) → m A = m' B) (rs : List (GARun d h)) :
    ∀ A B : List (Pt d), A ≠ [] → B ≠ [] → (∀ y, y ∈ A ↔ y ∈ B) → lcbGaLoop p m tol rs A = lcbGaLoop p m' tol rs B := by
  induction rs with
  | nil => intros; rfl
  | cons r rs ih =>
    intro A B hA hB hAB
    have e := hm A B hA hB hAB
    have ih' : ∀ z, lcbGaLoop p m tol rs (A ++ [z]) = lcbGaLoop p m' tol rs (B ++ [z]) := fun z =>
      ih _ _ (by simp) (by simp) (fun y => by simp [hAB])
    simp only [lcbGaLoop, e, ih']

/-- `generate_evals` does not depend on the order of the data. -/
theorem gen_order {L : Setup d} {S : Surr d} (hS : OrderFreeSurr S) {s s' : State (Pt d)} (h : SameData s s')
    (hb : L.method = .srbf ∨ L.method = .dycors → UniqueBest s) (n : ℕ) (r : Rnd d) : gen L S s n r = gen L S s' n r := by
  obtain ⟨c, c', hc, hX, hF, hX', hF'⟩ := h.cur
  have hsurr : S.mean (surrData s) = S.mean (surrData s') ∧ S.std (surrData s) = S.std (surrData s') :=
    hS _ _ (h.surr.map _)
  unfold gen
  cases hcX : s.curX with
  | nil =>
    have : s'.curX = [] := by
      rw [hX] at hcX; rw [hX']
      have := List.map_eq_nil_iff.mp hcX
      subst this
      rw [hc.symm.eq_nil]; rfl
    rw [this]
  | cons x0 xs =>
    obtain ⟨y0, ys, hcX'⟩ : ∃ y0 ys, s'.curX = y0 :: ys := by
      cases h' : s'.curX with
      | nil =>
        exfalso
        rw [hX'] at h'
        have := List.map_eq_nil_iff.mp h'
        subst this
        rw [hX, hc.eq_nil] at hcX
        cases hcX
      | cons y0 ys => exact ⟨y0, ys, rfl⟩
    rw [hcX']
    have e1 : x0 :: xs = c.map Prod.fst := by rw [← hX, hcX]
    have e2 : y0 :: ys = c'.map Prod.fst := by rw [← hX', hcX']
    have hl1 : s.curFX.length = xs.length + 1 := by rw [hF, List.length_map]; simpa using (congrArg List.length e1).symm
    have hl2 : s'.curFX.length = ys.length + 1 := by rw [hF', List.length_map]; simpa using (congrArg List.length e2).symm
    have hmem : ∀ y, y ∈ x0 :: xs ↔ y ∈ y0 :: ys := by
      intro y; rw [e1, e2]; exact (hc.map Prod.fst).mem_iff
    by_cases hf : s.fX = []
    · have hf' : s'.fX = [] := by have := h.fX; rw [hf] at this; exact this.symm.eq_nil
      simp only
      rw [dif_neg (fun hh => hh.2 hf), dif_neg (fun hh => hh.2 hf')]
    · have hf' : s'.fX ≠ [] := fun he => hf (by have := h.fX; rw [he] at this; exact this.eq_nil)
      simp only
      rw [dif_pos ⟨hl1, hf⟩, dif_pos ⟨hl2, hf'⟩]
      have hc1 : c.length = xs.length + 1 := by rw [← hl1, hF, List.length_map]
      have hc2 : c'.length = ys.length + 1 := by rw [← hl2, hF', List.length_map]
      obtain ⟨F, hFd⟩ : ∃ F : Fin (xs.length + 1) → ℝ, F = fun i => ((s.curFX[i]'(by rw [hl1]; exact i.2) : ℚ) : ℝ) := ⟨_, rfl⟩
      obtain ⟨F', hFd'⟩ : ∃ F : Fin (ys.length + 1) → ℝ, F = fun i => ((s'.curFX[i]'(by rw [hl2]; exact i.2) : ℚ) : ℝ) := ⟨_, rfl⟩
      rw [← hFd, ← hFd']
      obtain ⟨p, hp, hpm, hpx, hpf⟩ := best_of x0 xs c e1 hc1 F (by intro i; rw [hFd]; simp [hF])
      obtain ⟨q, hq, hqm, hqx, hqf⟩ := best_of y0 ys c' e2 hc2 F' (by intro i; rw [hFd']; simp [hF'])
      have hval : p.2 = q.2 := le_antisymm (hpm q (hc.symm.subset hq)) (hqm p (hc.subset hp))
      have hofn : ∀ (a : Pt d) (as : List (Pt d)), List.ofFn (fun i : Fin (as.length + 1) => (a :: as)[i]) = a :: as := by
        intro a as
        exact List.ofFn_getElem (xs := a :: as)
      have hset : ∀ y, y ∈ List.ofFn (fun i : Fin (xs.length + 1) => (x0 :: xs)[i]) ++ s.Xpend ↔
          y ∈ List.ofFn (fun i : Fin (ys.length + 1) => (y0 :: ys)[i]) ++ s'.Xpend := by
        intro y
        rw [hofn, hofn, List.mem_append, List.mem_append, hmem y, h.Xpend.mem_iff]
      have hpt : L.method = .srbf ∨ L.method = .dycors → p.1 = q.1 := by
        intro hm
        have hz : s.curX.zip s.curFX = c := by rw [hX, hF, List.zip_map', ← List.map_id c, List.map_map]; simp
        have hu := hb hm
        unfold UniqueBest at hu
        rw [hz] at hu
        exact hu p hp q (hc.symm.subset hq) hpm (fun r hr => hqm r (hc.subset hr))
      have hsetga : ∀ y, y ∈ x0 :: xs ++ s.Xpend ↔ y ∈ y0 :: ys ++ s'.Xpend := by
        intro y
        rw [List.mem_append, List.mem_append, hmem y, h.Xpend.mem_iff]
      cases hm : L.method with
      | srbf =>
        simp only [genWith, hm, hsurr.1, h.srbf, candidateSrbf]
        have := hpt (.inl hm)
        rw [hpx, hqx, this]
        split
        · congr 1
          funext w
          rw [wdm_congr _ _ _ _ _ hset]
        · rfl
      | dycors =>
        have hpp : State.perturbProb L.cfg d s = State.perturbProb L.cfg d s' := by
          unfold State.perturbProb; rw [h.X, h.Xpend.length_eq]
        simp only [genWith, hm, hsurr.1, h.srbf, hpp, candidateDycors]
        have := hpt (.inr hm)
        rw [hpx, hqx, this]
        split
        · congr 1
          funext w
          congr 1
          split_ifs
          · rw [wdm_congr _ _ _ _ _ hset]
          · rfl
        · rfl
      | ei tol dtol =>
        simp only [genWith, hm, hsurr.1, hsurr.2]
        split
        · rename_i mean std _ _
          congr 1
          unfold eiGa
          rw [tolOf_perm tol h.fX]
          have hfb : F (argmin F) = F' (argmin F') := by rw [hpf, hqf, hval]
          refine eiGaLoop_congr _ _ _ _ ?_ _ _ _ (by simp) (by simp) hsetga
          intro A B hA hB hAB
          funext x
          obtain ⟨a, A, rfl⟩ := List.exists_cons_of_ne_nil hA
          obtain ⟨b, B, rfl⟩ := List.exists_cons_of_ne_nil hB
          have hmd := minDist_congr x a b hAB
          rw [hfb]
          show eiMerit mean std _ a A dtol x = eiMerit mean std _ b B dtol x
          unfold eiMerit
          rw [hmd]
        · rfl
      | lcb kappa tol dtol =>
        simp only [genWith, hm, hsurr.1, hsurr.2]
        split
        · rename_i mean std _ _
          congr 1
          unfold lcbGa
          rw [tolOf_perm tol h.fX, lowest_perm h.fX]
          refine lcbGaLoop_congr _ _ _ _ ?_ _ _ _ (by simp) (by simp) hsetga
          intro A B hA hB hAB
          funext x
          obtain ⟨a, A, rfl⟩ := List.exists_cons_of_ne_nil hA
          obtain ⟨b, B, rfl⟩ := List.exists_cons_of_ne_nil hB
          have hmd := minDist_congr x a b hAB
          show lcbMerit mean std _ a A dtol x = lcbMerit mean std _ b B dtol x
          unfold lcbMerit
          rw [hmd]
        · rfl

end Verif.Loop
