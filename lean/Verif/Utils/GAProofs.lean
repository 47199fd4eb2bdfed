import Verif.Utils.GA
import Verif.Props.Utils

/-! # Proofs about the genetic algorithm -/

namespace Verif.Utils

open Verif.Num Verif.Spec Verif.Props

variable {d h : ℕ} {α : Type} [LinearOrder α]

/-- A problem with lower bounds below upper bounds and integer bounds of the integer variables. -/
structure GAConfig.Ok (cfg : GAConfig d) : Prop where
  le : ∀ i, cfg.lb i ≤ cfg.ub i
  lbInt : IntegerOn cfg.intVar cfg.lb
  ubInt : IntegerOn cfg.intVar cfg.ub

theorem nudgeCol_of_inBox (cfg : GAConfig d) {x : Pt d} {i : Fin d} (hx : cfg.lb i ≤ x i ∧ x i ≤ cfg.ub i) :
    nudgeCol cfg x i = x := by
  unfold nudgeCol
  simp [not_lt.mpr hx.1, not_lt.mpr hx.2]

theorem roundCols_inBox {cfg : GAConfig d} (ok : cfg.Ok) {x : Pt d} (hx : InBox cfg.lb cfg.ub x) :
    InBox cfg.lb cfg.ub (roundCols cfg.intVar x) := by
  intro i
  unfold roundCols
  split
  · rename_i hi
    obtain ⟨l, hl⟩ := ok.lbInt i hi
    obtain ⟨u, hu⟩ := ok.ubInt i hi
    have := hx i
    rw [hl, hu] at this ⊢
    exact ⟨by exact_mod_cast le_rint this.1, by exact_mod_cast rint_le this.2⟩
  · exact hx i

/-- Initial rounding of a point in a box whose bounds need not be integers. -/
theorem nudgeCol_spec (cfg : GAConfig d) (y x : Pt d) (i : Fin d) (hw : cfg.lb i + 1 ≤ cfg.ub i)
    (hy : cfg.lb i ≤ y i ∧ y i ≤ cfg.ub i) (hx : ∃ z : ℤ, x i = z)
    (hd : |x i - y i| ≤ 1 / 2 ∨ (cfg.lb i ≤ x i ∧ x i ≤ cfg.ub i ∧ |x i - y i| ≤ 1)) :
    (∀ j ≠ i, nudgeCol cfg x i j = x j) ∧ (∃ z : ℤ, nudgeCol cfg x i i = z) ∧
      cfg.lb i ≤ nudgeCol cfg x i i ∧ nudgeCol cfg x i i ≤ cfg.ub i ∧ |nudgeCol cfg x i i - y i| ≤ 1 := by
  obtain ⟨z, hz⟩ := hx
  have hd' : |x i - y i| ≤ 1 / 2 ∨ (¬ x i < cfg.lb i ∧ ¬ cfg.ub i < x i ∧ |x i - y i| ≤ 1) := by
    simpa only [not_lt] using hd
  by_cases h1 : x i < cfg.lb i
  · have hd := hd'.resolve_right fun h => h.1 h1
    rw [abs_le] at hd
    have h2 : ¬ cfg.ub i < x i + 1 := by linarith
    have e : nudgeCol cfg x i = Function.update x i (x i + 1) := by
      simp [nudgeCol, if_pos h1, h2]
    rw [e]
    refine ⟨fun j hj => by simp [hj], ⟨z + 1, by simp [hz]⟩, ?_, ?_, ?_⟩ <;> simp only [Function.update_self]
    · linarith
    · linarith
    · rw [abs_le]; constructor <;> linarith
  · by_cases h2 : cfg.ub i < x i
    · have hd := hd'.resolve_right fun h => h.2.1 h2
      rw [abs_le] at hd
      have e : nudgeCol cfg x i = Function.update x i (x i - 1) := by
        simp [nudgeCol, if_neg h1, h2]
      rw [e]
      refine ⟨fun j hj => by simp [hj], ⟨z - 1, by simp [hz]⟩, ?_, ?_, ?_⟩ <;> simp only [Function.update_self]
      · linarith
      · linarith
      · rw [abs_le]; constructor <;> linarith
    · have e : nudgeCol cfg x i = x := nudgeCol_of_inBox cfg ⟨not_lt.mp h1, not_lt.mp h2⟩
      rw [e]
      refine ⟨fun _ _ => rfl, ⟨z, hz⟩, not_lt.mp h1, not_lt.mp h2, ?_⟩
      rcases hd with h | h
      · linarith
      · exact h.2.2

theorem foldl_nudge_spec (cfg : GAConfig d) (y : Pt d) (l : List (Fin d)) (x : Pt d)
    (hw : ∀ i ∈ l, cfg.lb i + 1 ≤ cfg.ub i) (hy : ∀ i, cfg.lb i ≤ y i ∧ y i ≤ cfg.ub i)
    (hx : ∀ i ∈ l, (∃ z : ℤ, x i = z) ∧ (|x i - y i| ≤ 1 / 2 ∨ (cfg.lb i ≤ x i ∧ x i ≤ cfg.ub i ∧ |x i - y i| ≤ 1))) (j : Fin d) :
    (j ∉ l → l.foldl (nudgeCol cfg) x j = x j) ∧
      (j ∈ l → (∃ z : ℤ, l.foldl (nudgeCol cfg) x j = z) ∧ cfg.lb j ≤ l.foldl (nudgeCol cfg) x j ∧
        l.foldl (nudgeCol cfg) x j ≤ cfg.ub j ∧ |l.foldl (nudgeCol cfg) x j - y j| ≤ 1) := by
  induction l generalizing x with
  | nil => simp
  | cons i l ih =>
    rw [List.foldl_cons]
    obtain ⟨a, b, c⟩ := nudgeCol_spec cfg y x i (hw i (by simp)) (hy i) (hx i (by simp)).1 (hx i (by simp)).2
    have hx' : ∀ k ∈ l, (∃ z : ℤ, nudgeCol cfg x i k = z) ∧ (|nudgeCol cfg x i k - y k| ≤ 1 / 2 ∨
        (cfg.lb k ≤ nudgeCol cfg x i k ∧ nudgeCol cfg x i k ≤ cfg.ub k ∧ |nudgeCol cfg x i k - y k| ≤ 1)) := by
      intro k hk
      by_cases hki : k = i
      · subst hki; exact ⟨b, .inr c⟩
      · rw [a k hki]; exact hx k (by simp [hk])
    obtain ⟨p, q⟩ := ih (nudgeCol cfg x i) (fun k hk => hw k (by simp [hk])) hx'
    constructor
    · intro hj
      simp only [List.mem_cons, not_or] at hj
      rw [p hj.2, a j hj.1]
    · intro hj
      by_cases hjl : j ∈ l
      · exact q hjl
      · have : j = i := by simpa [hjl] using hj
        subst this
        rw [p hjl]
        exact ⟨b, c⟩

theorem initialRound_spec (cfg : GAConfig d) (hw : ∀ i ∈ cfg.intVar, cfg.lb i + 1 ≤ cfg.ub i) {y : Pt d}
    (hy : ∀ i, cfg.lb i ≤ y i ∧ y i ≤ cfg.ub i) (i : Fin d) :
    (cfg.lb i ≤ initialRound cfg y i ∧ initialRound cfg y i ≤ cfg.ub i) ∧
      (i ∈ cfg.intVar → ∃ z : ℤ, initialRound cfg y i = z) ∧
      (i ∉ cfg.intVar → initialRound cfg y i = y i) ∧ |initialRound cfg y i - y i| ≤ 1 := by
  unfold initialRound
  split_ifs with hl
  · obtain ⟨p, q⟩ := foldl_nudge_spec cfg y cfg.intVar (roundCols cfg.intVar y) hw hy (fun k hk => by
      simp only [roundCols, hk, if_true]
      refine ⟨⟨_, rfl⟩, .inl ?_⟩
      rw [abs_sub_comm]
      exact abs_sub_rint_le _) i
    by_cases hi : i ∈ cfg.intVar
    · obtain ⟨q1, q2, q3, q4⟩ := q hi
      exact ⟨⟨q2, q3⟩, fun _ => q1, fun h => absurd hi h, q4⟩
    · have e : roundCols cfg.intVar y i = y i := by simp [roundCols, hi]
      rw [p hi, e]
      exact ⟨hy i, fun h => absurd h hi, fun _ => rfl, by simp⟩
  · have : cfg.intVar = [] := by simpa using hl
    simp only [this]
    exact ⟨hy i, by simp, by simp, by simp⟩

theorem foldl_nudge (cfg : GAConfig d) (l : List (Fin d)) {x : Pt d} (hx : InBox cfg.lb cfg.ub x) :
    l.foldl (nudgeCol cfg) x = x := by
  induction l with
  | nil => rfl
  | cons i l ih => rw [List.foldl_cons, nudgeCol_of_inBox cfg (hx i), ih]

theorem initialRound_eq {cfg : GAConfig d} (ok : cfg.Ok) {x : Pt d} (hx : InBox cfg.lb cfg.ub x) :
    initialRound cfg x = roundCols cfg.intVar x := by
  unfold initialRound
  split
  · exact foldl_nudge cfg _ (roundCols_inBox ok hx)
  · rename_i hl
    have : cfg.intVar = [] := by
      cases hv : cfg.intVar with
      | nil => rfl
      | cons a l => simp [hv] at hl
    funext i; simp [roundCols, this]

theorem initialRound_feasible {cfg : GAConfig d} (ok : cfg.Ok) {x : Pt d} (hx : InBox cfg.lb cfg.ub x) :
    InBox cfg.lb cfg.ub (initialRound cfg x) ∧ IntegerOn cfg.intVar (initialRound cfg x) := by
  rw [initialRound_eq ok hx]
  refine ⟨roundCols_inBox ok hx, fun i hi => ⟨rint (x i), ?_⟩⟩
  simp [roundCols, hi]

theorem initialPop_inBox {cfg : GAConfig d} (ok : cfg.Ok) {unit : Pop d h}
    (hu : ∀ k i, 0 ≤ unit k i ∧ unit k i ≤ 1) (k) : InBox cfg.lb cfg.ub (initialPop cfg unit k) := by
  intro i
  have h1 := ok.le i
  obtain ⟨h2, h3⟩ := hu k i
  unfold initialPop
  constructor
  · nlinarith
  · nlinarith

theorem mutation_inBox {cfg : GAConfig d} (hle : ∀ i, cfg.lb i ≤ cfg.ub i) (pop : Pop d h) (r : Draws d h) (k) :
    InBox cfg.lb cfg.ub (mutation cfg pop r k) := by
  intro i
  unfold mutation
  exact ⟨le_min (hle i) (le_max_left _ _), min_le_left _ _⟩

theorem evaluate_bestVal (f : Pt d → α) (pop next : Pop d h) (old) :
    (evaluate f pop next old).bestValue = f (evaluate f pop next old).best := rfl

theorem evaluate_bestMem (f : Pt d → α) (pop next : Pop d h) (old) :
    (evaluate f pop next old).best ∈ (evaluate f pop next old).evaluated := by
  exact List.mem_append_right _ (List.mem_ofFn.mpr ⟨_, rfl⟩)

theorem evaluate_le (f : Pt d → α) (pop next : Pop d h) (old) (k) :
    (evaluate f pop next old).bestValue ≤ f (pop k) := argmin_le (fun k => f (pop k)) k

/-- The elitism part does not need the bounds. -/
structure GAElite (f : Pt d → α) (s : GAState d h α) : Prop where
  bestMem : s.best ∈ s.evaluated
  bestVal : s.bestValue = f s.best
  le : ∀ x ∈ s.evaluated, s.bestValue ≤ f x

theorem gaInit_elite (cfg : GAConfig d) (f : Pt d → α) (pop : Pop d h) : GAElite f (gaInit cfg f pop) := by
  refine ⟨evaluate_bestMem .., evaluate_bestVal .., ?_⟩
  intro x hx
  have hx' : x ∈ List.ofFn (fun k => initialRound cfg (pop k)) := by simpa [gaInit, evaluate] using hx
  obtain ⟨k, rfl⟩ := List.mem_ofFn.mp hx'
  exact evaluate_le f _ _ [] k

theorem generation_elite (cfg : GAConfig d) (f : Pt d → α) (s : GAState d h α) (r : Draws d h) (hs : GAElite f s) :
    GAElite f (generation cfg f s r) := by
  refine ⟨evaluate_bestMem .., evaluate_bestVal .., ?_⟩
  intro x hx
  unfold generation at hx ⊢
  set ep : Pop d h := fun k => if k = 0 then s.best else
    roundVars (mutation cfg (crossover s.pop (winner s.vals r.competitors) r) r k) cfg.intVar cfg.lb cfg.ub with hep
  have hx' : x ∈ s.evaluated ∨ x ∈ List.ofFn ep := List.mem_append.mp hx
  rcases hx' with h1 | h1
  · have h2 := evaluate_le f ep (if cfg.intVar.length > 0 then mutation cfg (crossover s.pop (winner s.vals r.competitors) r) r else ep) s.evaluated 0
    refine h2.trans ?_
    have : ep 0 = s.best := by simp [hep]
    rw [this, ← hs.bestVal]
    exact hs.le x h1
  · obtain ⟨k, rfl⟩ := List.mem_ofFn.mp h1
    exact evaluate_le f _ _ _ k

theorem optimizeFrom_elite (cfg : GAConfig d) (f : Pt d → α) (pop : Pop d h) (rs : List (Draws d h)) :
    GAElite f (optimizeFrom cfg f pop rs) := by
  unfold optimizeFrom
  generalize hs : gaInit cfg f pop = s
  have h0 : GAElite f s := hs ▸ gaInit_elite cfg f pop
  clear hs
  induction rs generalizing s with
  | nil => exact h0
  | cons r rs ih => exact ih _ (generation_elite cfg f s r h0)

/-- The bounds part. -/
structure GABox (cfg : GAConfig d) (s : GAState d h α) : Prop where
  popBox : ∀ k, InBox cfg.lb cfg.ub (s.pop k)
  feasible : ∀ x ∈ s.evaluated, InBox cfg.lb cfg.ub x ∧ IntegerOn cfg.intVar x

theorem gaInit_box {cfg : GAConfig d} (ok : cfg.Ok) (f : Pt d → α) {pop : Pop d h}
    (hp : ∀ k, InBox cfg.lb cfg.ub (pop k)) : GABox cfg (gaInit cfg f pop) := by
  refine ⟨hp, ?_⟩
  intro x hx
  have hx' : x ∈ List.ofFn (fun k => initialRound cfg (pop k)) := by simpa [gaInit, evaluate] using hx
  obtain ⟨k, rfl⟩ := List.mem_ofFn.mp hx'
  exact initialRound_feasible ok (hp k)

theorem generation_box {cfg : GAConfig d} (ok : cfg.Ok) (f : Pt d → α) (s : GAState d h α) {r : Draws d h}
    (hb : s.best ∈ s.evaluated) (hs : GABox cfg s) : GABox cfg (generation cfg f s r) := by
  have hm := mutation_inBox (cfg := cfg) ok.le (crossover s.pop (winner s.vals r.competitors) r) r
  have hr : ∀ k, InBox cfg.lb cfg.ub (roundVars (mutation cfg (crossover s.pop (winner s.vals r.competitors) r) r k)
      cfg.intVar cfg.lb cfg.ub) ∧ IntegerOn cfg.intVar (roundVars (mutation cfg (crossover s.pop (winner s.vals r.competitors) r) r k)
      cfg.intVar cfg.lb cfg.ub) := by
    intro k
    obtain ⟨h1, h2, _⟩ := C38_box_idempotent (mutation cfg (crossover s.pop (winner s.vals r.competitors) r) r k)
      cfg.lb cfg.ub cfg.intVar ok.le ok.lbInt ok.ubInt
    exact ⟨h2 (hm k), h1⟩
  have he : ∀ k : Fin (popSize h), InBox cfg.lb cfg.ub (if k = 0 then s.best else
      roundVars (mutation cfg (crossover s.pop (winner s.vals r.competitors) r) r k) cfg.intVar cfg.lb cfg.ub) ∧
      IntegerOn cfg.intVar (if k = 0 then s.best else
      roundVars (mutation cfg (crossover s.pop (winner s.vals r.competitors) r) r k) cfg.intVar cfg.lb cfg.ub) := by
    intro k
    by_cases hk : k = 0
    · simp only [hk, if_true]; exact hs.feasible _ hb
    · simp only [hk, if_false]; exact hr k
  constructor
  · intro k
    unfold generation evaluate
    dsimp only
    split
    · exact hm k
    · exact (he k).1
  · intro x hx
    unfold generation evaluate at hx
    dsimp only at hx
    rcases List.mem_append.mp hx with h1 | h1
    · exact hs.feasible x h1
    · obtain ⟨k, rfl⟩ := List.mem_ofFn.mp h1
      exact he k

theorem optimizeFrom_box {cfg : GAConfig d} (ok : cfg.Ok) (f : Pt d → α) {pop : Pop d h}
    (hp : ∀ k, InBox cfg.lb cfg.ub (pop k)) (rs : List (Draws d h)) :
    GABox cfg (optimizeFrom cfg f pop rs) := by
  unfold optimizeFrom
  have h0 := gaInit_box ok f hp
  have h1 := gaInit_elite cfg f pop
  generalize gaInit cfg f pop = s at h0 h1
  induction rs generalizing s with
  | nil => exact h0
  | cons r rs ih => exact ih _ (generation_box ok f s h1.bestMem h0) (generation_elite cfg f s r h1)

end Verif.Utils
