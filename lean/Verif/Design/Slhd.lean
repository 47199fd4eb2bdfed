import Verif.Design.Model
import Mathlib.Data.Fintype.Card
import Mathlib.Data.Fintype.EquivFin
import Mathlib.LinearAlgebra.FiniteDimensional.Lemmas
import Mathlib.LinearAlgebra.Matrix.ToLin

/-! # Closed form of the symmetric Latin hypercube -/

namespace Verif.Design

open Verif.Num Verif.Utils

theorem slhdFill_aux (n : ℕ) (coin : ℕ → ℕ → Bool) (j m : ℕ) (P : Arr) (a b : ℕ) :
    (List.range m).foldl (fun P i => setAt P i j (if coin i j then (n : ℤ) - i else (i : ℤ) + 1)) P a b =
      if a < m ∧ b = j then (if coin a j then (n : ℤ) - a else (a : ℤ) + 1) else P a b := by
  induction m with
  | zero => simp
  | succ m ih =>
    rw [List.range_succ, List.foldl_append, List.foldl_cons, List.foldl_nil]
    simp only [setAt]
    by_cases h : a = m ∧ b = j
    · obtain ⟨rfl, rfl⟩ := h
      simp
    · rw [if_neg h, ih]
      by_cases h1 : a < m ∧ b = j
      · rw [if_pos h1, if_pos (show a < m + 1 ∧ b = j from ⟨by omega, h1.2⟩)]
      · rw [if_neg h1, if_neg]
        rintro ⟨h2, h3⟩
        rcases Nat.lt_succ_iff_lt_or_eq.mp h2 with h4 | h4
        · exact h1 ⟨h4, h3⟩
        · exact h ⟨h4, h3⟩

/-- Value of a top row in terms of a permutation and coins. -/
def topVal (n : ℕ) (c : ℕ → Bool) (s : ℕ) : ℤ := if c s then (n : ℤ) - s else (s : ℤ) + 1

theorem slhdTop_aux (n : ℕ) (coin : ℕ → ℕ → Bool) (σ : ℕ → Equiv.Perm (Fin (n / 2))) (m : ℕ) (P : Arr) (a b : ℕ) :
    (List.range' 1 m).foldl (fun P j => slhdShuffle (σ j) j (slhdFill n coin j P)) P a b =
      if h : (1 ≤ b ∧ b < m + 1) ∧ a < n / 2 then topVal n (fun s => coin s b) (σ b ⟨a, h.2⟩) else P a b := by
  induction m with
  | zero =>
    rw [dif_neg (by omega)]; simp
  | succ m ih =>
    rw [List.range'_1_concat, List.foldl_append, List.foldl_cons, List.foldl_nil, Nat.add_comm 1 m]
    set Q := (List.range' 1 m).foldl (fun P j => slhdShuffle (σ j) j (slhdFill n coin j P)) P with hQ
    unfold slhdShuffle slhdFill
    by_cases hb : b = m + 1
    · by_cases ha : a < n / 2
      · rw [dif_pos ⟨hb, ha⟩, dif_pos ⟨by omega, ha⟩, slhdFill_aux]
        subst hb
        rw [if_pos ⟨(σ (m + 1) ⟨a, ha⟩).2, rfl⟩]
        rfl
      · rw [dif_neg (fun h => ha h.2), dif_neg (fun h => ha h.2), slhdFill_aux, if_neg (fun h => ha h.1), ih,
          dif_neg (fun h => ha h.2)]
    · rw [dif_neg (fun h => hb h.1), slhdFill_aux, if_neg (fun h => hb h.2), ih]
      by_cases h : (1 ≤ b ∧ b < m + 1) ∧ a < n / 2
      · rw [dif_pos h, dif_pos ⟨by omega, h.2⟩]
      · rw [dif_neg h, dif_neg (by omega)]

theorem slhdBottom_aux (n : ℕ) (P : Arr) (m : ℕ) (hm : m ≤ n - n / 2) (a b : ℕ) :
    (List.range' (n / 2) m).foldl (fun P i a b => if a = i then (n : ℤ) + 1 - P (n - 1 - i) b else P a b) P a b =
      if n / 2 ≤ a ∧ a < n / 2 + m then (n : ℤ) + 1 - P (n - 1 - a) b else P a b := by
  induction m generalizing a b with
  | zero => rw [if_neg (by omega)]; simp
  | succ m ih =>
    rw [List.range'_1_concat, List.foldl_append, List.foldl_cons, List.foldl_nil]
    have ih := ih (by omega)
    by_cases ha : a = n / 2 + m
    · rw [if_pos ha, if_pos (by omega), ih, ← ha]
      by_cases h : n / 2 ≤ n - 1 - a ∧ n - 1 - a < n / 2 + m
      · omega
      · rw [if_neg (by omega)]
    · rw [if_neg ha, ih]
      by_cases h : n / 2 ≤ a ∧ a < n / 2 + m
      · rw [if_pos h, if_pos (by omega)]
      · rw [if_neg h, if_neg (by omega)]

/-- The integer array after all loops. -/
def slhdArr (n d : ℕ) (coin : ℕ → ℕ → Bool) (σ : ℕ → Equiv.Perm (Fin (n / 2))) : Arr :=
  slhdBottom n (slhdTop n d coin σ (slhdMiddle n slhdInit))

theorem slhdArr_spec' (n d : ℕ) (coin : ℕ → ℕ → Bool) (σ : ℕ → Equiv.Perm (Fin (n / 2))) (j : ℕ) (hj : j < d) :
    ∃ (c : ℕ → Bool) (τ : Equiv.Perm (Fin (n / 2))),
      ((j = 0 → c = (fun _ => false) ∧ τ = 1) ∧ (j ≠ 0 → c = (fun s => coin s j) ∧ τ = σ j)) ∧
      (∀ i, ∀ hi : i < n / 2, slhdArr n d coin σ i j = topVal n c (τ ⟨i, hi⟩)) ∧
      (∀ i, i < n → slhdArr n d coin σ i j + slhdArr n d coin σ (n - 1 - i) j = (n : ℤ) + 1) := by
  set Q := slhdTop n d coin σ (slhdMiddle n slhdInit) with hQ
  have hQe : ∀ a b, Q a b = if h : (1 ≤ b ∧ b < d - 1 + 1) ∧ a < n / 2 then topVal n (fun s => coin s b) (σ b ⟨a, h.2⟩)
      else slhdMiddle n slhdInit a b := fun a b => slhdTop_aux n coin σ (d - 1) _ a b
  have hmid : n % 2 = 1 → ∀ b, Q (n / 2) b = ((n / 2 : ℕ) : ℤ) + 1 := by
    intro hn b
    rw [hQe, dif_neg (by omega)]
    simp [slhdMiddle, hn]
  have hb : ∀ a b, slhdArr n d coin σ a b = if n / 2 ≤ a ∧ a < n / 2 + (n - n / 2) then (n : ℤ) + 1 - Q (n - 1 - a) b
      else Q a b := fun a b => slhdBottom_aux n Q _ le_rfl a b
  have htop : ∀ i, i < n / 2 → slhdArr n d coin σ i j = Q i j := fun i hi => by rw [hb, if_neg (by omega)]
  have hsym : ∀ i, i < n → slhdArr n d coin σ i j + slhdArr n d coin σ (n - 1 - i) j = (n : ℤ) + 1 := by
    intro i hi
    rcases lt_trichotomy (n - 1 - i) i with h | h | h
    · rw [hb i, if_pos (by omega), hb (n - 1 - i), if_neg (by omega)]; ring
    · have hn : n % 2 = 1 := by omega
      have hi2 : i = n / 2 := by omega
      rw [h, hb i, if_pos (by omega), h, hi2, hmid hn]
      omega
    · rw [hb i, if_neg (by omega), hb (n - 1 - i), if_pos (by omega), show n - 1 - (n - 1 - i) = i by omega]; ring
  by_cases hj0 : j = 0
  · refine ⟨fun _ => false, 1, ⟨fun _ => ⟨rfl, rfl⟩, fun h => absurd hj0 h⟩, fun i hi => ?_, hsym⟩
    rw [htop i hi, hQe, dif_neg (by omega)]
    have : slhdMiddle n slhdInit i j = (i : ℤ) + 1 := by
      unfold slhdMiddle
      split
      · simp only [slhdInit]; rw [if_neg (by omega), if_pos hj0]
      · simp [slhdInit, hj0]
    rw [this]; simp [topVal]
  · refine ⟨fun s => coin s j, σ j, ⟨fun h => absurd h hj0, fun _ => ⟨rfl, rfl⟩⟩, fun i hi => ?_, hsym⟩
    rw [htop i hi, hQe, dif_pos ⟨by omega, hi⟩]

theorem slhdArr_spec (n d : ℕ) (coin : ℕ → ℕ → Bool) (σ : ℕ → Equiv.Perm (Fin (n / 2))) (j : ℕ) (hj : j < d) :
    ∃ (c : ℕ → Bool) (τ : Equiv.Perm (Fin (n / 2))),
      (∀ i, ∀ hi : i < n / 2, slhdArr n d coin σ i j = topVal n c (τ ⟨i, hi⟩)) ∧
      (∀ i, i < n → slhdArr n d coin σ i j + slhdArr n d coin σ (n - 1 - i) j = (n : ℤ) + 1) := by
  obtain ⟨c, τ, _, h⟩ := slhdArr_spec' n d coin σ j hj
  exact ⟨c, τ, h⟩

/-- Every entry is between 1 and `n`. -/
theorem slhdArr_range (n d : ℕ) (coin : ℕ → ℕ → Bool) (σ : ℕ → Equiv.Perm (Fin (n / 2))) (j : ℕ) (hj : j < d) (i : ℕ)
    (hi : i < n) : 1 ≤ slhdArr n d coin σ i j ∧ slhdArr n d coin σ i j ≤ n := by
  obtain ⟨c, τ, h1, h2⟩ := slhdArr_spec n d coin σ j hj
  have htop : ∀ i, i < n / 2 → 1 ≤ slhdArr n d coin σ i j ∧ slhdArr n d coin σ i j ≤ n := by
    intro i hi
    rw [h1 i hi]
    have := (τ ⟨i, hi⟩).2
    unfold topVal
    split <;> constructor <;> omega
  have h := h2 i hi
  by_cases h3 : i < n / 2
  · exact htop i h3
  · by_cases h4 : n - 1 - i < n / 2
    · have := htop _ h4; constructor <;> omega
    · have : n - 1 - i = i := by omega
      rw [this] at h; constructor <;> omega

theorem slhdArr_inj (n d : ℕ) (coin : ℕ → ℕ → Bool) (σ : ℕ → Equiv.Perm (Fin (n / 2))) (j : ℕ) (hj : j < d)
    (i i' : ℕ) (hi : i < n) (hi' : i' < n) (h : slhdArr n d coin σ i j = slhdArr n d coin σ i' j) : i = i' := by
  obtain ⟨c, τ, h1, h2⟩ := slhdArr_spec n d coin σ j hj
  -- folded position
  have key : ∀ i, i < n → (∃ hi : i < n / 2, slhdArr n d coin σ i j = topVal n c (τ ⟨i, hi⟩)) ∨
      (∃ hi : n - 1 - i < n / 2, slhdArr n d coin σ i j = (n : ℤ) + 1 - topVal n c (τ ⟨n - 1 - i, hi⟩)) ∨
      (n - 1 - i = i ∧ 2 * slhdArr n d coin σ i j = (n : ℤ) + 1) := by
    intro i hi
    have h := h2 i hi
    by_cases h3 : i < n / 2
    · exact .inl ⟨h3, h1 i h3⟩
    · by_cases h4 : n - 1 - i < n / 2
      · have := h1 _ h4; exact .inr (.inl ⟨h4, by omega⟩)
      · have h5 : n - 1 - i = i := by omega
        refine .inr (.inr ⟨h5, ?_⟩)
        rw [h5] at h; omega
  have hinj : ∀ (a b : Fin (n / 2)), ((τ a : Fin (n / 2)) : ℕ) = τ b → a = b := fun a b h => τ.injective (Fin.ext h)
  have hval : ∀ s : Fin (n / 2), (topVal n c s = (s : ℕ) + 1 ∨ topVal n c s = (n : ℤ) - (s : ℕ)) ∧ (s : ℕ) < n / 2 := by
    intro s; refine ⟨?_, s.2⟩; unfold topVal; split <;> simp
  rcases key i hi with ⟨a, ha⟩ | ⟨a, ha⟩ | ⟨a, ha⟩ <;> rcases key i' hi' with ⟨b, hb⟩ | ⟨b, hb⟩ | ⟨b, hb⟩
  · have e1 := hval (τ ⟨i, a⟩); have e2 := hval (τ ⟨i', b⟩)
    have := hinj ⟨i, a⟩ ⟨i', b⟩ (by omega)
    simpa using this
  · have e1 := hval (τ ⟨i, a⟩); have e2 := hval (τ ⟨n - 1 - i', b⟩)
    have := hinj ⟨i, a⟩ ⟨n - 1 - i', b⟩ (by omega)
    rw [← this] at hb
    omega
  · have e1 := hval (τ ⟨i, a⟩); omega
  · have e1 := hval (τ ⟨n - 1 - i, a⟩); have e2 := hval (τ ⟨i', b⟩)
    have := hinj ⟨n - 1 - i, a⟩ ⟨i', b⟩ (by omega)
    rw [this] at ha
    omega
  · have e1 := hval (τ ⟨n - 1 - i, a⟩); have e2 := hval (τ ⟨n - 1 - i', b⟩)
    have := hinj ⟨n - 1 - i, a⟩ ⟨n - 1 - i', b⟩ (by omega)
    simp only [Fin.mk.injEq] at this
    omega
  · have e1 := hval (τ ⟨n - 1 - i, a⟩); omega
  · have e1 := hval (τ ⟨i', b⟩); omega
  · have e1 := hval (τ ⟨n - 1 - i', b⟩); omega
  · omega

theorem slhd_apply (n d : ℕ) (coin : ℕ → ℕ → Bool) (σ : ℕ → Equiv.Perm (Fin (n / 2))) (i : Fin n) (j : Fin d) :
    slhd n d coin σ i j = ((slhdArr n d coin σ i j : ℝ) - 1) / ((n : ℝ) - 1) := rfl

/-- Each level occurs. -/
theorem slhdArr_surj (n d : ℕ) (coin : ℕ → ℕ → Bool) (σ : ℕ → Equiv.Perm (Fin (n / 2))) (j : ℕ) (hj : j < d) (k : Fin n) :
    ∃ i : Fin n, slhdArr n d coin σ i j = (k : ℕ) + 1 := by
  have hr := slhdArr_range n d coin σ j hj
  let f : Fin n → Fin n := fun i => ⟨(slhdArr n d coin σ i j - 1).toNat, by have := hr i i.2; omega⟩
  have hf : Function.Injective f := by
    intro a b h
    have h1 := hr a a.2
    have h2 := hr b b.2
    have : (slhdArr n d coin σ a j - 1).toNat = (slhdArr n d coin σ b j - 1).toNat := congrArg Fin.val h
    exact Fin.ext (slhdArr_inj n d coin σ j hj a b a.2 b.2 (by omega))
  obtain ⟨i, hi⟩ := (Finite.injective_iff_surjective.mp hf) k
  refine ⟨i, ?_⟩
  have : (slhdArr n d coin σ i j - 1).toNat = k := congrArg Fin.val hi
  have := hr i i.2
  omega

end Verif.Design
