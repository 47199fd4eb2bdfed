import Verif.Design.Slhd
import Verif.Props.Design

/-! # The symmetric Latin hypercubes that `_slhd` can generate (for C123 and C124) -/

namespace Verif.Design

open Verif.Num Verif.Utils

variable {n d : ℕ}

/-- The smaller one of a level and its mirror image. -/
def low (n l : ℕ) : ℕ := min l (n - 1 - l)

/-- Every symmetric arrangement of the levels in one column is the result of some coins and some shuffling of the top half. -/
theorem column_exists (L : Equiv.Perm (Fin n)) (hsym : ∀ i, L i.rev = (L i).rev) :
    ∃ (c : ℕ → Bool) (τ : Equiv.Perm (Fin (n / 2))), ∀ i : Fin n, ∀ hi : i.1 < n / 2,
      topVal n c (τ ⟨i, hi⟩) = ((L i : ℕ) : ℤ) + 1 := by
  have emb : ∀ i : Fin (n / 2), i.1 < n := fun i => by have := i.2; omega
  have hmid : ∀ i : Fin n, i.1 < n / 2 → (L i : ℕ) ≠ n - 1 - (L i : ℕ) := by
    intro i hi h
    have h1 : L i.rev = L i := by
      rw [hsym]
      apply Fin.ext
      rw [Fin.val_rev]
      have := (L i).2
      omega
    have h2 := congrArg Fin.val (L.injective h1)
    rw [Fin.val_rev] at h2
    omega
  have hlow : ∀ i : Fin n, i.1 < n / 2 → low n (L i) < n / 2 := by
    intro i hi
    have := hmid i hi
    have := (L i).2
    unfold low
    omega
  have hinj : ∀ i i' : Fin n, i.1 < n / 2 → i'.1 < n / 2 → low n (L i) = low n (L i') → i = i' := by
    intro i i' hi hi' h
    have h1 := (L i).2
    have h2 := (L i').2
    have : (L i : ℕ) = (L i' : ℕ) ∨ (L i : ℕ) = n - 1 - (L i' : ℕ) := by unfold low at h; omega
    rcases this with h3 | h3
    · exact L.injective (Fin.ext h3)
    · exfalso
      have h4 : L i = L i'.rev := by
        rw [hsym]
        apply Fin.ext
        rw [Fin.val_rev]
        omega
      have h5 := congrArg Fin.val (L.injective h4)
      rw [Fin.val_rev] at h5
      omega
  let g : Fin (n / 2) → Fin (n / 2) := fun i => ⟨low n (L ⟨i, emb i⟩), hlow _ i.2⟩
  have hg : Function.Injective g := by
    intro a b h
    have h1 := hinj ⟨a, emb a⟩ ⟨b, emb b⟩ a.2 b.2 (congrArg Fin.val h)
    exact Fin.ext (by simpa using h1)
  have hgb : Function.Bijective g := Finite.injective_iff_bijective.mp hg
  classical
  refine ⟨fun s => decide (∃ i : Fin n, i.1 < n / 2 ∧ low n (L i) = s ∧ (L i : ℕ) ≠ s), Equiv.ofBijective g hgb, ?_⟩
  intro i hi
  have e : ((Equiv.ofBijective g hgb) ⟨i, hi⟩ : ℕ) = low n (L i) := rfl
  rw [e]
  unfold topVal
  have h2 := (L i).2
  have h3 := hmid i hi
  by_cases h : (L i : ℕ) = low n (L i)
  · rw [if_neg]
    · rw [← h]
    · rw [decide_eq_true_iff]
      rintro ⟨i', hi', h4, h5⟩
      obtain rfl := hinj i' i hi' hi h4
      exact h5 h
  · rw [if_pos]
    · unfold low at h ⊢; omega
    · rw [decide_eq_true_iff]
      exact ⟨i, hi, rfl, h⟩

/-- Every array of levels with symmetric columns and an increasing first column is generated. -/
theorem slhd_exists (hn : 2 ≤ n) (L : Fin d → Equiv.Perm (Fin n)) (hsym : ∀ j i, L j i.rev = (L j i).rev)
    (h0 : ∀ j : Fin d, j.1 = 0 → L j = 1) :
    ∃ coin σ, ∀ i j, slhd n d coin σ i j = ((L j i : ℕ) : ℝ) / ((n : ℝ) - 1) := by
  choose c τ hc using fun j => column_exists (L j) (hsym j)
  refine ⟨fun s j => if hj : j < d then c ⟨j, hj⟩ s else false, fun j => if hj : j < d then τ ⟨j, hj⟩ else 1, ?_⟩
  set coin : ℕ → ℕ → Bool := fun s j => if hj : j < d then c ⟨j, hj⟩ s else false
  set σ : ℕ → Equiv.Perm (Fin (n / 2)) := fun j => if hj : j < d then τ ⟨j, hj⟩ else 1
  intro i j
  obtain ⟨c', τ', ⟨hz, hnz⟩, htop, hs⟩ := slhdArr_spec' n d coin σ j j.2
  have top : ∀ i : Fin n, i.1 < n / 2 → slhdArr n d coin σ i j = ((L j i : ℕ) : ℤ) + 1 := by
    intro i hi
    rw [htop i hi]
    by_cases hj : j.1 = 0
    · obtain ⟨rfl, rfl⟩ := hz hj
      rw [h0 j hj]
      simp [topVal]
    · obtain ⟨rfl, rfl⟩ := hnz hj
      have e1 : (fun s => coin s j) = c j := by funext s; simp [coin]
      have e2 : σ j = τ j := by simp [σ]
      rw [e1, e2]
      exact hc j i hi
  have all : slhdArr n d coin σ i j = ((L j i : ℕ) : ℤ) + 1 := by
    by_cases hi : i.1 < n / 2
    · exact top i hi
    · have h1 := hs i i.2
      have hr : (i.rev : ℕ) = n - 1 - i := by rw [Fin.val_rev]; omega
      have h2 := hsym j i
      have h3 : ((L j i.rev : Fin n) : ℕ) = n - 1 - (L j i : ℕ) := by rw [h2, Fin.val_rev]; omega
      have h4 := (L j i).2
      by_cases hi' : n - 1 - i.1 < n / 2
      · have h5 := top i.rev (by omega)
        rw [hr, h3] at h5
        omega
      · have h6 : i.rev = i := Fin.ext (by rw [hr]; have := i.2; omega)
        rw [h6] at h3
        have : n - 1 - i.1 = i.1 := by rw [← hr, h6]
        rw [this] at h1
        omega
  rw [slhd_apply]
  show (((slhdArr n d coin σ i j : ℤ) : ℝ) - 1) / _ = _
  rw [all]
  push_cast
  rw [add_sub_cancel_right]

/-- Every symmetric Latin hypercube is generated, up to the order of its rows. -/
theorem slhd_complete (hn : 2 ≤ n) (D : Des n d) (hlat : ∀ j, ∀ k : Fin n, ∃ i, D i j = (k : ℝ) / ((n : ℝ) - 1))
    (hsym : ∀ i, ∃ i', ∀ j, D i j + D i' j = 1) :
    ∃ (ρ : Equiv.Perm (Fin n)) (coin : ℕ → ℕ → Bool) (σ : ℕ → Equiv.Perm (Fin (n / 2))),
      ∀ i, slhd n d coin σ i = D (ρ i) := by
  have hp : (0 : ℝ) < (n : ℝ) - 1 := Props.pred_pos hn
  have hcast : ((n - 1 : ℕ) : ℝ) = (n : ℝ) - 1 := by rw [Nat.cast_sub (by omega)]; simp
  choose e he using hlat
  have hinj : ∀ j, Function.Injective (e j) := by
    intro j k k' h
    have h1 := he j k
    rw [h, he j k', div_left_inj' hp.ne'] at h1
    exact Fin.ext (by exact_mod_cast h1.symm)
  let E : Fin d → Equiv.Perm (Fin n) := fun j => Equiv.ofBijective (e j) (Finite.injective_iff_bijective.mp (hinj j))
  have hE : ∀ j k, D (E j k) j = (k : ℝ) / ((n : ℝ) - 1) := fun j k => he j k
  have hE' : ∀ j i, D i j = ((E j).symm i : ℝ) / ((n : ℝ) - 1) := fun j i => by
    have h := hE j ((E j).symm i)
    rwa [Equiv.apply_symm_apply] at h
  -- mirror images have mirrored levels
  have hmir : ∀ i i', (∀ j, D i j + D i' j = 1) → ∀ j, (E j).symm i' = ((E j).symm i).rev := by
    intro i i' h j
    have h1 := h j
    rw [hE', hE', ← add_div, div_eq_one_iff_eq hp.ne', ← hcast] at h1
    have h2 : ((E j).symm i : ℕ) + ((E j).symm i' : ℕ) = n - 1 := by exact_mod_cast h1
    apply Fin.ext
    rw [Fin.val_rev]
    omega
  rcases Nat.eq_zero_or_pos d with hd | hd
  · subst hd
    exact ⟨1, fun _ _ => false, fun _ => 1, fun i => funext fun j => j.elim0⟩
  let j0 : Fin d := ⟨0, hd⟩
  have hs : ∀ j i, (E j).symm (E j0 i.rev) = ((E j).symm (E j0 i)).rev := by
    intro j i
    obtain ⟨i', hi'⟩ := hsym (E j0 i)
    have h1 := hmir _ _ hi' j0
    rw [Equiv.symm_apply_apply] at h1
    rw [← h1, Equiv.apply_symm_apply]
    exact hmir _ _ hi' j
  have h0 : ∀ j : Fin d, j.1 = 0 → (E j0).trans (E j).symm = 1 := by
    intro j hj
    obtain rfl : j = j0 := Fin.ext hj
    exact Equiv.self_trans_symm _
  obtain ⟨coin, σ, h⟩ := slhd_exists hn (fun j => (E j0).trans (E j).symm) hs h0
  refine ⟨E j0, coin, σ, fun i => funext fun j => ?_⟩
  rw [h, hE']
  rfl

end Verif.Design
