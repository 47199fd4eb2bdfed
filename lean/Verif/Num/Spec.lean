import Verif.Num.Basic

/-! # Specification vocabulary for points (independent of the model) -/

namespace Verif.Spec

open Verif.Num

/-- The point satisfies the bounds. -/
def InBox {d : ℕ} (lb ub x : Pt d) : Prop := ∀ i, lb i ≤ x i ∧ x i ≤ ub i

/-- The variables in `iv` have integer values. -/
def IntegerOn {d : ℕ} (iv : List (Fin d)) (x : Pt d) : Prop := ∀ i ∈ iv, ∃ z : ℤ, x i = z

/-- The distance of `x` to every point of the list is at least `δ`. -/
def Separated {d : ℕ} (δ : ℝ) (x : Pt d) (L : List (Pt d)) : Prop := ∀ y ∈ L, δ ≤ eucl x y

end Verif.Spec
