import Mathlib.Algebra.Order.Field.Rat

/-! # Overlap of piecewise constant densities -/

namespace Verif.Num

/-- `f` is constant from each point of `P` up to the next, and zero before the first and from the last on. -/
structure Steps (f : ℤ → ℚ) (P : List ℤ) : Prop where
  incr : P.Pairwise (· < ·)
  const : ∀ a n, a ∈ P → a ≤ n → (∀ b ∈ P, b ≤ a ∨ n < b) → f n = f a
  before : ∀ n, (∀ b ∈ P, n < b) → f n = 0
  after : ∀ n, (∀ b ∈ P, b ≤ n) → f n = 0

/-- The integral of a function with such steps; `x` gives the numbers. -/
def stepSum (x f : ℤ → ℚ) : List ℤ → ℚ
  | a :: b :: r => f a * (x b - x a) + stepSum x f (b :: r)
  | _ => 0

end Verif.Num
