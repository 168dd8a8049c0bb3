import Verif.Functions.Combine
import Verif.Functions.Spec

/-!
# Specification of the minimum, the maximum and the absolute value of piecewise functions
-/

namespace Verif.Fun

open Iv Iv.FP

namespace PF

/-- `rnd q` is a float nearest to `q`. -/
def Nearest (val : ℤ → ℚ) (rnd : ℚ → ℤ) : Prop := ∀ q n, |q - val (rnd q)| ≤ |q - val n|

/-- The function is defined between any two floats at which it is defined. -/
def Connected (p : PF) : Prop := ∀ a b c : ℤ, a ≤ b → b ≤ c → p.Covers a → p.Covers c → p.Covers b

/-- The smaller or the larger of two numbers. -/
def Op.of : Op → ℚ → ℚ → ℚ
  | .min, x, y => Min.min x y
  | .max, x, y => Max.max x y

/-- Constants and lines on one or more disjoint half-open intervals. -/
structure Lines (p : PF) : Prop where
  nonempty : p ≠ []
  halfOpen : ∀ s ∈ p, Norm s.1
  disj : p.Disj
  straight : ∀ s ∈ p, (∃ v, s.2 = .const v) ∨ ∃ m c, s.2 = .lin m c

/-- Only constants. -/
def Steps (p : PF) : Prop := ∀ s ∈ p, ∃ v, s.2 = .const v

/-- Only constants on intervals that are not bounded. -/
def ConstEnds (p : PF) : Prop := ∀ s ∈ p, s.1.lower = ninf ∨ s.1.upper = pinf → ∃ v, s.2 = .const v

/-- Some piece does not extend over the whole line. -/
def Bounded (p : PF) : Prop := ∃ s ∈ p, s.1.lower ≠ ninf ∨ s.1.upper ≠ pinf

end PF

end Verif.Fun
