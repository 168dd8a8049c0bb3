import Verif.Intervals.Spec
import Mathlib.Algebra.Order.Field.Rat

/-! # What probabilities, moments and explanations of a numeric distribution mean -/

namespace Verif.Num

open Iv Iv.FP

/-- The value of a distribution function at a bound. -/
def below (F : ℤ → ℚ) : FP → ℚ
  | ninf => 0
  | fin n => F n
  | pinf => 1

/-- The probability of an interval under the distribution function `F`, whose left limit at `n` is `Fm n`:
a bound that belongs to the interval contributes the mass that `F` may have on it. -/
def probOf (F Fm : ℤ → ℚ) (I : CS) : ℚ :=
  below (if I.right = .inc then F else Fm) I.upper - below (if I.left = .inc then Fm else F) I.lower

end Verif.Num
