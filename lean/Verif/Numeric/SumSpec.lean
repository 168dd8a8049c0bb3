import Verif.Numeric.ConvolutionSpec

/-!
# What the sum of two random numbers is
-/

namespace Verif.Num

open MeasureTheory

/-- The probability of `X + Y < z` for independent `X` and `Y` with the densities `f` and `g`. -/
noncomputable def sumProb (f g : ℝ → ℝ) (z : ℝ) : ℝ := ∫ y, f y * ∫ x in Set.Iio (z - y), g x

end Verif.Num
