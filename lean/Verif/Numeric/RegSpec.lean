import Verif.Numeric.CdfReg
import Mathlib.Algebra.BigOperators.Intervals

/-! # Squared deviations from a polygon with one inner corner -/

namespace Verif.Num

/-- The straight line through the points `a` and `b` of the data, at the abscissa of the point `i`. -/
def Pts.chord (d : Pts) (a b i : ℕ) : ℚ :=
  d.y a + (d.y b - d.y a) / (d.x b - d.x a) * (d.x i - d.x a)

/-- The sum of the squared deviations of the points `a, …, b` from the line through the points `a` and
`b`. -/
def Pts.sq (d : Pts) (a b : ℕ) : ℚ :=
  (Finset.Icc a b).sum (fun i => (d.y i - d.chord a b i) ^ 2)

end Verif.Num
