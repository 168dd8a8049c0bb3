import Verif.Functions.Approx
import Verif.Numeric.Sum

/-!
# Model of the approximation of numeric distributions

`Numeric.approximate` (`numeric.py` 585-599).
-/

namespace Verif.Num

open Iv Iv.FP Fun Fun.PF

/-- `approximate` (`numeric.py` 585-599): the cdf of the approximation of the distribution with the density `d`.  `rnd` and
`least` are the rounding and the heap of `PiecewiseFunction.approximate`, `pick` is `any_point`.  Simplification: densities
with infinite values are an error here. -/
def approxDist (val : ℤ → ℚ) (rnd : ℚ → ℤ) (least : List (Fn.Fl × ℕ) → ℕ) (pick : CS → ℤ) (d : Dens) (emax : Option ℚ)
    (k : Option ℕ) : Except Err PF :=
  match toPF d with
  | some p => do pdfToCdf val pick (← toDens (← approximate val rnd least .constant p emax k))
  | none => .error .notImplemented

end Verif.Num
