import Verif.Numeric.Convolution
import Verif.Numeric.FromPdf
import Verif.Functions.Extrema

/-!
# Model of the sum of two numeric distributions

`Numeric.__add__` (`numeric.py` 578-583).  As for the convolution, the floats are treated as a grid.
-/

namespace Verif.Num

open Iv Iv.FP Fun Fun.PF

/-- A density without infinite values as a piecewise function. -/
def toPF (d : Dens) : Option PF := d.mapM (fun s => match s.2 with
  | .fin v => some (s.1, .const v)
  | _ => none)

/-- A piecewise constant function as a density.  Simplification: `pdf_to_cdf` reads the attribute `value` of every piece,
which only constants have. -/
def toDens (p : PF) : Except Err Dens := p.mapM (fun s => match s.2 with
  | .const v => .ok (s.1, .fin v)
  | _ => .error .attributeError)

/-- `is_impulse` (`functions.pyx` 1610-1633) for the density of a constant, whose value is infinite. -/
def impulseDens : Dens → Bool
  | [s, t, w] => s.1.isninf && decide (s.2 = .fin 0) && w.1.ispinf && decide (w.2 = .fin 0) && !t.1.isempty &&
      decide (t.1.upper.dn ≤ t.1.lowermost.up) && decide (t.2 = .pinf)
  | _ => false

/-- `QuantileDistribution.from_pdf(h.rectify().simplify())` (`numeric.py` 580-582). -/
def fromRectified (val : ℤ → ℚ) (pick : CS → ℤ) (h : PF) : Except Err PF := do
  pdfToCdf val pick (← toDens (← simplify (← rectify val h)))

/-- `__add__` (`numeric.py` 578-583): the cdf of the sum, given the two densities.  If one of them is an impulse,
`convolution` returns the other one (`functions.pyx` 1717-1720); `rectify` and `simplify` do not change the density of a
constant.  Simplification: other densities with infinite values are an error here. -/
def sumDist (val : ℤ → ℚ) (pick : CS → ℤ) (d e : Dens) : Except Err PF :=
  let alone (d : Dens) : Except Err PF := match toPF d with
    | some p => fromRectified val pick p
    | none => if impulseDens d then pdfToCdf val pick d else .error .notImplemented
  if impulseDens d then alone e
  else if impulseDens e then alone d
  else match toPF d, toPF e with
    | some f, some g => do fromRectified val pick (← convolution val f g)
    | _, _ => .error .notImplemented

end Verif.Num
