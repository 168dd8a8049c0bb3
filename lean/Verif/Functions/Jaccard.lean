import Verif.Functions.Combine

/-!
# Jaccard similarity of piecewise functions (`functions.pyx` 1642-1655)
-/

namespace Verif.Fun

open Iv Iv.FP

/-- `a / b` of floats with `cdivision` (`functions.pyx` 3): nothing is raised for `b = 0`. -/
def Fn.flDiv : Fn.Fl → Fn.Fl → Fn.Fl
  | some (.fin a), some (.fin b) =>
    if b = 0 then (if a = 0 then none else if 0 < a then some .pinf else some .ninf) else some (.fin (a / b))
  | some (.fin _), some _ => some (.fin 0)
  | some .pinf, some (.fin b) => if b < 0 then some .ninf else some .pinf
  | some .ninf, some (.fin b) => if b < 0 then some .pinf else some .ninf
  | _, _ => none

/-- `jaccard_similarity` (`functions.pyx` 1642-1655); the default of `interval` is `R`. -/
def PF.jaccard (val : ℤ → ℚ) (rnd : ℚ → ℤ) (f g : PF) (interval : CS := CS.allnumbers) : Except Err Fn.Fl := do
  let hi ← PF.combine val rnd .max f g
  let lo ← PF.combine val rnd .min f g
  return Fn.flDiv (← lo.integrate val interval) (← hi.integrate val interval)

end Verif.Fun
