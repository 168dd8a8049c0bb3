import Verif.Functions.Cells
import Verif.Functions.Knots

/-!
# Model of `copy` and `round` of a piecewise function with interval objects

Cells are as in `Verif/Functions/Cells.lean`; `free` is the first address that is not in use.
-/

namespace Verif.Fun.Cells

open Iv

/-- A new interval object at `a`. -/
def put (h : Heap) (a : ℕ) (i : CS) : Heap := fun x => if x = a then i else h x

/-- `copy` (functions.pyx 1175-1181): all intervals are copied. -/
def copyH (h : Heap) (free : ℕ) : Obj → Heap × Obj
  | [] => (h, [])
  | (a, f) :: r =>
    let n := copyH (put h free (h a)) (free + 1) r
    (n.1, (free, f) :: n.2)

/-- `round(digits, include_intervals)` (functions.pyx 1503-1532): without `include_intervals` the interval objects are used again.  After
an exception there is no result, and no other object was changed. -/
def roundH (rx : ℤ → ℤ) (rq : ℚ → ℚ) (incl : Bool) (h : Heap) (free : ℕ) : Obj → Except Err (Heap × Obj)
  | [] => .ok (h, [])
  | (a, f) :: r => do
    let g ← PF.roundFn rq f
    if incl then do
      let i := { h a with lower := PF.roundPos rx (h a).lower, upper := PF.roundPos rx (h a).upper }
      let n ← roundH rx rq incl (put h free i) (free + 1) r
      return (n.1, (free, g) :: n.2)
    else do
      let n ← roundH rx rq incl h free r
      return (n.1, (a, g) :: n.2)

end Verif.Fun.Cells
