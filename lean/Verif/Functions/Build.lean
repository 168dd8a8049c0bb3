import Verif.Functions.Model

/-!
# Model of building and overwriting piecewise functions

`PiecewiseFunction.from_dict`, `overwrite`, `zero` and `multi_eval` (`base/functions.pyx`)
-/

namespace Verif.Fun

open Iv Iv.FP

/-- A function as it is passed to `from_dict`: an object, `None` or a number.  Strings are not modelled. -/
inductive FnArg
  | obj (f : Fn)
  | none
  | num (c : ℚ)

/-- The conversion in the loop of `from_dict` (`functions.pyx` 998-1002). -/
def FnArg.toFn : FnArg → Fn
  | .obj f => f
  | .none => .undef
  | .num c => .const c

namespace PF

/-- `from_dict` (`functions.pyx` 979-1007).  A dict is the list of its items; `sorted` is stable. -/
def fromDict (d : List (CS × FnArg)) : PF :=
  (d.map (fun s => (s.1, s.2.toFn))).insertionSort (fun a b => a.1.lower ≤ b.1.lower)

/-- `overwrite` (`functions.pyx` 1223-1227). -/
def overwrite (p : PF) (segments : List (CS × FnArg)) : Except Err PF :=
  (fromDict segments).foldlM (fun r s => overwriteAt r s.1 s.2) p

/-- `zero` (`functions.pyx` 957-965). -/
def zeroOn (interval : Option CS) : PF := fromDict [(interval.getD CS.allnumbers, .num 0)]

/-- `multi_eval` (`functions.pyx` 1041-1053) of an array of finite numbers, without `result`. -/
def multiEval (val : ℤ → ℚ) (p : PF) (x : List ℤ) : Except Err (List (Option ℚ)) := x.mapM (fun n => p.eval val n)

end PF

end Verif.Fun
