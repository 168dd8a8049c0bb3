import Verif.Intervals.Model

/-!
# Model of rounding intervals and of taking a point of a set
-/

namespace Verif.Iv

/-- `round(x, n)` for a float (intervals.pyx 1195-1196): `rnd` is the rounding of the finite floats.  With `n` digits the
infinities are their own rounding; without `n` they raise an `OverflowError`, which is a `runtimeError` here. -/
def FP.round (rnd : Int → Int) (digits : Bool) : FP → Except Err FP
  | .fin x => .ok (.fin (rnd x))
  | x => if digits then .ok x else .error .runtimeError

/-- `ContinuousSet.__round__` (intervals.pyx 1193-1199). -/
def CS.round (rnd : Int → Int) (digits : Bool) (s : CS) : Except Err CS := do
  let a ← s.lower.round rnd digits
  let b ← s.upper.round rnd digits
  CS.mk? a b s.left s.right

/-- `RealSet.__round__` (intervals.pyx 205-208). -/
def RS.round (rnd : Int → Int) (digits : Bool) (l : List CS) : Except Err (List CS) := l.mapM (CS.round rnd digits)

/-- `RealSet.any_point` (intervals.pyx 216-219), where `pick` is `ContinuousSet.any_point`; `none` is `None`. -/
def RS.anyPoint (pick : CS → FP) : List CS → Option FP
  | [] => none
  | i :: l => if i.isempty then RS.anyPoint pick l else some (pick i)

end Verif.Iv
