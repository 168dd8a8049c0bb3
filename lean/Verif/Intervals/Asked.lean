import Verif.Intervals.Model

/-!
# Model of what queries do to a `RealSet`

`simplify` changes the first interval of the set it is called on (`RS.simplifyReceiver`); other methods call it.
-/

namespace Verif.Iv.RS

/-- Methods of a `RealSet` that return something about it. -/
inductive Ask
  | simplify
  | size
  | equals (otherEmpty : Bool)
  | contains

/-- The intervals of the set after `simplify` (intervals.pyx 458-491).  If an exception is raised, this happens in the first
loop (intervals.pyx 466-479), which changes nothing. -/
def afterSimplify (l : List CS) : List CS :=
  match l, simplifyReceiver l with
  | _ :: t, .ok (some f) => f :: t
  | _, _ => l

/-- The intervals of the set afterwards: `simplify`, `size` (intervals.pyx 232-254), `__eq__` (intervals.pyx 182-191), where
`otherEmpty` is `other.isempty()`, and `__contains__` (intervals.pyx 164-172). -/
def ask : Ask → List CS → List CS
  | .simplify, l => afterSimplify l
  | .size, l => afterSimplify l
  | .equals otherEmpty, l => if isempty l && otherEmpty then l else afterSimplify l
  | .contains, l => l

end Verif.Iv.RS
