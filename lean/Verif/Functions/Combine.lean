import Verif.Functions.Elementary

/-!
# Minimum, maximum and absolute value of piecewise functions

`PiecewiseFunction.combine`, `min`, `max` and `abs` (`functions.pyx` 1562-1608).
`rnd` is the float nearest to a number.
-/

namespace Verif.Fun

open Iv Iv.FP

namespace Fn

/-- `-a` on floats. -/
def flNeg : Fl → Fl
  | some (.fin a) => some (.fin (-a))
  | some .pinf => some .ninf
  | some .ninf => some .pinf
  | none => none

/-- `a <= 0`; comparisons with `nan` are false. -/
def flNonpos : Fl → Bool
  | some (.fin a) => decide (a ≤ 0)
  | some .ninf => true
  | _ => false

/-- `isinstance(f, (LinearFunction, ConstantFunction))`. -/
def isStraight : Fn → Bool
  | .const _ => true
  | .lin _ _ => true
  | _ => false

end Fn

namespace PF

/-- `d1 & d2` (`intervals.pyx` 415-432, 547-548, 948-1016, 1245-1246): the argument of `ContinuousSet.intersection` is typed, so
a `RealSet` raises `TypeError`. -/
def nsIntersection : NS → NS → Except Err NS
  | .cs a, .cs b => do return .cs (← a.intersection b)
  | .cs _, .rs _ => .error .typeError
  | .rs l, .cs b => RS.intersection l [b]
  | .rs l, .rs o => RS.intersection l o

/-- `simplify` of a set (`intervals.pyx` 458-491, 1161-1162). -/
def nsSimplify : NS → Except Err NS
  | .cs c => .ok (.cs c)
  | .rs l => RS.simplify l

/-- `chop` of a set (`intervals.pyx` 530-532, 1136-1159). -/
def nsChop : NS → List FP → Except Err (List CS)
  | .cs c, ps => .ok (c.chop ps)
  | .rs l, ps => RS.chop l ps

/-- The points at which the domain is chopped (`functions.pyx` 1566-1571): the least float of every piece and the float
behind the greatest, if they are finite. -/
def cutPoints (p : PF) : List FP :=
  (p.flatMap (fun s => [s.1.lowermost, s.1.uppermost.up])).filter (fun x => !x.isInf)

/-- `(i.min + i.max) * .5` (`functions.pyx` 1577); `none` is `nan`. -/
def center (val : ℤ → ℚ) (rnd : ℚ → ℤ) (i : CS) : Option FP :=
  match i.lowermost, i.uppermost with
  | fin a, fin b => some (fin (rnd ((val a + val b) * (1 / 2))))
  | ninf, pinf => none
  | pinf, ninf => none
  | ninf, _ => some ninf
  | _, ninf => some ninf
  | pinf, _ => some pinf
  | _, pinf => some pinf

/-- `at(x)` where `x` may be `nan`, which is in no interval (`functions.pyx` 1055-1078). -/
def atCenter (p : PF) (c : Option FP) : Option Fn := c.bind p.atPos

/-- `l1.eval(c) - l2.eval(c)` (`functions.pyx` 1589). -/
def deltaAt (val : ℤ → ℚ) (f g : Fn) (c : Option FP) : Fn.Fl :=
  match c with
  | some x => Fn.flAdd (f.valueAt (pos val x)) (Fn.flNeg (g.valueAt (pos val x)))
  | none => none

/-- `min` or `max`. -/
inductive Op
  | min
  | max
  deriving DecidableEq

/-- `delta *= -1` for the maximum, and `l1 if delta <= 0 else l2` (`functions.pyx` 1589-1595). -/
def choose (op : Op) (delta : Fn.Fl) (f g : Fn) : Fn :=
  if Fn.flNonpos (if op = .max then Fn.flNeg delta else delta) then f else g

/-- The crossing at which an interval is chopped once more (`functions.pyx` 1585-1586): a single number in the interval
that is neither its least nor its greatest float. -/
def splitAt (rnd : ℚ → ℤ) (i : CS) : Cross → Option FP
  | .one x =>
    let k := fin (rnd x)
    if i.containsValue k ∧ k ≠ i.lowermost ∧ k ≠ i.uppermost then some k else none
  | _ => none

/-- The loop of `combine` (`functions.pyx` 1575-1595). -/
def combineLoop (val : ℤ → ℚ) (rnd : ℚ → ℤ) (op : Op) (f g : PF) : ℕ → List CS → Except Err PF
  | _, [] => .ok []
  | 0, _ :: _ => .error .outOfFuel
  | n + 1, i :: queue =>
    let c := center val rnd i
    match atCenter f c, atCenter g c with
    | some a, some b =>
      if a.isStraight && b.isStraight then do
        match splitAt rnd i (← a.intersection b) with
        | some k => combineLoop val rnd op f g n (i.chop [k] ++ queue)
        | none => return (i, choose op (deltaAt val a b c) a b) :: (← combineLoop val rnd op f g n queue)
      else .error .typeError
    | _, _ => .error .typeError

/-- `combine` (`functions.pyx` 1562-1596); every interval is chopped at most once more, so that three rounds for each
suffice. -/
def combine (val : ℤ → ℚ) (rnd : ℚ → ℤ) (op : Op) (f g : PF) : Except Err PF := do
  let d ← nsSimplify (← nsIntersection (← domain f) (← domain g))
  let is ← nsChop d (cutPoints f ++ cutPoints g)
  simplify (← combineLoop val rnd op f g (3 * is.length) is)

/-- `abs` (`functions.pyx` 1606-1608): `max(f, f * -1)`. -/
def absolute (val : ℤ → ℚ) (rnd : ℚ → ℤ) (f : PF) : Except Err PF := do
  combine val rnd .max f (← timesFn f (.const (-1)))

end PF

end Verif.Fun
