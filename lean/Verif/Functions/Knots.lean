import Verif.Functions.Elementary

/-!
# Knots, rounding, undefined pieces and merging (`functions.pyx` 967-977, 1439-1459, 1461-1470, 1503-1532)

`rx n` is the position of `np.round(x)` for the `n`-th float `x`, `rq q` is `np.round(q)` of a parameter.
-/

namespace Verif.Fun

open Iv Iv.FP

namespace PF

/-- `drop_undef` (`functions.pyx` 967-977). -/
def dropUndef (p : PF) : PF := p.filter (fun s => decide (s.2 ≠ .undef))

/-- `knots(lastx)` (`functions.pyx` 1461-1470); `none` for `lastx` is the default `nan`.  `functions[-1]` of an empty
function raises `IndexError`.  Simplification: the value of a quadratic piece is not modelled (`none`, like NaN). -/
def knots (val : ℤ → ℚ) (p : PF) (lastx : Option FP := none) : Except Err (List (FP × Fn.Fl)) :=
  let inner := (p.filter (fun s => decide (s.1.lower ≠ ninf))).map (fun s => (s.1.lower, s.2.valueAt (pos val s.1.lower)))
  match p.getLast? with
  | some s =>
    if s.1.upper ≠ pinf then .ok (inner ++ [(s.1.upper, s.2.valueAt (pos val s.1.upper))])
    else match lastx with
      | some x => .ok (inner ++ [(x, s.2.valueAt (pos val x))])
      | none => .ok inner
  | none =>
    match lastx with
    | some _ => .error .indexError
    | none => .ok inner

/-- `round_(x) if not np.isinf(x) else x` (`functions.pyx` 1523-1524). -/
def roundPos (rx : ℤ → ℤ) : FP → FP
  | fin n => fin (rx n)
  | x => x

/-- Rounding a function (`functions.pyx` 1526-1531). -/
def roundFn (rq : ℚ → ℚ) : Fn → Except Err Fn
  | .lin m c => .ok (.lin (rq m) (rq c))
  | .const v => .ok (.const (rq v))
  | _ => .error .typeError

/-- `round(digits, include_intervals)` (`functions.pyx` 1503-1532). -/
def round (rx : ℤ → ℤ) (rq : ℚ → ℚ) (p : PF) (includeIntervals : Bool := true) : Except Err PF :=
  p.mapM (fun s => do
    let i := if includeIntervals then { s.1 with lower := roundPos rx s.1.lower, upper := roundPos rx s.1.upper } else s.1
    return (i, ← roundFn rq s.2))

/-- `f.eval(x)` for a bound `x` (`functions.pyx` 1029-1030). -/
def evalBound (val : ℤ → ℚ) (p : PF) (x : FP) : Except Err Fn.Fl :=
  match p.atPos x with
  | some f => .ok (f.valueAt (pos val x))
  | none => .error .attributeError

/-- `merge` (`functions.pyx` 1439-1459).  `PiecewiseFunction` has no method `add_const`, so that the statement at 1454
raises `AttributeError`; what follows is never reached. -/
def mergeAt (val : ℤ → ℚ) (f1 f2 : PF) (x : FP) : Except Err PF := do
  let lower := (← split f1 x).1
  let upper := (← split f2 x).2
  match lower.getLast? with
  | none => .error .indexError
  | some l => do
    let _ ← evalBound val lower l.1.lower
    match upper.head? with
    | none => .error .indexError
    | some u => do
      let _ ← evalBound val upper u.1.upper
      .error .attributeError

end PF

end Verif.Fun
