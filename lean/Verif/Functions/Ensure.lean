import Verif.Functions.Elementary

/-!
# Model of `ensure_left` and `ensure_right`

`PiecewiseFunction.ensure_left` and `ensure_right` (`functions.pyx` 1302-1337).  `rnd` is the float next to a crossing point;
simplification: it is finite.  The bound `x` is the `x`-th finite float.
-/

namespace Verif.Fun.PF

open Iv Iv.FP

/-- `functions.pyx` 1307-1310 and 1312-1319: `left` below `b`, the first piece from `b` on; `del` tells whether an empty piece is
removed. -/
def prependAt (i : CS) (f : Fn) (r : PF) (left : Fn) (b : FP) (del : Bool) : PF :=
  let i' : CS := { i with lower := b, left := .inc }
  (⟨ninf, b, .exc, .exc⟩, left) :: (if del && i'.isempty then r else (i', f) :: r)

/-- `ensure_left(left, x)` (`functions.pyx` 1302-1319). -/
def ensureLeft (rnd : ℚ → ℤ) (p : PF) (left : Fn) (x : ℤ) : Except Err PF :=
  match p with
  | [] => .error .indexError
  | (i, f) :: r =>
    match f.intersection left with
    | .error e => .error e
    | .ok .all => .ok p
    | .ok .no => .ok (prependAt i f r left (fin x) true)
    | .ok (.one q) =>
      if fin (rnd q) < i.upper ∧ rnd q ≥ x then .ok (prependAt i f r left (fin (rnd q)) false)
      else .ok (prependAt i f r left (fin x) true)

/-- `functions.pyx` 1326-1329 and 1331-1337: the last piece below `b`, `right` from `b` on.  The assignment to `left` (1328, 1333)
is that of the code. -/
def extendAt (q : PF) (i : CS) (f : Fn) (right : Fn) (b : FP) (del : Bool) : PF :=
  let i' : CS := { i with upper := b, left := .inc }
  q ++ (if del && i'.isempty then [] else [(i', f)]) ++ [(⟨b, pinf, .inc, .exc⟩, right)]

/-- `ensure_right(right, x)` (`functions.pyx` 1321-1337). -/
def ensureRight (rnd : ℚ → ℤ) (p : PF) (right : Fn) (x : ℤ) : Except Err PF :=
  match p.getLast? with
  | none => .error .indexError
  | some (i, f) =>
    match f.intersection right with
    | .error e => .error e
    | .ok .all => .ok p
    | .ok .no => .ok (extendAt p.dropLast i f right (fin x) true)
    | .ok (.one q) =>
      if fin (rnd q) > i.lower ∧ rnd q ≤ x then .ok (extendAt p.dropLast i f right (fin (rnd q)) false)
      else .ok (extendAt p.dropLast i f right (fin x) true)

end Verif.Fun.PF
