import Verif.Functions.Model
import Verif.Trees.Region

/-!
# Where a piecewise function equals, falls below or exceeds a value

`PiecewiseFunction.eq`, `lt` and `gt` (`functions.pyx` 1372-1437).  Crossings of lines need not be bounds of pieces; so
bounds are rational numbers here and the line is dense, as in `Verif.Trees.Region`.  The rounding of crossings to floats
is not modelled.
-/

namespace Verif.Fun

open Vars (RI)
open Trees (RIMem riInter)
open Iv (Br)

/-- A piecewise function on the dense line. -/
abbrev LF := List (RI × Fn)

/-- The `ContinuousSet` that `intersection` returns: `R`, `EMPTY` or a single number. -/
inductive Cross
  | all
  | no
  | one (x : ℚ)
  deriving DecidableEq

/-- `f.intersection(ConstantFunction(y))` (`functions.pyx` 415-428, 542-568, 801-802; `Undefined` has no such method). -/
def Fn.crossing (y : ℚ) : Fn → Except Err Cross
  | .const v => .ok (if v = y then .all else .no)
  | .lin m c => .ok (if m = 0 then (if c = y then .all else .no) else .one ((c - y) / (-m)))
  | .quad _ _ _ => .error .notImplemented
  | .undef => .error .attributeError

/-- A number other than zero times an infinity; zero times an infinity is `nan`. -/
def Fn.slopeTimes (m : ℚ) (pos : Bool) : Fn.Fl :=
  if m = 0 then none else some (if decide (0 < m) = pos then .pinf else .ninf)

/-- `f(x)` (`functions.pyx` 323-324, 468-469) for constants and lines, at a bound; `none` is `nan`.  Other functions have
failed before. -/
def Fn.valueAt : Fn → XQ → Fn.Fl
  | .const v, _ => some (.fin v)
  | .lin m c, .fin x => some (.fin (m * x + c))
  | .lin m _, .pinf => Fn.slopeTimes m true
  | .lin m _, .ninf => Fn.slopeTimes m false
  | _, _ => none

/-- `v < y`; comparisons with `nan` are false. -/
def Fn.below (v : Fn.Fl) (y : ℚ) : Bool :=
  match v with
  | some a => decide (a < .fin y)
  | none => false

/-- `v > y`. -/
def Fn.above (v : Fn.Fl) (y : ℚ) : Bool :=
  match v with
  | some a => decide (.fin y < a)
  | none => false

namespace LF

/-- The `elif` of `eq` (`functions.pyx` 1380-1381): the lower bound of the piece, if the function jumps over `y` there. -/
def jumpOf (y : ℚ) (prev : Option Fn) (s : RI × Fn) : List RI :=
  match prev with
  | none => []
  | some g =>
    if (Fn.below (g.valueAt s.1.lower) y && Fn.above (s.2.valueAt s.1.lower) y)
        || (Fn.above (g.valueAt s.1.lower) y && Fn.below (s.2.valueAt s.1.lower) y) then
      [⟨s.1.lower, s.1.lower, .inc, .inc⟩]
    else []

/-- One round of `eq` (`functions.pyx` 1376-1382): the number or interval in which the piece equals `y`, or a jump. -/
def eqStep (y : ℚ) (prev : Option Fn) (s : RI × Fn) : Except Err (List RI) := do
  match ← s.2.crossing y with
  | .one x => return if RIMem s.1 (.fin x) then [⟨.fin x, .fin x, .inc, .inc⟩] else jumpOf y prev s
  | .all => return if s.1.lower = .ninf ∧ s.1.upper = .pinf then [⟨.ninf, .pinf, .exc, .exc⟩] else jumpOf y prev s
  | .no => return jumpOf y prev s

/-- The loop of `eq` (`functions.pyx` 1376-1383). -/
def eqLoop (y : ℚ) : Option Fn → LF → Except Err (List RI)
  | _, [] => .ok []
  | prev, s :: p => do
    let a ← eqStep y prev s
    return a ++ (← eqLoop y (some s.2) p)

/-- `eq` (`functions.pyx` 1372-1384). -/
def eq (p : LF) (y : ℚ) : Except Err (List RI) := eqLoop y none p

/-- `result_set` and `current`. -/
abbrev LSt := List RI × Option RI

/-- `current.upper = x; result_set.intervals.append(current); current = None`. -/
def close (st : LSt) (c : RI) (x : XQ) : LSt := (st.1 ++ [{ c with upper := x }], none)

/-- One round of `lt` (`functions.pyx` 1391-1409). -/
def ltStep (y : ℚ) (st : LSt) (s : RI × Fn) : Except Err LSt := do
  match ← s.2.crossing y with
  | .one x =>
    if RIMem s.1 (.fin x) then
      match s.2 with
      | .lin m _ =>
        if 0 < m then
          match st.2 with
          | none => return (st.1 ++ [⟨.ninf, .fin x, .exc, .exc⟩], none)
          | some c => return close st c (.fin x)
        else if m < 0 then return (st.1, some ⟨.fin x, .pinf, .exc, .exc⟩)
        else return st
      | _ => return st
    else return st
  | .all => return st
  | .no =>
    match st.2 with
    | none => return if Fn.below (s.2.valueAt s.1.lower) y then (st.1, some ⟨s.1.lower, .pinf, .exc, .exc⟩) else st
    | some c =>
      return if Fn.above (s.2.valueAt s.1.lower) y || decide (s.2.valueAt s.1.lower = some (.fin y)) then
        close st c s.1.lower else st

/-- One round of `gt` (`functions.pyx` 1417-1434). -/
def gtStep (y : ℚ) (st : LSt) (s : RI × Fn) : Except Err LSt := do
  match ← s.2.crossing y with
  | .one x =>
    if RIMem s.1 (.fin x) then
      match s.2 with
      | .lin m _ =>
        if m < 0 then
          match st.2 with
          | none => return (st.1 ++ [⟨.ninf, .fin x, .exc, .exc⟩], none)
          | some c => return close st c (.fin x)
        else if 0 < m then return (st.1, some ⟨.fin x, .pinf, .exc, .exc⟩)
        else return st
      | _ => return st
    else return st
  | .all =>
    match st.2 with
    | none => return st
    | some c => return if s.2.valueAt s.1.lower = some (.fin y) then close st c s.1.lower else st
  | .no =>
    match st.2 with
    | none => return if Fn.above (s.2.valueAt s.1.lower) y then (st.1, some ⟨s.1.lower, .pinf, .inc, .exc⟩) else st
    | some c => return if Fn.below (s.2.valueAt s.1.lower) y then close st c s.1.lower else st

/-- After the loop (`functions.pyx` 1410-1412, 1435-1437). -/
def finish (st : LSt) : List RI :=
  match st.2 with
  | none => st.1
  | some c => st.1 ++ [c]

/-- `lt` (`functions.pyx` 1386-1412). -/
def lt (p : LF) (y : ℚ) : Except Err (List RI) := do return finish (← p.foldlM (ltStep y) ([], none))

/-- `gt` (`functions.pyx` 1414-1437). -/
def gt (p : LF) (y : ℚ) : Except Err (List RI) := do return finish (← p.foldlM (gtStep y) ([], none))

end LF

end Verif.Fun
