import Verif.Intervals.Linspace
import Mathlib.Data.List.Sort
import Mathlib.Data.Rat.Defs

/-!
# Model of `PiecewiseFunction.xsamples` (`functions.pyx` 1339-1371)

The functions of the pieces are not used.  A sample `none` is `nan`.
-/

namespace Verif.Fun.XS

open Iv Iv.Lin

/-- The samples of the bounded pieces (`functions.pyx` 1350-1353), two for each; `true` marks an empty interval. -/
def bounded (N : Ops) : List (Box × Bool) → Except Err (List ℚ)
  | [] => .ok []
  | (s, e) :: p =>
    if s.lower ≠ .ninf ∧ s.upper ≠ .pinf then do
      let xs ← linspace N s e 2
      let r ← bounded N p
      return xs ++ r
    else bounded N p

/-- `np.abs(np.diff(samples_x[:i]))`.  Simplification here and in `step`: no rounding. -/
def gaps : List ℚ → List ℚ
  | x :: y :: r => |y - x| :: gaps (y :: r)
  | _ => []

/-- `stepsize` (`functions.pyx` 1354-1360): `np.mean` of no numbers is `nan`, which `ifnot` takes for a value; 0 is replaced by 1. -/
def step (p : List (Box × Bool)) (xs : List ℚ) : Option ℚ :=
  match p.head?, p.getLast? with
  | some a, some b =>
    if p.length ≥ 2 ∧ (a.1.lower = .ninf ∨ b.1.upper = .pinf) then
      if gaps xs = [] then none
      else if (gaps xs).sum = 0 then some 1 else some ((gaps xs).sum / (gaps xs).length)
    else some 1
  | _, _ => some 1

/-- `linspace(2, default_step=step)` of an unbounded piece (`functions.pyx` 1362, 1365).  If the step is `nan`, it is not negative, so the
first sample is the bound and the second one `nan` (`intervals.pyx` 844-848); all numbers with this step are not modelled. -/
def outer (N : Ops) (s : Box × Bool) : Option ℚ → Except Err (List (Option ℚ))
  | some d => (linspace N s.1 s.2 2 d).map (fun xs => xs.map some)
  | none =>
    if s.2 then .error .indexError
    else match s.1.lower, s.1.upper with
      | .ninf, .fin b => .ok [some b, none]
      | .fin a, .pinf => .ok [some (if s.1.left = .exc then N.next a (N.rd (a + 1)) else a), none]
      | _, _ => .error .notImplemented

/-- `np.sort`: `nan` comes last. -/
def sorted (xs : List (Option ℚ)) : List (Option ℚ) :=
  ((xs.filterMap id).insertionSort (· ≤ ·)).map some ++ xs.filter Option.isNone

/-- `xsamples(sort)` (`functions.pyx` 1339-1371).  There is room for three samples per piece; without bounds checks, the code writes
outside of its array if there are more, which is a `RuntimeError` here. -/
def xsamples (N : Ops) (p : List (Box × Bool)) (sort : Bool) : Except Err (List (Option ℚ)) := do
  let xs ← bounded N p
  match p.head?, p.getLast? with
  | some a, some b => do
    let d := step p xs
    let ys ← if a.1.lower = .ninf then outer N a d else .ok []
    let zs ← if b.1.upper = .pinf then outer N b d else .ok []
    let r := xs.map some ++ ys ++ zs
    if r.length > 3 * p.length then .error .runtimeError
    else if sort then .ok (sorted r) else .ok r
  | _, _ => .error .indexError

end Verif.Fun.XS
