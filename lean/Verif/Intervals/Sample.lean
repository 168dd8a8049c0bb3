import Verif.Intervals.Model
import Mathlib.Algebra.Order.Field.Rat
import Mathlib.Algebra.Order.Group.Abs

/-!
# Model of sampling and counting in `src/jpt/base/intervals.pyx`

Random numbers are parameters: what `numpy.random.uniform(low, high)` returns is a function of the two bounds, the
theorems quantify over all functions whose result lies between them.  `val n` is the value of the `n`-th float,
`fmin` and `fmax` are the positions of `numpy.finfo(float64).min` and `.max`, and `lim` is the least number that is
rounded to infinity.
-/

namespace Verif.Iv

open FP

/-- The floats as `numpy` knows them. -/
structure Floats where
  val : ℤ → ℚ
  fmin : ℤ
  fmax : ℤ
  lim : ℚ

/-- `max(np.finfo(np.float64).min, x)` and `min(np.finfo(np.float64).max, x)` (`intervals.pyx` 748-749, 755-756), both
bounds: the positions of the resulting floats.  Simplification: `-inf` as upper and `inf` as lower bound are clipped
too (in the code they stay; intervals with such bounds are outside the theorems). -/
def clip (F : Floats) : FP → ℤ
  | ninf => F.fmin
  | pinf => F.fmax
  | fin n => if n < F.fmin then F.fmin else if F.fmax < n then F.fmax else n

/-- `_sample(k)` (`intervals.pyx` 732-759): `IndexError` for the empty set.  `numpy.random.uniform` raises
`OverflowError` (named `runtimeError` here) if `high - low` is not finite.  One element of `draws` per sample. -/
def CS.sample (F : Floats) (s : CS) (draws : List (ℤ → ℤ → ℤ)) : Except Err (List FP) :=
  if s.isempty then .error .indexError
  else
    let upper := if s.right = .inc then s.upper else s.upper.dn
    let lower := if s.left = .inc then s.lower else s.lower.up
    if F.lim ≤ F.val (clip F upper) - F.val (clip F lower) then .error .runtimeError
    else .ok (draws.map (fun d => fin (d (clip F lower) (clip F upper))))

/-- `abs(i_.upper - i_.lower)` (`intervals.pyx` 277); `none` is `inf`. -/
def CS.width (F : Floats) (s : CS) : Option ℚ :=
  match s.lower, s.upper with
  | fin a, fin b => some |F.val b - F.val a|
  | _, _ => none

/-- `a + b` where `none` is `inf`. -/
def addInf : Option ℚ → Option ℚ → Option ℚ
  | some a, some b => some (a + b)
  | _, _ => none

/-- `np.cumsum` (`intervals.pyx` 281), starting from `acc`. -/
def cumsum (acc : Option ℚ) : List (Option ℚ) → List (Option ℚ)
  | [] => []
  | w :: ws => addInf acc w :: cumsum (addInf acc w) ws

/-- `x <= bound`. -/
def leInf (x : ℚ) : Option ℚ → Bool
  | none => true
  | some b => decide (x ≤ b)

/-- The weights (`intervals.pyx` 277-280): widths of the intervals that are not empty, or ones if all are zero. -/
def RS.weights (F : Floats) (l : List CS) : List (Option ℚ) :=
  let ws := (l.filter (fun s => decide (s.size ≠ some 0))).map (CS.width F)
  if ws.foldl addInf (some 0) = some 0 then ws.map (fun _ => some 1) else ws

/-- One round of the loop (`intervals.pyx` 286-291): the number `u` is `np.random.uniform(0, ..)`, `d` the random
number of the interval.  The loop counts the weights, so `j` is an index into the intervals *without* the empty ones,
but it is used as an index into all of them.  If no bound is reached, the entry stays uninitialised: `none`. -/
def RS.sampleOne (F : Floats) (l : List CS) (bounds : List (Option ℚ)) (u : ℚ) (d : ℤ → ℤ → ℤ) :
    Except Err (Option FP) :=
  match bounds.findIdx? (leInf u) with
  | none => .ok none
  | some j =>
    match l[j]? with
    | none => .error .indexError
    | some s =>
      match s.sample F [d] with
      | .ok (x :: _) => .ok (some x)
      | .ok [] => .error .indexError
      | .error e => .error e

/-- `RealSet.sample` (`intervals.pyx` 264-292), one element of `draws` per sample. -/
def RS.sample (F : Floats) (l : List CS) (draws : List (ℚ × (ℤ → ℤ → ℤ))) : Except Err (List (Option FP)) :=
  if RS.isempty l then .error .indexError
  else draws.mapM (fun d => RS.sampleOne F l (cumsum (some 0) (RS.weights F l)) d.1 d.2)

/-- `RealSet.size` (`intervals.pyx` 232-255); `none` is `inf`. -/
def RS.size (l : List CS) : Except Err (Option ℕ) := do
  match ← RS.simplify l with
  | .cs c => .ok c.size
  | .rs r => .ok (r.foldl (fun n s => match n, s.size with
      | some a, some b => some (a + b)
      | _, _ => none) (some 0))

/-- `isninf` (`intervals.pyx` 320-328). -/
def RS.isninf (l : List CS) : Bool := l.any CS.isninf

/-- `ispinf` (`intervals.pyx` 330-338). -/
def RS.ispinf (l : List CS) : Bool := l.any CS.ispinf

/-- `isinf` (`intervals.pyx` 340-348). -/
def RS.isinf (l : List CS) : Bool := l.any (fun s => s.ispinf || s.isninf)


end Verif.Iv
