import Verif.Functions.Model
import Verif.Numeric.CdfReg
import Mathlib.Data.List.Sort

/-!
# Model of `distributions/quantile/quantiles.pyx`: fitting

A `QuantileDistribution` is its cdf, a piecewise function.  As in `Verif.Functions` positions on the
x-axis are floats (by position, `val n` is the number of the `n`-th finite float) and function values
are exact rationals.  Data are finite floats: NaN and infinities are not modelled.
-/

namespace Verif.Num

open Iv Iv.FP Fun

/-! ## `fit` -/

/-- The data points in the first row of `data_buffer` before sorting (`quantiles.pyx` 174-194), with
the assertions on `leftmost` and `rightmost` (188-191); `none` is NaN. -/
def loadBuffer (data : List ℤ) (leftmost rightmost : Option ℤ) : Except Err (List ℤ) :=
  if (∃ x ∈ data, ∃ l ∈ leftmost, ¬ x > l) ∨ (∃ x ∈ data, ∃ r ∈ rightmost, ¬ x < r) then
    .error .assertionError
  else .ok (leftmost.toList ++ data ++ rightmost.toList)

/-- `data_buffer` and `count` in the loop that removes duplicates and counts (`quantiles.pyx`
197-206). -/
structure Buf where
  x : ℕ → ℤ
  y : ℕ → ℚ
  count : ℕ

/-- One round of the loop (`quantiles.pyx` 200-206), which overwrites the buffer it reads. -/
def rankStep (b : Buf) (i : ℕ) : Buf :=
  if i > 0 ∧ b.x i = b.x (i - 1) then
    { b with y := Function.update b.y (b.count - 1) (b.y (b.count - 1) + 1) }
  else
    { x := Function.update b.x b.count (b.x i)
      y := Function.update b.y b.count ((i : ℚ) + 1)
      count := b.count + 1 }

/-- The two loops (`quantiles.pyx` 197-210) on the sorted data: distinct values with
`(number of samples ≤ value - 1) / (n_samples - 1)`.  For a single sample the denominator is 0; the
value (NaN in the code, 0 here) is not used. -/
def ranks (sorted : List ℤ) : Buf :=
  let b := (List.range sorted.length).foldl rankStep
    { x := fun i => sorted.getD i 0, y := fun _ => 0, count := 0 }
  { b with y := fun i => (b.y i - 1) / ((sorted.length : ℚ) - 1) }

/-- `self._cdf.intervals[-1].upper = u` (`quantiles.pyx` 224). -/
def setUpper (u : FP) : PF → PF
  | [] => []
  | [(i, f)] => [({ i with upper := u }, f)]
  | s :: r => s :: setUpper u r

/-- The loop over pairs of neighbouring support points (`quantiles.pyx` 222-225). -/
def fitLoop (val : ℤ → ℚ) (p : PF) : List (ℤ × ℚ) → Except Err PF
  | a :: b :: r => do
    let f ← Fn.fromPoints (val a.1, a.2) (val b.1, b.2)
    let i ← CS.mk? (fin a.1) (fin b.1) .inc .exc
    fitLoop val (setUpper (fin a.1) p ++ [(i, f)]) (b :: r)
  | _ => .ok p

/-- The last interval is extended by one float and the constant 1 is appended (`quantiles.pyx`
228-233). -/
def closeCdf (p : PF) : Except Err PF :=
  match p.getLast? with
  | none => .error .indexError
  | some (i, f) => do
    let j ← CS.mk? i.lower i.upper.up .inc .exc
    let k ← CS.mk? j.upper pinf .inc .exc
    .ok (p.dropLast ++ [(j, f), (k, .const 1)])

/-- The cdf through the support points (`quantiles.pyx` 219-233). -/
def cdfThrough (val : ℤ → ℚ) (pts : List (ℤ × ℚ)) : Except Err PF := do
  closeCdf (← fitLoop val [(CS.allnumbers, .const 0)] pts)

/-- The cdf of a single value (`quantiles.pyx` 237-241). -/
def jumpCdf (x : ℤ) : PF :=
  [(⟨ninf, fin x, .exc, .exc⟩, .const 0), (⟨fin x, pinf, .inc, .exc⟩, .const 1)]

/-- `_assert_consistency` (`quantiles.pyx` 88-93). -/
def assertConsistency (p : PF) : Except Err PF :=
  if p.length > 1 then .ok p else .error .assertionError

/-- `fit` (`quantiles.pyx` 151-245) on the values `data` of the selected rows and column.  For an empty
sample the code reads beyond the end of the buffer (238); that is `indexError` here. -/
def fit (val : ℤ → ℚ) (eps : ℚ) (data : List ℤ) (leftmost rightmost : Option ℤ := none) :
    Except Err PF := do
  let buffer ← loadBuffer data leftmost rightmost
  let b := ranks (buffer.insertionSort (· ≤ ·))
  if b.count > 1 then
    match Reg.fit ⟨b.count, fun i => val (b.x i), b.y⟩ eps none with
    | none => .error .runtimeError
    | some pts => do
      let cdf ← cdfThrough val (pts.map (fun i => (b.x i, b.y i)))
      assertConsistency cdf
  else if b.count = 1 then assertConsistency (jumpCdf (b.x 0))
  else .error .indexError

/-! ## `ppf` -/

/-- A piece `[lower, upper)` of a quantile function (`(-inf, upper)` for an infinite lower bound).  Its
bounds are function values of the cdf, so they are exact rationals here. -/
structure PPiece where
  lower : XQ
  upper : XQ
  f : Fn
deriving DecidableEq

/-- `ppf.eval` (`functions.pyx` 1029-1030, 1055-1078): the first piece that contains `y`; `none` is NaN.
The pieces of a quantile function cover the line, so the case without a piece does not occur. -/
def ppfEval (p : List PPiece) (y : ℚ) : Option ℚ :=
  match p.find? (fun s => s.lower.le (.fin y) && !s.upper.le (.fin y)) with
  | some s => s.f.eval y
  | none => none

/-- `is_invertible` (`functions.pyx` 329-330, 666-671). -/
def isInvertible : Fn → Bool
  | .lin m _ => decide (|m| ≥ 1 / 10000)
  | _ => false

/-- `min(one_plus_eps, f(interval.upper))`, and `one_plus_eps` for an infinite bound (`quantiles.pyx`
409-415); the functions are constant or linear, the one with an infinite upper bound is constant. -/
def ppfUpper (val : ℤ → ℚ) (ope : ℚ) (f : Fn) : FP → Except Err ℚ
  | fin n => match f.eval (val n) with
    | some y => .ok (min ope y)
    | none => .error .valueError
  | _ => .ok ope

/-- `y_cdf = min(one_plus_eps, f(interval.upper))` (`quantiles.pyx` 415). -/
def ppfY (val : ℤ → ℚ) (ope : ℚ) (f : Fn) : FP → Except Err ℚ
  | fin n => match f.eval (val n) with
    | some y => .ok (min ope y)
    | none => .error .valueError
  | _ => match f with
    | .const v => .ok (min ope v)
    | _ => .ok ope

/-- The function of the quantile function that is appended for one piece of the cdf, if there is one
(`quantiles.pyx` 397-406).  `f(-inf)` of a constant is its value; `ConstantFunction(-inf)` is not
represented. -/
def ppfFn (val : ℤ → ℚ) (ycdf : ℚ) (i : CS) (f : Fn) : Except Err (Option Fn) :=
  if isInvertible f then f.invert.map some
  else match f with
    | .const c =>
      if c = 0 then .ok (some .undef)
      else if c > ycdf then
        match i.lower with
        | fin n => .ok (some (.const (val n)))
        | _ => .error .valueError
      else .ok none
    | .lin m c =>
      if c = 0 then .ok (some .undef)
      else match i.lower with
        | fin n => .ok (if m * val n + c > ycdf then some (.const (val n)) else none)
        | _ => .error .valueError
    | _ => .error .attributeError

/-- The loop over the pieces of the cdf (`quantiles.pyx` 394-415): the finished pieces, the lower bound
of the last, open one and `y_cdf`. -/
def ppfLoop (val : ℤ → ℚ) (ope : ℚ) : PF → List PPiece → XQ → ℚ → Except Err (List PPiece × XQ)
  | [], done, cur, _ => .ok (done, cur)
  | (i, f) :: r, done, cur, ycdf => do
    match ← ppfFn val ycdf i f with
    | none => ppfLoop val ope r done cur ycdf
    | some g => do
      let u ← ppfUpper val ope f i.upper
      let y ← ppfY val ope f i.upper
      ppfLoop val ope r (done ++ [⟨cur, .fin u, g⟩]) (.fin u) y

/-- `ppf.intervals[-2].upper = ppf.intervals[-1].lower = one_plus_eps` (`quantiles.pyx` 417-418). -/
def ppfClose (ope : ℚ) : List PPiece → Except Err (List PPiece)
  | [] => .error .indexError
  | [s] => .ok [{ s with upper := .fin ope }, ⟨.fin ope, .pinf, .undef⟩]
  | s :: r => do .ok (s :: (← ppfClose ope r))

/-- `ppf` (`quantiles.pyx` 369-441); `ope` is `one_plus_eps`, the float after 1. -/
def ppf (val : ℤ → ℚ) (ope : ℚ) (cdf : PF) : Except Err (List PPiece) := do
  let _ ← assertConsistency cdf
  if cdf.length = 2 then
    match cdf.getLast?.map (·.1.lower) with
    | some (fin n) =>
      .ok [⟨.ninf, .fin 1, .undef⟩, ⟨.fin 1, .fin ope, .const (val n)⟩, ⟨.fin ope, .pinf, .undef⟩]
    | _ => .error .valueError
  else do
    let (done, _) ← ppfLoop val ope cdf [] .ninf 0
    let p ← ppfClose ope done
    if ppfEval p ope ≠ none then .error .valueError
    else if ppfEval p 1 = none then .error .valueError
    else .ok p

/-- `f.eval(x)` at a bound of an interval (`functions.pyx` 323-324, 468-469).  A constant has its value at
infinity too; simplification: a linear function at infinity, or NaN, is reported as an error (neither
occurs for a cdf). -/
def evalFP (val : ℤ → ℚ) (f : Fn) : FP → Except Err ℚ
  | fin n => match f.eval (val n) with
    | some y => .ok y
    | none => .error .valueError
  | _ => match f with
    | .const v => .ok v
    | _ => .error .valueError

/-- `functions[-1]` (`quantiles.pyx` 281, 286, 302). -/
def lastFn (p : PF) : Except Err Fn := match p.getLast? with
  | some s => .ok s.2
  | none => .error .indexError

/-- `intervals[-1].upper` (`quantiles.pyx` 297, 311, 315). -/
def lastUpper (p : PF) : Except Err FP := match p.getLast? with
  | some s => .ok s.1.upper
  | none => .error .indexError

/-- The function that is appended for the piece `(i, f)` (`quantiles.pyx` 291-300), which starts at the
value `y`. -/
def cropPiece (val : ℤ → ℚ) (alpha y : ℚ) (i : CS) (f : Fn) : Except Err Fn :=
  match f with
  | .const _ => .ok (.const y)
  | .lin m _ =>
    if i.size = some 1 then .ok (.const y)
    else if alpha = 0 then .error .zeroDivision
    else match i.lower, i.upper.dn with
      | fin l, fin u => Fn.fromPoints (val l, y) (val u, m / alpha * (val u - val l) + y)
      | _, _ => .error .valueError
  | _ => if i.size = some 1 then .ok (.const y) else .error .attributeError

/-- The interval that is appended for the piece `(i, f)` (`quantiles.pyx` 290, 297): for a linear piece it
starts where the last interval ends. -/
def cropInterval (prev : FP) (i : CS) (f : Fn) : CS := match f with
  | .const _ => ⟨i.lower, i.upper, .inc, .exc⟩
  | _ => if i.size = some 1 then ⟨i.lower, i.upper, .inc, .exc⟩ else ⟨prev, i.upper, .inc, .exc⟩

/-- The loop of `crop` (`quantiles.pyx` 283-300); `acc` is `cdf`, `prev` is `f_`. -/
def cropLoop (val : ℤ → ℚ) (alpha : ℚ) : PF → PF → Fn → Except Err PF
  | [], acc, _ => .ok acc
  | (i, f) :: r, acc, prev => do
    if ← f.eq (.const 0) then cropLoop val alpha r (setUpper i.upper acc) prev
    else do
      let y ← evalFP val (← lastFn acc) i.lower
      let a ← evalFP val f i.lower
      let b ← evalFP val prev i.lower
      let g ← cropPiece val alpha (y + (a - b) * alpha) i f
      let u ← lastUpper acc
      cropLoop val alpha r (acc ++ [(cropInterval u i f, g)]) f

/-- The last piece gets the bounds of `[u, inf)`, where `u` is the end of the piece before (`quantiles.pyx`
302-306). -/
def openLast : PF → PF
  | [] => []
  | [(i, f)] => [({ i with upper := pinf, right := .exc }, f)]
  | [(i, f), (j, g)] => [(i, f), ({ j with lower := i.upper, upper := pinf, right := .exc }, g)]
  | s :: r => s :: openLast r

/-- The end of `crop` (`quantiles.pyx` 302-315); `b` is `interval.uppermost()`. -/
def cropEnd (b : FP) (p : PF) : Except Err PF := do
  if ← (← lastFn p).eq (.const 1) then .ok (openLast p)
  else
    match p.getLast? with
    | none => .error .indexError
    | some s =>
      let u := if s.1.containsValue b then s.1.upper.dn else s.1.upper
      .ok (setUpper u p ++ [(⟨u, pinf, .inc, .exc⟩, .const 1)])

/-- `crop` (`quantiles.pyx` 247-329).  `-cdf_.eval(x)` is added to every piece, and the result is
simplified (`functions.pyx` 95-100, 124-125). -/
def crop (val : ℤ → ℚ) (cdf : PF) (interval : CS) : Except Err PF := do
  match cdf.head?, cdf.getLast? with
  | some first, some last =>
    if interval.uppermost < first.1.upper ∨ interval.lowermost > last.1.lower then
      .error .unsatisfiable
    else do
      let c ← PF.crop cdf interval
      match c.head? with
      | none => .error .indexError
      | some s => do
        match PF.atPos c s.1.lowermost with
        | none => .error .attributeError
        | some f => do
          let y ← evalFP val f s.1.lowermost
          let c ← PF.plusFn c (.const (-y))
          match c.head? with
          | none => .error .indexError
          | some s => do
            let alpha ← evalFP val (← lastFn c) interval.uppermost
            let r ← cropLoop val alpha c [(⟨ninf, s.1.lower, .exc, .exc⟩, .const 0)] s.2
            let r ← cropEnd interval.uppermost r
            assertConsistency (r.filter (fun s => !s.1.isempty))
  | _, _ => .error .indexError

end Verif.Num
