import Verif.Intervals.Model
import Verif.XQ

/-!
# Model of `src/jpt/base/functions.pyx`

Constant, linear, quadratic and undefined functions, and piecewise functions built from them.

Positions on the x-axis that bound a piece are floats, modelled as in `Verif.Intervals` by their
place on the line of doubles (`Iv.FP`); `val n` is the number the `n`-th finite float stands for.
Parameters and values of functions are rational numbers with exact arithmetic: rounding, infinite
and NaN parameters are not modelled, with the exception of the infinite integrals.  The value NaN
is `none`.

An exception is a value `Except.error`.  Simplification: `cpdef` functions with a C return type
and no `except` clause are taken to raise as written.
-/

namespace Verif.Fun

open Iv Iv.FP

/-- The function classes of `functions.pyx`: `Undefined` (159-196), `ConstantFunction` (306-451),
`LinearFunction` (456-736), `QuadraticFunction` (741-856). -/
inductive Fn
  | undef
  | const (v : ℚ)
  | lin (m c : ℚ)
  | quad (a b c : ℚ)
deriving DecidableEq, Repr

namespace Fn

/-- `eval` (`functions.pyx` 49-55, 323-324, 468-469, 775-776). -/
def eval : Fn → ℚ → Option ℚ
  | undef, _ => none
  | const v, _ => some v
  | lin m c, x => some (m * x + c)
  | quad a b c, x => some (a * x * x + b * x + c)

/-- `simplify` (`functions.pyx` 139-144, 637-641, 807-812). -/
def simplify : Fn → Fn
  | lin m c => if m = 0 then const c else lin m c
  | quad a b c => if a = 0 then (if b = 0 then const c else lin b c) else quad a b c
  | f => f

/-- `mul` (`functions.pyx` 186-187, 364-379, 570-577, 760-765).  The last branch of
`QuadraticFunction.mul` builds a `TypeError` without raising it and returns `None`; every caller
then uses an attribute of `None`, so it is modelled as `AttributeError`. -/
def mul : Fn → Fn → Except Err Fn
  | undef, _ => .ok undef
  | const v, const w => .ok (const (if v = 0 ∨ w = 0 then 0 else v * w))
  | const v, lin m c => .ok (lin (m * v) (c * v))
  | const v, quad a b c => .ok (quad (a * v) (b * v) (c * v)).simplify
  | const _, undef => .ok undef
  | lin m c, const v => .ok (lin (m * v) (c * v))
  | lin m c, lin m' c' => .ok (quad (m * m') (m * c' + m' * c) (c * c')).simplify
  | lin _ _, _ => .error .typeError
  | quad a b c, const v => .ok (quad (a * v) (b * v) (c * v)).simplify
  | quad _ _ _, _ => .error .attributeError

/-- `add` (`functions.pyx` 189-190, 381-391, 579-588, 767-773).  `QuadraticFunction.add` returns
`None` for an undefined argument (see `mul`). -/
def add : Fn → Fn → Except Err Fn
  | undef, _ => .ok undef
  | const v, const w => .ok (const (v + w))
  | const v, lin m c => .ok (lin m (c + v))
  | const v, quad a b c => .ok (quad a b (c + v))
  | const _, undef => .ok undef
  | lin m c, lin m' c' => .ok (lin (m + m') (c + c'))
  | lin m c, const v => .ok (lin m (c + v))
  | lin _ _, _ => .error .typeError
  | quad a b c, const v => .ok (quad a b (c + v))
  | quad a b c, lin m c' => .ok (quad a (b + m) (c + c'))
  | quad a b c, quad a' b' c' => .ok (quad (a + a') (b + b') (c + c'))
  | quad _ _ _, undef => .error .attributeError

/-- `f + g` (`Function.__add__`, `functions.pyx` 95-108). -/
def plus (f g : Fn) : Except Err Fn := (f.add g).map simplify

/-- `f * g` (`Function.__mul__`, `functions.pyx` 110-122). -/
def times (f g : Fn) : Except Err Fn := (f.mul g).map simplify

/-- `f - x` for a number `x` (`LinearFunction.__sub__`, `functions.pyx` 590-591: `-x + self`, which ends
up in `__radd__`, 593-594); the other classes do not support it. -/
def subNum (f : Fn) (x : ℚ) : Except Err Fn := match f with
  | lin m c => (lin m c).plus (const (-x))
  | _ => .error .typeError

/-- `x - f` for a number `x` (`LinearFunction.__rsub__`, `functions.pyx` 596-597: `self - x`). -/
def rsubNum (f : Fn) (x : ℚ) : Except Err Fn := match f with
  | lin m c => (lin m c).subNum x
  | _ => .error .typeError

/-- `__eq__` (`functions.pyx` 174-181, 335-352, 608-624, 751-752).  `Undefined.__eq__` calls
`any(.., ..)` with two arguments when it is compared to a linear function, which raises
`TypeError`. -/
def eq : Fn → Fn → Except Err Bool
  | undef, undef => .ok true
  | undef, lin _ _ => .error .typeError
  | undef, _ => .ok false
  | const v, const w => .ok (decide (v = w))
  | const v, lin m c => .ok (decide (m = 0 ∧ v = c))
  | const _, _ => .ok false
  | lin m c, lin m' c' => .ok (decide (m = m' ∧ c = c'))
  | lin m c, const v => .ok (decide (m = 0 ∧ v = c))
  | lin _ _, _ => .ok false
  | quad a b c, quad a' b' c' => .ok (decide (a = a' ∧ b = b' ∧ c = c'))
  | quad _ _ _, _ => .ok false

/-- `differentiate` (`functions.pyx` 326-327, 634-635, 804-805); `Undefined` has no such
method. -/
def differentiate : Fn → Except Err Fn
  | undef => .error .attributeError
  | const _ => .ok (const 0)
  | lin m _ => .ok (const m)
  | quad a b _ => .ok (lin (2 * a) b)

/-- `xshift` (`functions.pyx` 195-196, 442-443, 719-725); `QuadraticFunction` has no such
method. -/
def xshift : Fn → ℚ → Except Err Fn
  | undef, _ => .ok undef
  | const v, _ => .ok (const v)
  | lin m c, d => .ok (lin m (m * d + c))
  | quad _ _ _, _ => .error .attributeError

/-- `xmirror` (`functions.pyx` 153-155, 445-451, 727-736). -/
def xmirror : Fn → Except Err Fn
  | const v => .ok (const v)
  | lin m c => .ok (lin (-m) c)
  | _ => .error .notImplemented

/-- `LinearFunction.invert` (`functions.pyx` 505-510); `1 / self.m` with `cdivision`, the division by
zero gives an infinity there and is reported as `zeroDivision` here. -/
def invert : Fn → Except Err Fn
  | lin m c => if m = 0 then .error .zeroDivision else .ok (lin (1 / m) (-c / m))
  | quad _ _ _ => .error .notImplemented
  | _ => .error .attributeError

/-- `LinearFunction.root` (`functions.pyx` 498-503); see `invert`. -/
def root : Fn → Except Err ℚ
  | lin m c => if m = 0 then .error .zeroDivision else .ok (-c / m)
  | _ => .error .attributeError

/-- The value of a float computation that may overflow to an infinity or be NaN (`none`). -/
abbrev Fl := Option XQ

/-- `a + b` on floats with infinities and NaN. -/
def flAdd : Fl → Fl → Fl
  | some (.fin a), some (.fin b) => some (.fin (a + b))
  | some .ninf, some .pinf => none
  | some .pinf, some .ninf => none
  | some .ninf, some _ => some .ninf
  | some _, some .ninf => some .ninf
  | some .pinf, some _ => some .pinf
  | some _, some .pinf => some .pinf
  | none, _ => none
  | _, none => none

/-- `x2 - x1` for `x1 < x2` (`ConstantFunction.integrate`, `functions.pyx` 440): finite for finite
bounds, `+inf` otherwise; `none` (NaN) for equal infinities. -/
def width : XQ → XQ → Fl
  | .fin a, .fin b => some (.fin (b - a))
  | .ninf, .ninf => none
  | .pinf, .pinf => none
  | .ninf, _ => some .pinf
  | _, .pinf => some .pinf
  | _, .ninf => some .ninf
  | .pinf, _ => some .ninf

/-- `c * w` for a finite `c ≠ 0`. -/
def scale (c : ℚ) : Fl → Fl
  | some (.fin w) => some (.fin (c * w))
  | some .pinf => some (if 0 < c then .pinf else .ninf)
  | some .ninf => some (if 0 < c then .ninf else .pinf)
  | none => none

/-- `integrate(x1, x2)` (`functions.pyx` 432-440, 697-717); `Undefined` and `QuadraticFunction`
have no such method. -/
def integrate : Fn → XQ → XQ → Except Err Fl
  | const v, x1, x2 =>
    if x1.le x2 = false then .error .valueError
    else .ok (if v = 0 then some (.fin 0) else scale v (width x1 x2))
  | lin m c, x1, x2 =>
    if x1.le x2 = false then .error .valueError
    else if x2 = x1 then .ok (some (.fin 0))
    else match x1, x2 with
      | .fin a, .fin b =>
        .ok (some (.fin ((1 / 2 * m * b ^ 2 + c * b) - (1 / 2 * m * a ^ 2 + c * a))))
      | .fin _, _ => .ok (some (if m ≥ 0 then .pinf else .ninf))
      | _, .fin _ => .ok (some (if m ≤ 0 then .pinf else .ninf))
      | _, _ => .ok (if m ≠ 0 then none else some (if c > 0 then .pinf else .ninf))
  | _, _, _ => .error .attributeError

/-- `LinearFunction.from_points` (`functions.pyx` 643-664) on points without NaN. -/
def fromPoints (p q : ℚ × ℚ) : Except Err Fn :=
  if p.1 = q.1 then .error .valueError
  else if q.2 = p.2 then .ok (const q.2)
  else
    let m := (q.2 - p.2) / (q.1 - p.1)
    .ok (lin m (p.2 - m * p.1))

/-- `QuadraticFunction.fit` (`functions.pyx` 817-825); a zero denominator (two points with the same
abscissa) gives infinite or NaN parameters in the code (`cdivision`), and is reported as
`zeroDivision` here. -/
def fit (x y z : ℚ × ℚ) : Except Err Fn :=
  let denom := (x.1 - y.1) * (x.1 - z.1) * (y.1 - z.1)
  if denom = 0 then .error .zeroDivision
  else .ok (quad
    ((z.1 * (y.2 - x.2) + y.1 * (x.2 - z.2) + x.1 * (z.2 - y.2)) / denom)
    ((z.1 * z.1 * (x.2 - y.2) + y.1 * y.1 * (z.2 - x.2) + x.1 * x.1 * (y.2 - z.2)) / denom)
    ((y.1 * z.1 * (y.1 - z.1) * x.2 + z.1 * x.1 * (z.1 - x.1) * y.2 +
      x.1 * y.1 * (x.1 - y.1) * z.2) / denom))

/-- `QuadraticFunction.from_points` (`functions.pyx` 834-843). -/
def quadFromPoints (p q r : ℚ × ℚ) : Except Err Fn :=
  if p = q ∨ q = r ∨ p = r then .error .valueError else fit p q r

/-- `stretch` of one piece (`functions.pyx` 1263-1268): undefined and quadratic pieces are left
alone. -/
def stretch (al : ℚ) : Fn → Fn
  | const v => const (v * al)
  | lin m c => lin (m * al) (c * al)
  | f => f

end Fn

/-- A `PiecewiseFunction` (`functions.pyx` 914-920): the lists `intervals` and `functions`, which the
code always extends together, as one list of pairs. -/
abbrev PF := List (CS × Fn)

namespace PF

/-- `x in interval or (x == -inf and interval.lower == -inf) or ...` (`functions.pyx` 1075-1076). -/
def hit (x : FP) (i : CS) : Bool :=
  i.containsValue x || ((x == ninf && i.lower == ninf) || (x == pinf && i.upper == pinf))

/-- `at` (`functions.pyx` 1055-1078): the function of the first piece that contains `x`, `None` if
there is none. -/
def atPos (p : PF) (x : FP) : Option Fn := (p.find? (fun s => hit x s.1)).map (·.2)

/-- `eval` at the `n`-th finite float (`functions.pyx` 1029-1030).  If there is no piece, `at` returns
`None` and `None.eval(x)` is called; with `nonecheck=False` this is not even a proper exception, and
it is modelled as `AttributeError`. -/
def eval (val : ℤ → ℚ) (p : PF) (n : ℤ) : Except Err (Option ℚ) :=
  match atPos p (fin n) with
  | some f => .ok (f.eval (val n))
  | none => .error .attributeError

/-- `interval_at` (`functions.pyx` 1083-1095). -/
def intervalAt (p : PF) (x : FP) : CS :=
  ((p.find? (fun s => s.1.containsValue x)).map (·.1)).getD CS.emptyset

/-- `__eq__` (`functions.pyx` 933-943): `zip` stops at the end of the shorter list. -/
def eq : PF → PF → Except Err Bool
  | [], _ => .ok true
  | _ :: _, [] => .ok true
  | (i, f) :: p, (j, g) :: q =>
    if ¬ i.eq j then .ok false
    else match f.eq g with
      | .error e => .error e
      | .ok false => .ok false
      | .ok true => eq p q

/-- Insertion of one segment into a sorted list, comparing with `ContinuousSet.comparator`
(`functions.pyx` 1541-1544, 1635-1640). -/
def insertSeg (s : CS × Fn) : PF → Except Err PF
  | [] => .ok [s]
  | t :: r => do
    let c ← CS.comparator s.1 t.1
    if c ≤ 0 then .ok (s :: t :: r)
    else do
      let r' ← insertSeg s r
      .ok (t :: r')

/-- `sorted(self.iter(), key=cmp_to_key(self.cmp_segments))` (`functions.pyx` 1541-1544).  The
comparator raises `ValueError` for two intervals that are not disjoint.  Simplification: insertion
sort; Python's sort may compare other pairs, so on overlapping intervals it may raise in other
cases.  On disjoint intervals the order is total and all sorts agree. -/
def sortSegs : PF → Except Err PF
  | [] => .ok []
  | s :: r => do
    let r' ← sortSegs r
    insertSeg s r'

/-- The loop of `simplify` (`functions.pyx` 1545-1560) with the last piece of the result at hand. -/
def simplifyLoop (last : CS × Fn) : PF → Except Err PF
  | [] => .ok [last]
  | (i, f) :: r =>
    if i.isempty then simplifyLoop last r
    else if i.contiguous last.1 then
      match f.eq last.2 with
      | .error e => .error e
      | .ok true => simplifyLoop ({ last.1 with upper := i.upper, right := i.right }, last.2) r
      | .ok false => (simplifyLoop (i, f) r).map (last :: ·)
    else (simplifyLoop (i, f) r).map (last :: ·)

/-- The loop of `simplify` while the result is still empty (`functions.pyx` 1549-1553). -/
def simplifyStart : PF → Except Err PF
  | [] => .ok []
  | (i, f) :: r => if i.isempty then simplifyStart r else simplifyLoop (i, f) r

/-- `simplify` (`functions.pyx` 1540-1560). -/
def simplify (p : PF) : Except Err PF := do
  let s ← sortSegs p
  simplifyStart s

/-- `add` of a constant or linear function (`functions.pyx` 1107-1110): `g + f` for every piece. -/
def addFn (p : PF) (f : Fn) : Except Err PF := match f with
  | .const _ | .lin _ _ => p.mapM (fun s => (s.2.plus f).map (fun g => (s.1, g)))
  | _ => .error .typeError

/-- `mul` with a constant or linear function (`functions.pyx` 1139-1142). -/
def mulFn (p : PF) (f : Fn) : Except Err PF := match f with
  | .const _ | .lin _ _ => p.mapM (fun s => (s.2.times f).map (fun g => (s.1, g)))
  | _ => .error .typeError

/-- `p + f` for a constant or linear `f` (`functions.pyx` 95-108). -/
def plusFn (p : PF) (f : Fn) : Except Err PF := do simplify (← addFn p f)

/-- `p * f` for a constant or linear `f` (`functions.pyx` 110-122). -/
def timesFn (p : PF) (f : Fn) : Except Err PF := do simplify (← mulFn p f)

/-- `p / r` (`functions.pyx` 952-955); no `simplify`. -/
def divNum (p : PF) (r : ℚ) : Except Err PF :=
  if r = 0 then .error .zeroDivision else mulFn p (.const (1 / r))

/-- `stretch` (`functions.pyx` 1257-1269). -/
def stretch (p : PF) (al : ℚ) : PF := p.map (fun s => (s.1, s.2.stretch al))

/-- `differentiate` (`functions.pyx` 1280-1287). -/
def differentiate (p : PF) : Except Err PF :=
  p.mapM (fun s => s.2.differentiate.map (fun g => (s.1, g)))

/-- `xshift` (`functions.pyx` 1656-1671).  `sub b` is the float `b - delta`. -/
def xshift (sub : ℤ → ℤ) (p : PF) (delta : ℚ) : Except Err PF :=
  let mv : FP → FP := fun b => match b with | fin n => fin (sub n) | b => b
  p.mapM (fun s => (s.2.xshift delta).map
    (fun g => ({ s.1 with lower := mv s.1.lower, upper := mv s.1.upper }, g)))

/-- `crop` (`functions.pyx` 1475-1485). -/
def crop (p : PF) (interval : CS) : Except Err PF :=
  (p.filter (fun s => s.1.intersects interval)).mapM
    (fun s => (s.1.intersectionEnds interval (some .inc) (some .exc)).map (fun i => (i, s.2)))

/-- The number behind a float. -/
def pos (val : ℤ → ℚ) : FP → XQ
  | ninf => .ninf
  | fin n => .fin (val n)
  | pinf => .pinf

/-- `integrate` (`functions.pyx` 1289-1300); `area` is the running sum. -/
def integrateLoop (val : ℤ → ℚ) (interval : CS) (area : Fn.Fl) : PF → Except Err Fn.Fl
  | [] => .ok area
  | (i, f) :: r => do
    let s ← interval.intersection i
    if s.isempty then integrateLoop val interval area r
    else do
      let a ← f.integrate (pos val s.lower) (pos val s.upper)
      integrateLoop val interval (Fn.flAdd area a) r

/-- `integrate` (`functions.pyx` 1289-1300). -/
def integrate (val : ℤ → ℚ) (p : PF) (interval : CS := CS.allnumbers) : Except Err Fn.Fl :=
  integrateLoop val interval (some (.fin 0)) p

/-- `split` (`functions.pyx` 1229-1255); `pre` are the pieces already passed. -/
def splitLoop (x : FP) (pre : PF) : PF → Except Err (PF × PF)
  | [] => .error .valueError
  | (i, f) :: r =>
    if i.containsValue x then
      .ok (pre ++ [({ i with upper := x, right := .exc }, f)],
        ({ i with lower := x, left := .inc }, f) :: r)
    else splitLoop x (pre ++ [(i, f)]) r

/-- `split` (`functions.pyx` 1229-1255). -/
def split (p : PF) (x : FP) : Except Err (PF × PF) := splitLoop x [] p

/-- `pairwise` and the loop of `from_points` (`functions.pyx` 1016-1024). -/
def fromPointsLoop (val : ℤ → ℚ) : List (ℤ × ℚ) → Except Err PF
  | (x1, y1) :: (x2, y2) :: r => do
    let i ← CS.mk? (fin x1) (fin x2) .inc .exc
    if i.isempty then fromPointsLoop val ((x2, y2) :: r)
    else do
      let f ← Fn.fromPoints (val x1, y1) (val x2, y2)
      let rest ← fromPointsLoop val ((x2, y2) :: r)
      .ok ((i, f) :: rest)
  | _ => .ok []

/-- The last two statements of `from_points` (`functions.pyx` 1025-1026): the last interval is closed
on the right, then written half-open with the next float as bound. -/
def closeLast : PF → Except Err PF
  | [] => .error .indexError
  | [(i, f)] => do
    let i' ← CS.ends { i with right := if i.upper.isInf then .exc else .inc } none (some .exc)
    .ok [(i', f)]
  | s :: r => do
    let r' ← closeLast r
    .ok (s :: r')

/-- `from_points` (`functions.pyx` 1009-1027), for finite abscissae. -/
def fromPoints (val : ℤ → ℚ) (points : List (ℤ × ℚ)) : Except Err PF := do
  closeLast (← fromPointsLoop val points)

/-- `domain` (`functions.pyx` 1534-1538); `RealSet(...)` copies the intervals. -/
def domain (p : PF) : Except Err NS := RS.simplify (p.map (·.1))

/-- `NumberSet.union` for the four combinations (`intervals.pyx` 500-506, 1018-1032): the argument of
`ContinuousSet.union` is typed, so a `RealSet` raises `TypeError`. -/
def nsUnion : NS → NS → Except Err NS
  | .cs a, .cs b => a.union b
  | .cs _, .rs _ => .error .typeError
  | .rs l, .cs b => RS.union l [b]
  | .rs l, .rs o => RS.union l o

/-- `NumberSet.difference` with a `RealSet` (`intervals.pyx` 508-525, 1034-1043). -/
def nsDifference : NS → List CS → Except Err NS
  | .cs a, o =>
    if RS.isempty o then (CS.mk? a.lower a.upper a.left a.right).map .cs
    else RS.difference [a] o
  | .rs l, o => RS.difference l o

/-- The pairwise intersections in `RealSet.intersections` without the empty ones and without
duplicates (`intervals.pyx` 441-448).  `i in closed` compares hashes first, which depend on all four
attributes, so two intervals are duplicates iff they are written alike. -/
def isectPairs (l o : List CS) : Except Err (List CS) := do
  let r ← (l.flatMap (fun i => o.map (fun j => (i, j)))).mapM (fun p => p.1.intersection p.2)
  .ok (r.filter (fun i => !i.isempty)).eraseDups

/-- Insertion into a list of intervals sorted by the comparator (`intervals.pyx` 449-455). -/
def insertCS (s : CS) : List CS → Except Err (List CS)
  | [] => .ok [s]
  | t :: r => do
    let c ← CS.comparator s t
    if c ≤ 0 then .ok (s :: t :: r)
    else do
      let r' ← insertCS s r
      .ok (t :: r')

/-- `sorted(intervals, key=cmp_to_key(ContinuousSet.comparator))` (`intervals.pyx` 449-455); see
`sortSegs`. -/
def sortCS : List CS → Except Err (List CS)
  | [] => .ok []
  | s :: r => do
    let r' ← sortCS r
    insertCS s r'

/-- `RealSet.intersections` (`intervals.pyx` 434-456). -/
def intersections (l o : List CS) : Except Err (List CS) := do sortCS (← isectPairs l o)

/-- `from_dict` for undefined pieces (`functions.pyx` 1003-1007, 1116-1118): sorted by `lower`. -/
def undefOn (l : List CS) : PF :=
  (l.insertionSort (fun a b => a.lower ≤ b.lower)).map (fun i => (i, .undef))

/-- What one segment leaves behind in `overwrite_at` (`functions.pyx` 1205-1211): the part of `i`
outside `interval` as a simplified set. -/
def leftover (i interval : CS) : Except Err NS := do
  let x ← i.intersectionEnds interval (some .inc) (some .exc)
  match ← i.difference x with
  | .cs c => .ok (.cs c)
  | .rs l => RS.simplify l

/-- The loop of `overwrite_at` (`functions.pyx` 1203-1216): the new segments and the insert
position.  `fuel` bounds the loop. -/
def overwriteLoop (interval : CS) : Nat → PF → Except Err (PF × Nat)
  | _, [] => .ok ([], 0)
  | 0, _ :: _ => .error .outOfFuel
  | n + 1, (i, f) :: r => do
    match ← leftover i interval with
    | .cs c =>
      if c.isempty then overwriteLoop interval n r
      else do
        let (segs, pos) ← overwriteLoop interval n r
        .ok ((c, f) :: segs, pos + if interval.uppermost > c.lowermost then 1 else 0)
    | .rs l =>
      if RS.isempty l then overwriteLoop interval n r
      else match l with
        | a :: b :: _ => do
          let (segs, pos) ← overwriteLoop interval n ((b, f) :: r)
          .ok ((a, f) :: segs, pos + if interval.uppermost > a.lowermost then 1 else 0)
        | _ => .error .attributeError

/-- `overwrite_at` (`functions.pyx` 1184-1221). -/
def overwriteAt (p : PF) (interval : CS) (f : Fn) : Except Err PF :=
  if p.isEmpty then .ok [(interval, f)]
  else do
    let (segs, pos) ← overwriteLoop interval (3 * p.length) p
    let b ← interval.boundaries none (some .exc)
    .ok (segs.insertIdx (min pos segs.length) (b, f))

/-- `middle` in `add` (`functions.pyx` 1120-1125); `mid a b` is the float `(a + b) * .5`. -/
def middle (mid : ℤ → ℤ → ℤ) (i : CS) : FP :=
  match i.lower, i.upper with
  | fin a, fin b => fin (mid a b)
  | fin _, u => u
  | l, _ => l

/-- `pivot` in `mul` (`functions.pyx` 1161-1163). -/
def pivot (i : CS) : FP := if i.isninf then i.uppermost else i.lowermost

/-- One round of the loop over the common intervals in `add` and `mul` (`functions.pyx` 1126-1128,
1160-1166). -/
def pointwiseStep (op : Fn → Fn → Except Err Fn) (pv : CS → FP) (p q : PF) (r : PF) (i : CS) :
    Except Err PF := do
  let f ← op ((atPos p (pv i)).getD .undef) ((atPos q (pv i)).getD .undef)
  overwriteAt r i f

/-- The common part of `add` and `mul` of two piecewise functions (`functions.pyx` 1112-1129,
1145-1167): `op` is `+` or `*` of two segments, `pv` the position at which the segments of the two
functions on a common interval are looked up, `und` the condition in `mul` (1158) under which the
undefined pieces are created. -/
def pointwise (op : Fn → Fn → Except Err Fn) (pv : CS → FP) (und : List CS → List CS)
    (p q : PF) : Except Err PF := do
  let dom ← intersections (p.map (·.1)) (q.map (·.1))
  let u ← nsDifference (← nsUnion (← domain p) (← domain q)) dom
  let start := undefOn (und (RS.pieces u))
  let r ← dom.foldlM (pointwiseStep op pv p q) start
  simplify r

/-- `add` of two piecewise functions (`functions.pyx` 1111-1129). -/
def add (mid : ℤ → ℤ → ℤ) (p q : PF) : Except Err PF :=
  pointwise Fn.plus (middle mid) id p q

/-- `mul` of two piecewise functions (`functions.pyx` 1144-1167). -/
def mul (p q : PF) : Except Err PF :=
  pointwise Fn.times pivot (fun l => if RS.isempty l then [] else l) p q

/-- `p + q` (`functions.pyx` 95-108, 1106-1129). -/
def plus (mid : ℤ → ℤ → ℤ) (p q : PF) : Except Err PF := do simplify (← add mid p q)

/-- `p * q` (`functions.pyx` 110-122, 1138-1167). -/
def times (p q : PF) : Except Err PF := do simplify (← mul p q)

/-- `p - q` (`functions.pyx` 945-950). -/
def sub (mid : ℤ → ℤ → ℤ) (p q : PF) : Except Err PF := do add mid p (← mulFn q (.const (-1)))

end PF

end Verif.Fun
