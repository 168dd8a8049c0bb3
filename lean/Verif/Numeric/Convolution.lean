import Verif.Numeric.Compare

/-!
# Convolution of piecewise constant functions

`PiecewiseFunction.convolution` and what it uses.  The floats are treated as a grid here: the sum and the difference of
two bounds is exact, and `val d` is the number that belongs to the distance `d`.
-/

namespace Verif.Fun.PF

open Iv Iv.FP

/-- `xmirror` of a piecewise function (`functions.pyx` 1694-1703, `intervals.pyx` 534-545, 1182-1191).  `RealSet(...)`
and `xmirror` copy the intervals. -/
def mirror (p : PF) : Except Err PF := do
  let is ← (p.map (·.1.xmirror)).reverse.mapM (fun i =>
    i.ends (some (if i.lower.isInf then .exc else .inc)) (some .exc))
  let fs ← p.mapM (·.2.xmirror)
  .ok (is.zip fs.reverse)

/-- `is_impulse` as it is used in a condition (`functions.pyx` 1610-1633): three pieces, of which the outer ones are
unbounded and 0, and the middle one is at most two floats wide and not 0 (nan counts as true, `Undefined.eval` returns
it).  The second case, a function that consists of an `Impulse`, is left out: `Fn` has no impulses. -/
def isImpulse (val : ℤ → ℚ) : PF → Except Err Bool
  | [s, t, w] => do
    if !s.1.isninf then .ok false
    else if !(← s.2.eq (.const 0)) then .ok false
    else if !w.1.ispinf then .ok false
    else if !(← w.2.eq (.const 0)) then .ok false
    else if t.1.isempty then .ok false
    else if t.1.upper.dn ≤ t.1.lowermost.up then
      match t.1.lower with
      | fin n => .ok (t.2.eval (val n) != some 0)
      | _ => .ok true
    else .ok false
  | _ => .ok false

/-- `(f * g_).integrate()` (`functions.pyx` 1739, 1753-1756).  An integral that is not finite is reported as an error
here; in the code it becomes the value of a support point. -/
def overlap (val : ℤ → ℚ) (f g : PF) : Except Err ℚ := do
  match ← integrate val (← times f g) with
  | some (.fin y) => .ok y
  | _ => .error .valueError

/-- The loop of `convolution` (`functions.pyx` 1741-1759): the mirrored function `g` with its bounds `bg` is moved to
the right until the next two bounds meet. -/
def convLoop (val : ℤ → ℚ) (f : PF) (bf : List ℤ) : ℕ → PF → List ℤ → ℤ → List (ℤ × ℚ) →
    Except Err (List (ℤ × ℚ))
  | 0, _, _, _, _ => .error .outOfFuel
  | n + 1, g, bg, z, pts =>
    match ((bg.flatMap (fun b => bf.map (fun a => b - a))).filter (· < 0)).max? with
    | none => .ok pts
    | some d => do
      let g' ← xshift (fun b => b + |d|) g (-(val |d|))
      let y ← overlap val f g'
      convLoop val f bf n g' (bg.map (· + |d|)) (z + |d|)
        (if (z + |d|, y) ∈ pts then pts else pts ++ [(z + |d|, y)])

/-- The function that is overwritten with the polygon (`functions.pyx` 1761-1768): a dictionary with the first and the
last interval of the domain as keys.  A domain without intervals is reported as an error. -/
def convBase (dom : List CS) (y₀ y₁ : ℚ) : Except Err PF :=
  match dom.head?, dom.getLast? with
  | some i, some j => .ok (if i.eq j then [(i, .const y₁)] else [(i, .const y₀), (j, .const y₁)])
  | _, _ => .error .typeError

/-- A line that is not constant (`functions.pyx` 1723-1724). -/
def slanted : Fn → Bool
  | .lin m _ => m != 0
  | _ => false

/-- `convolution` (`functions.pyx` 1705-1772). -/
def convolution (val : ℤ → ℚ) (f g : PF) : Except Err PF := do
  if ← isImpulse val f then .ok g
  else if ← isImpulse val g then .ok f
  else if (f ++ g).any (fun s => slanted s.2) then .error .typeError
  else do
    let bf := Num.sortedSet (← Num.bounds (f.map (·.1)))
    let bg := Num.sortedSet ((← Num.bounds (g.map (·.1))).map (fun b => -b))
    match bg.max?, bf.min? with
    | some hi, some lo => do
      let z := hi - lo
      let g' ← xshift (fun b => b - z) (← mirror g) (val z)
      let y ← overlap val f g'
      let pts ← convLoop val f bf (bf.length * bg.length + 1) g' (bg.map (· - z)) (-z) [(-z, y)]
      let dom ← nsUnion (← domain f) (← domain g)
      let base ← convBase (RS.pieces dom) y ((pts.getLast?.map (·.2)).getD y)
      let r ← (← fromPoints val pts).foldlM (fun r s => overwriteAt r s.1 s.2) base
      simplify r
    | _, _ => .error .valueError

end Verif.Fun.PF
