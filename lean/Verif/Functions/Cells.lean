import Verif.Functions.Model

/-!
# Model of `PiecewiseFunction.simplify` with interval objects

`simplify` (functions.pyx 1540-1560) puts the interval objects of the function it is called on into its result and then changes
some of them.  Here an interval object is a cell with an address, and a piecewise function is a list of addresses and functions.
Functions are never changed and need no addresses.
-/

namespace Verif.Fun.Cells

open Iv

/-- The interval objects. -/
abbrev Heap := ℕ → CS

/-- A `PiecewiseFunction` object: the lists `intervals` and `functions` (functions.pyx 918-921), zipped. -/
abbrev Obj := List (ℕ × Fn)

/-- The intervals and functions of an object. -/
def read (h : Heap) (p : Obj) : PF := p.map fun s => (h s.1, s.2)

/-- `i_.upper = i.upper; i_.right = i.right` (functions.pyx 1556-1557). -/
def extend (h : Heap) (a b : ℕ) : Heap := fun x =>
  if x = a then { h a with upper := (h b).upper, right := (h b).right } else h x

/-- Insertion of one segment into a sorted list (functions.pyx 1541-1544, 1635-1640). -/
def insertH (h : Heap) (s : ℕ × Fn) : Obj → Except Err Obj
  | [] => .ok [s]
  | t :: r => do
    let c ← CS.comparator (h s.1) (h t.1)
    if c ≤ 0 then .ok (s :: t :: r)
    else do
      let r' ← insertH h s r
      .ok (t :: r')

/-- `sorted(self.iter(), key=cmp_to_key(self.cmp_segments))` (functions.pyx 1541-1544), with the simplification of
`PF.sortSegs`. -/
def sortH (h : Heap) : Obj → Except Err Obj
  | [] => .ok []
  | s :: r => do
    let r' ← sortH h r
    insertH h s r'

/-- The loop (functions.pyx 1545-1560) with the last piece of the result at hand; what was changed before an exception stays
changed. -/
def loopH (h : Heap) (last : ℕ × Fn) : Obj → Heap × Except Err Obj
  | [] => (h, .ok [last])
  | (a, f) :: r =>
    if (h a).isempty then loopH h last r
    else if (h a).contiguous (h last.1) then
      match f.eq last.2 with
      | .error e => (h, .error e)
      | .ok true => loopH (extend h last.1 a) last r
      | .ok false => ((loopH h (a, f) r).1, (loopH h (a, f) r).2.map (last :: ·))
    else ((loopH h (a, f) r).1, (loopH h (a, f) r).2.map (last :: ·))

/-- The loop while the result is still empty (functions.pyx 1549-1553). -/
def startH (h : Heap) : Obj → Heap × Except Err Obj
  | [] => (h, .ok [])
  | (a, f) :: r => if (h a).isempty then startH h r else loopH h (a, f) r

/-- `simplify` (functions.pyx 1540-1560): the interval objects afterwards, and the result. -/
def simplifyH (h : Heap) (p : Obj) : Heap × Except Err Obj :=
  match sortH h p with
  | .error e => (h, .error e)
  | .ok s => startH h s

end Verif.Fun.Cells
