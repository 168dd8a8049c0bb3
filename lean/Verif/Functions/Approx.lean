import Verif.Functions.Combine
import Mathlib.Logic.Function.Basic

/-!
# Model of the approximation of piecewise functions

`PiecewiseFunction.approximate` (`functions.pyx` 1835-1861) and `PLFApproximator` (`functions.pyx` 1866-2051).  The
arithmetic is exact; `rnd` rounds the centers of intervals in `PiecewiseFunction.abs`.
-/

namespace Verif.Fun

open Iv Iv.FP

namespace PF

/-- `FunctionSegment` (`functions.pyx` 1875-1881). -/
structure Seg where
  i : CS
  f : Fn

/-- `FunctionSegment.__eq__` (`functions.pyx` 1880-1881). -/
def Seg.same (s t : Seg) : Except Err Bool := if s.i.eq t.i then s.f.eq t.f else .ok false

/-- `FunctionSegmentReplacement` (`functions.pyx` 1883-1908).  Other replacements are referred to by the number of
their creation. -/
structure Repl where
  error : Fn.Fl
  left : Seg
  right : Seg
  new : Seg
  next : Option ℕ
  prev : Option ℕ

/-- `FunctionSegmentReplacement.__eq__` (`functions.pyx` 1900-1908); NaN is not equal to itself. -/
def Repl.same (a b : Repl) : Except Err Bool := do
  let l ← a.left.same b.left
  let r ← a.right.same b.right
  let n ← a.new.same b.new
  .ok (l && r && (a.error.isSome && decide (a.error = b.error)) && n)

/-- The type in `replace_by`. -/
inductive By
  | linear
  | constant
  | other
deriving DecidableEq

/-- `list.index`: the position of the first item for which `eq` holds. -/
def indexOf {α : Type} (eq : α → Except Err Bool) : List α → Except Err ℕ
  | [] => .error .valueError
  | y :: r => do if ← eq y then .ok 0 else do return (← indexOf eq r) + 1

/-- `ContinuousSet.width` (`intervals.pyx` 1129-1134) of a finite interval.  Simplification: an infinite width is an
error here; it does not occur, since infinite intervals are refused before. -/
def widthOf (val : ℤ → ℚ) (i : CS) : Except Err ℚ :=
  match i.lowermost, i.uppermost with
  | fin a, fin b => .ok (val b - val a)
  | _, _ => .error .valueError

/-- The function of a replacement (`functions.pyx` 1935-1949), where `x` and `y` are the values of the left function at
the lower bound and of the right function at the upper bound, and `i` is the new interval. -/
def replaceBy (val : ℤ → ℚ) (kind : By) (l r i : CS) (a b : ℤ) (x y : ℚ) : Except Err Fn :=
  match kind with
  | .linear => Fn.fromPoints (val a, x) (val b, y)
  | .constant => do
    let w ← widthOf val i
    if w = 0 then .error .zeroDivision
    else .ok (.const (x * (← widthOf val l) / w + y * (← widthOf val r) / w))
  | .other => .error .typeError

/-- The mean absolute error of a replacement (`functions.pyx` 1951-1955). -/
def meanError (val : ℤ → ℚ) (rnd : ℚ → ℤ) (plf : PF) (i : CS) (f : Fn) : Except Err Fn.Fl := do
  let e ← addFn (← plf.crop i) (← f.mul (.const (-1)))
  let s ← (← absolute val rnd e).integrate val
  let w ← widthOf val i
  if w = 0 then .error .zeroDivision else .ok (Fn.scale (1 / w) s)

/-- `_construct_replacement` (`functions.pyx` 1918-1961).  Simplification: the value NaN of an undefined piece is an
error here. -/
def construct (val : ℤ → ℚ) (rnd : ℚ → ℤ) (plf : PF) (kind : By) (l r : Seg) : Except Err Repl :=
  if l.i.contiguous r.i = false ∨ l.i.isninf = true ∨ r.i.ispinf = true then .error .valueError
  else do
    let i ← CS.mk? l.i.lower r.i.upper l.i.left r.i.right
    match i.lower, i.upper with
    | fin a, fin b => match l.f.eval (val a), r.f.eval (val b) with
      | some x, some y => do
        let f ← replaceBy val kind l.i r.i i a b x y
        let e ← meanError val rnd plf i f
        .ok ⟨e, l, r, ⟨i, f⟩, none, none⟩
      | _, _ => .error .valueError
    | _, _ => .error .valueError

/-- The variables of `run` (`functions.pyx` 1963-2051): `nodes j` is the `j`-th replacement that was created, for
`j < size`; `queue` are the numbers of those on the heap. -/
structure Approx where
  result : PF
  nodes : ℕ → Repl
  size : ℕ
  queue : List ℕ

/-- Assign `next` of a replacement. -/
def setNext (nodes : ℕ → Repl) (j : ℕ) (n : Option ℕ) : ℕ → Repl :=
  Function.update nodes j { nodes j with next := n }

/-- Assign `prev` of a replacement. -/
def setPrev (nodes : ℕ → Repl) (j : ℕ) (n : Option ℕ) : ℕ → Repl :=
  Function.update nodes j { nodes j with prev := n }

/-- Create a replacement and put it on the heap. -/
def Approx.push (st : Approx) (r : Repl) : Approx :=
  ⟨st.result, Function.update st.nodes st.size r, st.size + 1, st.queue ++ [st.size]⟩

/-- Append a replacement to the list of candidates (`functions.pyx` 1987-1991). -/
def Approx.append (st : Approx) (n : Repl) : Approx :=
  if st.size = 0 then st.push n
  else { st with nodes := setNext st.nodes (st.size - 1) (some st.size) }.push { n with prev := some (st.size - 1) }

/-- The candidates (`functions.pyx` 1977-1991). -/
def candidates (val : ℤ → ℚ) (rnd : ℚ → ℤ) (plf : PF) (kind : By) : PF → Approx → Except Err Approx
  | s :: t :: r, st =>
    if s.1.contiguous t.1 = false ∨ s.1.isninf = true ∨ t.1.ispinf = true then candidates val rnd plf kind (t :: r) st
    else do
      let n ← construct val rnd plf kind ⟨s.1, s.2⟩ ⟨t.1, t.2⟩
      candidates val rnd plf kind (t :: r) (st.append n)
  | _, st => .ok st

/-- Remove the interval and the function of a segment (`functions.pyx` 2005-2008). -/
def remove (p : PF) (s : Seg) : Except Err PF := do
  let j ← indexOf (fun i => .ok (i.eq s.i)) (p.map (·.1))
  let k ← indexOf (fun g => g.eq s.f) (p.map (·.2))
  .ok (((p.map (·.1)).eraseIdx j).zip ((p.map (·.2)).eraseIdx k))

/-- `del queue[queue.index(..)]` (`functions.pyx` 2023, 2036; `utils.py` 508-509, 523-530). -/
def Approx.drop (st : Approx) (j : ℕ) : Except Err Approx := do
  let k ← indexOf (fun i => (st.nodes i).same (st.nodes j)) st.queue
  .ok { st with queue := st.queue.eraseIdx k }

/-- The new replacement to the left (`functions.pyx` 2021-2033). -/
def addLeft (val : ℤ → ℚ) (rnd : ℚ → ℤ) (plf : PF) (kind : By) (r : Repl) (st : Approx) :
    Except Err (Approx × Option ℕ) :=
  match r.prev with
  | none => .ok (st, none)
  | some p => do
    let st ← st.drop p
    let n ← construct val rnd plf kind (st.nodes p).left r.new
    match (st.nodes p).prev with
    | none => .ok (st.push n, some st.size)
    | some q => .ok ({ st with nodes := setNext st.nodes q (some st.size) }.push { n with prev := some q },
        some st.size)

/-- The new replacement to the right (`functions.pyx` 2034-2046). -/
def addRight (val : ℤ → ℚ) (rnd : ℚ → ℤ) (plf : PF) (kind : By) (r : Repl) (st : Approx) :
    Except Err (Approx × Option ℕ) :=
  match r.next with
  | none => .ok (st, none)
  | some p => do
    let st ← st.drop p
    let n ← construct val rnd plf kind r.new (st.nodes p).right
    match (st.nodes p).next with
    | none => .ok (st.push n, some st.size)
    | some q => .ok ({ st with nodes := setPrev st.nodes q (some st.size) }.push { n with next := some q },
        some st.size)

/-- Link the new replacements (`functions.pyx` 2047-2049). -/
def link (st : Approx) : Option ℕ → Option ℕ → Approx
  | some l, some r => { st with nodes := setPrev (setNext st.nodes l (some r)) r (some l) }
  | _, _ => st

/-- `error_max < replacement.error` (`functions.pyx` 2000); `none` is `np.inf`. -/
def exceeds : Option ℚ → Fn.Fl → Bool
  | some m, some (.fin e) => decide (m < e)
  | some _, some .pinf => true
  | _, _ => false

/-- The loop (`functions.pyx` 1993-2051).  Simplification: deleting an item in the middle of the list behind the heap
may destroy its order, and which item `pop` returns after that depends on all operations before.  So the position of that
item is a parameter: `pick` gets the errors and numbers of the items on the heap. -/
def approxLoop (val : ℤ → ℚ) (rnd : ℚ → ℤ) (pick : List (Fn.Fl × ℕ) → ℕ) (plf : PF) (kind : By) (k : ℕ)
    (emax : Option ℚ) : ℕ → Approx → Except Err PF
  | fuel, st => match st.queue with
    | [] => .ok st.result
    | _ :: _ => match fuel with
      | 0 => .error .outOfFuel
      | fuel + 1 =>
        let j := pick (st.queue.map (fun i => ((st.nodes i).error, i)))
        match st.queue[j]? with
        | none => .error .indexError
        | some id =>
          if st.result.length ≤ k ∨ exceeds emax (st.nodes id).error = true then .ok st.result
          else do
            let p ← remove st.result (st.nodes id).left
            let p ← remove p (st.nodes id).right
            let p ← overwriteAt p (st.nodes id).new.i (st.nodes id).new.f
            let (st₁, l) ← addLeft val rnd plf kind (st.nodes id) { st with result := p, queue := st.queue.eraseIdx j }
            let (st₂, r) ← addRight val rnd plf kind (st.nodes id) st₁
            approxLoop val rnd pick plf kind k emax fuel (link st₂ l r)

/-- A replacement that does not exist. -/
def noRepl : Repl := ⟨none, ⟨CS.emptyset, .undef⟩, ⟨CS.emptyset, .undef⟩, ⟨CS.emptyset, .undef⟩, none, none⟩

/-- `approximate` (`functions.pyx` 1835-1861, 1963-2051). -/
def approximate (val : ℤ → ℚ) (rnd : ℚ → ℤ) (pick : List (Fn.Fl × ℕ) → ℕ) (kind : By) (p : PF) (emax : Option ℚ)
    (k : Option ℕ) : Except Err PF :=
  if k.any (· < 3) then .error .valueError
  else do
    let st ← candidates val rnd p kind p ⟨p, fun _ => noRepl, 0, []⟩
    approxLoop val rnd pick p kind (k.getD 3) emax st.size st

end PF

end Verif.Fun
