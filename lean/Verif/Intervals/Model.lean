import Verif.Intervals.FP
import Mathlib.Data.List.Sort

/-!
# Model of `src/jpt/base/intervals.pyx`

`ContinuousSet` (`CS`) and `RealSet` (`List CS`), function by function, branch by branch.
A `NumberSet` is either of the two (`NS`).  Python objects are modelled as values; the one place
where in-place mutation is visible to the caller (`RealSet.simplify`) is modelled separately by
`simplifyReceiver`.
-/

namespace Verif.Iv

open FP

/-- The bound flags `_INC = 1` and `_EXC = 2` (`intervals.pyx` 32-37). -/
inductive Br
  | inc
  | exc
deriving DecidableEq, Repr

namespace Br

/-- The integer behind a flag (`intervals.pyx` 33-34). -/
def code : Br → Int
  | inc => 1
  | exc => 2

/-- `max` of two flags, as integers. -/
def max (a b : Br) : Br := if a.code ≤ b.code then b else a

/-- `min` of two flags, as integers. -/
def min (a b : Br) : Br := if b.code < a.code then b else a

/-- `_INC if b == _EXC else _EXC` (`intervals.pyx` 1054, 1058, 1068, 1071). -/
def flip : Br → Br
  | inc => exc
  | exc => inc

end Br

/-- A `ContinuousSet`: the attributes `lower`, `upper`, `left`, `right` (`intervals.pyx` 588-603). -/
structure CS where
  lower : FP
  upper : FP
  left : Br
  right : Br
deriving DecidableEq, Repr

/-- A `NumberSet`: `ContinuousSet` or `RealSet` (`intervals.pyx` 45-120, 125, 558). -/
inductive NS
  | cs (c : CS)
  | rs (l : List CS)
deriving DecidableEq, Repr

namespace CS

/-- `ContinuousSet.__init__` (`intervals.pyx` 588-603): raises `ValueError` if `lower > upper`.
The default of a missing flag (0) is `_INC`; callers below pass it explicitly. -/
def mk? (lower upper : FP) (left right : Br) : Except Err CS :=
  if lower > upper then .error .valueError else .ok ⟨lower, upper, left, right⟩

/-- `EMPTY` / `c_emptyset` (`intervals.pyx` 39, 699-705). -/
def emptyset : CS := ⟨fin 0, fin 0, .exc, .exc⟩

/-- `R` / `c_allnumbers` (`intervals.pyx` 40, 715-721). -/
def allnumbers : CS := ⟨ninf, pinf, .exc, .exc⟩

/-- `itype` (`intervals.pyx` 655-660): 2 closed, 3 half-open, 4 open. -/
def itype (s : CS) : Int := s.right.code + s.left.code

/-- `isclosed` (`intervals.pyx` 673-678). -/
def isclosed (s : CS) : Bool := s.itype == 2

/-- `isempty` (`intervals.pyx` 662-671). -/
def isempty (s : CS) : Bool :=
  if s.lower > s.upper then false
  else if s.lower = s.upper then !s.isclosed
  else decide (s.lower.up ≥ s.upper) && s.itype == 4

/-- `isninf` (`intervals.pyx` 680-685): only looks at whether `lower` is infinite. -/
def isninf (s : CS) : Bool := s.lower.isInf

/-- `ispinf` (`intervals.pyx` 687-692): only looks at whether `upper` is infinite. -/
def ispinf (s : CS) : Bool := s.upper.isInf

/-- `uppermost` / `max` (`intervals.pyx` 1109-1113, 1124). -/
def uppermost (s : CS) : FP := if s.right = .inc then s.upper else s.upper.dn

/-- `lowermost` / `min` (`intervals.pyx` 1115-1119, 1120). -/
def lowermost (s : CS) : FP := if s.left = .inc then s.lower else s.lower.up

/-- `intersects` (`intervals.pyx` 919-938), the case of another `ContinuousSet`. -/
def intersects (s o : CS) : Bool :=
  if o.isempty then false
  else if o.lower > s.upper ∨ o.upper < s.lower then false
  else if s.lower = o.upper ∧ (o.right = .exc ∨ s.left = .exc) then false
  else if s.upper = o.lower ∧ (s.right = .exc ∨ o.left = .exc) then false
  else true

/-- `isdisjoint` (`intervals.pyx` 940-946). -/
def isdisjoint (s o : CS) : Bool := !s.intersects o

/-- `contains_value` (`intervals.pyx` 865-871); also `value in interval` (1201-1211). -/
def containsValue (s : CS) (v : FP) : Bool := s.intersects ⟨v, v, .inc, .inc⟩

/-- `contains_interval` (`intervals.pyx` 873-905), the case of another `ContinuousSet`. -/
def containsInterval (s o : CS) (proper : Bool := false) : Bool :=
  if s.isempty then false
  else if s.lowermost > o.lowermost ∨ s.uppermost < o.uppermost then false
  else if s.lower = o.lower ∧ s.left = .exc ∧ o.left = .inc then false
  else if s.lower = o.lower ∧ s.left = o.left ∧ proper then false
  else if s.upper = o.upper ∧ s.right = .exc ∧ o.right = .inc then false
  else if s.upper = o.upper ∧ s.right = o.right ∧ proper then false
  else true

/-- `contains_interval` (`intervals.pyx` 873-905), the case of a `RealSet`. -/
def containsRealSet (s : CS) (l : List CS) (proper : Bool := false) : Bool :=
  if s.isempty then false else l.all (fun i => s.containsInterval i proper)

/-- `contiguous` (`intervals.pyx` 907-917). -/
def contiguous (s o : CS) : Bool :=
  if s.lower = o.upper ∧ o.right.code + s.left.code = 3 then true
  else if s.upper = o.lower ∧ s.right.code + o.left.code = 3 then true
  else false

/-- The first part of `intersection` (`intervals.pyx` 973-981), with the flags `left`/`right` of the
call left at their default 0.  `ContinuousSet(max .., min ..)` is `mk?`, so a `ValueError` would
surface here. -/
def intersection (s o : CS) : Except Err CS :=
  if ¬ s.intersects o then .ok emptyset
  else do
    let r ← mk? (max s.lower o.lower) (min s.upper o.upper) .inc .inc
    .ok { r with
      left := if o.lower = s.lower then Br.max s.left o.left
              else if s.lower > o.lower then s.left else o.left
      right := if o.upper = s.upper then Br.max s.right o.right
               else if s.upper < o.upper then s.right else o.right }

/-- The second part of `intersection` (`intervals.pyx` 982-994): conversion of the bound flags to
the requested ones.  `none` is the default argument 0. -/
def convertEnds (r : CS) (left right : Option Br) : CS :=
  let r1 :=
    if left = some .inc ∧ r.left = .exc then { r with left := .inc, lower := r.lower.up }
    else if left = some .exc ∧ r.left = .inc then { r with left := .exc, lower := r.lower.dn }
    else r
  if right = some .inc ∧ r1.right = .exc then { r1 with right := .inc, upper := r1.upper.dn }
  else if right = some .exc ∧ r1.right = .inc then { r1 with right := .exc, upper := r1.upper.up }
  else r1

/-- `intersection(other, left, right)` (`intervals.pyx` 948-995). The early return of the empty set
(974) skips the flag conversion. -/
def intersectionEnds (s o : CS) (left right : Option Br) : Except Err CS :=
  if ¬ s.intersects o then .ok emptyset
  else do
    let r ← s.intersection o
    .ok (r.convertEnds left right)

/-- `boundaries` (`intervals.pyx` 997-1016).  The four `nextafter` values are computed from the
original bounds; `copy` is `mk?` and raises for `lower > upper`. -/
def boundaries (s : CS) (left right : Option Br) : Except Err CS := do
  let r ← mk? s.lower s.upper s.left s.right
  .ok (r.convertEnds left right)

/-- `ends` (`intervals.pyx` 1164-1180): as `boundaries`, with the default −1 (`none`), and guarding
infinite bounds (for which `up`/`dn` are the identity anyway).  Note the two successive `if`s on
the left side (1168, 1171): after the first one set `left := EXC`, the second is not taken because
`left` is then `EXC`, not `INC`. -/
def ends (s : CS) (left right : Option Br) : Except Err CS := do
  let r ← mk? s.lower s.upper s.left s.right
  let r1 := if r.left = .inc ∧ left = some .exc then
      { r with lower := if r.lower.isInf then r.lower else r.lower.dn, left := .exc } else r
  let r2 := if r1.left = .exc ∧ left = some .inc then
      { r1 with lower := if r1.lower.isInf then r1.lower else r1.lower.up, left := .inc } else r1
  .ok (if r2.right = .inc ∧ right = some .exc then
      { r2 with upper := if r2.upper.isInf then r2.upper else r2.upper.up, right := .exc }
    else if r2.right = .exc ∧ right = some .inc then
      { r2 with upper := if r2.upper.isInf then r2.upper else r2.upper.dn, right := .inc }
    else r2)

/-- `difference` (`intervals.pyx` 1034-1074), the case of another `ContinuousSet`.  The two pieces
of the `RealSet` are built by `ContinuousSet(...)`, which raises `ValueError` when
`lower > upper`. -/
def difference (s o : CS) : Except Err NS :=
  if o.isempty then do
    let c ← mk? s.lower s.upper s.left s.right
    .ok (.cs c)
  else if o.containsInterval s then .ok (.cs emptyset)
  else if s.containsInterval o (proper := true) then do
    let a ← mk? s.lower o.lower s.left o.left.flip
    let b ← mk? o.upper s.upper o.right.flip s.right
    .ok (.rs [a, b])
  else if s.intersects o then do
    let r ← mk? s.lower s.upper s.left s.right
    if s.containsValue o.uppermost ∧ s.uppermost ≠ o.uppermost then
      .ok (.cs { r with lower := o.upper, left := o.right.flip })
    else if s.containsValue o.lowermost ∧ s.lowermost ≠ o.lowermost then
      .ok (.cs { r with upper := o.lower, right := o.left.flip })
    else .ok (.cs r)
  else do
    let c ← mk? s.lower s.upper s.left s.right
    .ok (.cs c)

/-- `size` (`intervals.pyx` 1083-1092): 0, 1 or infinity (`none`).
`nextafter(lower, upper) == upper` is `lower.up = upper` for finite `lower`. -/
def size (s : CS) : Option Nat :=
  if s.isempty then some 0
  else if s.lower = s.upper ∨ (s.lower.up = s.upper ∧ s.itype = 3) then some 1
  else none

/-- One element of the loop of `chop` and the rest (`intervals.pyx` 1136-1159): `rem` is the
remainder; the points are already sorted. -/
def chopLoop (rem : CS) : List FP → List CS
  | [] => if rem.isempty then [] else [rem]
  | p :: ps =>
    if rem.containsValue p then
      let cut : CS := ⟨rem.lower, p, rem.left, .exc⟩
      let rem' : CS := { rem with lower := p, left := .inc }
      let rest := if rem'.isempty then [] else chopLoop rem' ps
      if cut.isempty then rest else cut :: rest
    else chopLoop rem ps

/-- `chop` (`intervals.pyx` 1136-1159): `sorted(points)` (modelled by insertion sort; all stable sorts agree), then the loop.  The construction of `cut`
cannot raise because `p` lies in the remainder. -/
def chop (s : CS) (points : List FP) : List CS :=
  chopLoop s (points.insertionSort (· ≤ ·))

/-- `xmirror` (`intervals.pyx` 1182-1191). -/
def xmirror (s : CS) : CS := ⟨s.upper.neg, s.lower.neg, s.right, s.left⟩

/-- `__eq__` of two `ContinuousSet`s (`intervals.pyx` 1213-1219). -/
def eq (s o : CS) : Bool :=
  (decide (s.lowermost = o.lowermost) && decide (s.uppermost = o.uppermost))
    || (s.isempty && o.isempty)

/-- The argument tuple of `hash` in `__hash__` (`intervals.pyx` 1299-1302). -/
def hashKey (s : CS) : FP × FP × Br × Br := (s.lower, s.upper, s.left, s.right)

/-- `comparator` (`intervals.pyx` 1222-1237). -/
def comparator (a b : CS) : Except Err Int :=
  if a.uppermost < b.lowermost then .ok (-1)
  else if b.uppermost < a.lowermost then .ok 1
  else .error .valueError

/-- `any_point` (`intervals.pyx` 761-775), restricted to the branches that do not average two
floats (the last branch, `(min + max) * .5`, is not modelled: `none`). -/
def anyPoint (s : CS) : Option FP :=
  if s.ispinf && s.isninf then some (fin 0)
  else if s.isninf then some s.uppermost.dn
  else if s.ispinf then some s.lowermost.up
  else none

/-- `to_json` (`intervals.pyx` 1310-1316) as a list of key/value pairs; numbers on the left, flags
on the right. -/
def toJson (s : CS) : List (String × (FP ⊕ Br)) :=
  [("upper", .inl s.upper), ("lower", .inl s.lower), ("left", .inr s.left), ("right", .inr s.right)]

/-- `from_json` (`intervals.pyx` 1318-1325): missing keys raise `KeyError`, a flag where a number is
expected `TypeError`. -/
def fromJson (d : List (String × (FP ⊕ Br))) : Except Err CS := do
  let num (k : String) : Except Err FP := match d.lookup k with
    | some (.inl x) => .ok x
    | some (.inr _) => .error .typeError
    | none => .error .keyError
  let flag (k : String) : Except Err Br := match d.lookup k with
    | some (.inr b) => .ok b
    | some (.inl _) => .error .typeError
    | none => .error .keyError
  let lo ← num "lower"
  let hi ← num "upper"
  let l ← flag "left"
  let r ← flag "right"
  mk? lo hi l r

end CS

/-- The text form of an interval, by tokens: `∅`, `{x}`, or delimiter, two numbers, delimiter.
Simplification: a number is a token (its decimal digits are not modelled). -/
inductive Text
  | empty
  | point (x : FP)
  | pair (ldelim : Char) (lo hi : FP) (rdelim : Char)
deriving DecidableEq, Repr

/-- `pfmt` in the default notation `par` (`intervals.pyx` 1260-1283, 80-98). -/
def CS.pfmt (s : CS) : Text :=
  if s.isempty then .empty
  else if s.lower = s.upper ∧ s.left = .inc ∧ s.right = .inc then .point s.lower
  else .pair (match s.left with | .inc => '[' | .exc => '(') s.lower s.upper
    (match s.right with | .inc => ']' | .exc => ')')

/-- `fromstring` / `parse` (`intervals.pyx` 555, 606-651): `{x}` does not match the regular
expression; the bounds are assigned directly, so `lower > upper` is not checked. -/
def CS.parse : Text → Except Err CS
  | .empty => .ok .emptyset
  | .point _ => .error .valueError
  | .pair l lo hi r =>
    match (if l = '(' ∨ l = ']' then some Br.exc else if l = '[' then some .inc else none),
      (if r = ')' ∨ r = '[' then some Br.exc else if r = ']' then some .inc else none) with
    | some bl, some br => .ok ⟨lo, hi, bl, br⟩
    | _, _ => .error .valueError

namespace RS

/-- `RealSet.isempty` (`intervals.pyx` 350-369). -/
def isempty (l : List CS) : Bool := l.all CS.isempty

/-- `RealSet.__contains__` / `contains_value` (`intervals.pyx` 164-172, 294-304). -/
def containsValue (l : List CS) (v : FP) : Bool := l.any (fun s => s.containsValue v)

/-- `RealSet.contains_interval` (`intervals.pyx` 306-318), argument a `ContinuousSet`. -/
def containsInterval (l : List CS) (o : CS) : Bool := l.any (fun s => s.containsInterval o)

/-- `RealSet.contains_interval` (`intervals.pyx` 306-318), argument a `RealSet`. -/
def containsRealSet (l o : List CS) : Bool := o.all (fun i => containsInterval l i)

/-- `RealSet.intersects` (`intervals.pyx` 387-405). -/
def intersects (l o : List CS) : Bool := l.any (fun s => o.any (fun s' => s.intersects s'))

/-- The intervals appended to `tail` for the result of one `difference` (`intervals.pyx` 474-479). -/
def pieces : NS → List CS
  | .cs c => [c]
  | .rs l => l

/-- First loop of `simplify` (`intervals.pyx` 466-479): the head is kept if it is not empty, and is
subtracted from everything behind it.  `fuel` bounds the `while` loop. -/
def disjointify : Nat → List CS → Except Err (List CS)
  | _, [] => .ok []
  | 0, _ :: _ => .error .outOfFuel
  | n + 1, h :: t => do
    let ds ← t.mapM (fun s => s.difference h)
    let r ← disjointify n (ds.map pieces).flatten
    .ok (if h.isempty then r else h :: r)

/-- Second loop of `simplify` (`intervals.pyx` 482-489): `last` is `intervals[-1]`. -/
def mergeLoop (last : CS) : List CS → List CS
  | [] => [last]
  | s :: t =>
    if last.contiguous s then mergeLoop { last with upper := s.upper, right := s.right } t
    else last :: mergeLoop s t

/-- `sorted(intervals, key=attrgetter('upper'))` (`intervals.pyx` 482); stable, like
Python's `sorted`. -/
def sortUpper (l : List CS) : List CS := l.insertionSort (fun a b => a.upper ≤ b.upper)

/-- The list of intervals behind the result of `simplify` before the case distinction on its length
(`intervals.pyx` 466-489); `[]` when no interval is left. -/
def simplifyList (l : List CS) : Except Err (List CS) := do
  let d ← disjointify (2 ^ l.length) l
  match sortUpper d with
  | [] => .ok []
  | h :: t => .ok (mergeLoop h t)

/-- `simplify` (`intervals.pyx` 458-491). -/
def simplify (l : List CS) : Except Err NS := do
  match ← simplifyList l with
  | [] => .ok (.cs .emptyset)
  | [c] => .ok (.cs c)
  | cs => .ok (.rs cs)

/-- `RealSet.union` (`intervals.pyx` 500-506), both arguments as lists of intervals. -/
def union (l o : List CS) : Except Err NS := simplify (l ++ o)

/-- `RealSet.intersection` (`intervals.pyx` 415-432). -/
def intersection (l o : List CS) : Except Err NS := do
  let r ← (l.flatMap (fun i => o.map (fun j => (i, j)))).mapM (fun p => p.2.intersection p.1)
  simplify r

/-- The inner loop of `RealSet.difference` (`intervals.pyx` 516-523) for one interval `s`: subtract
the intervals of `other` one after the other; returns what is pushed to the front of the queue
(the last pushed first) and the final `s`. -/
def diffInner (s : CS) : List CS → List CS → Except Err (List CS × CS)
  | [], pushed => .ok (pushed, s)
  | o :: os, pushed => do
    match ← s.difference o with
    | .cs d => diffInner d os pushed
    | .rs (a :: b :: _) => diffInner a os (b :: pushed)
    | .rs _ => .error .indexError

/-- The outer loop of `RealSet.difference` (`intervals.pyx` 513-524).  `fuel` bounds the loop. -/
def diffOuter (o : List CS) : Nat → List CS → Except Err (List CS)
  | _, [] => .ok []
  | 0, _ :: _ => .error .outOfFuel
  | n + 1, s :: q => do
    let (pushed, s') ← diffInner s o []
    let r ← diffOuter o n (pushed ++ q)
    .ok (s' :: r)

/-- `RealSet.difference` (`intervals.pyx` 508-525). -/
def difference (l o : List CS) : Except Err NS :=
  if isempty o then do
    let c ← l.mapM (fun s => CS.mk? s.lower s.upper s.left s.right)
    .ok (.rs c)
  else do
    let r ← diffOuter o (l.length * (o.length + 1)) l
    simplify r

/-- `RealSet.complement` (`intervals.pyx` 527-528). `.simplify()` of a `ContinuousSet` is a copy
(1161-1162). -/
def complement (l : List CS) : Except Err NS := do
  match ← difference [.allnumbers] l with
  | .cs c => .ok (.cs c)
  | .rs r => simplify r

/-- `RealSet.__eq__` of two `RealSet`s (`intervals.pyx` 182-191); lists of intervals are compared
elementwise with `ContinuousSet.__eq__`. -/
def eqLists : List CS → List CS → Bool
  | [], [] => true
  | a :: as, b :: bs => a.eq b && eqLists as bs
  | _, _ => false

/-- `RealSet.__eq__` (`intervals.pyx` 182-191). -/
def eq (l o : List CS) : Except Err Bool :=
  if isempty l && isempty o then .ok true
  else do
    let a ← simplify l
    let b ← simplify o
    match a, b with
    | .cs a, .cs b => .ok (a.eq b)
    | .rs a, .rs b => .ok (eqLists a b)
    | _, _ => .ok false

/-- `RealSet.chop` (`intervals.pyx` 530-532): a `ContinuousSet` has no attribute `intervals`. -/
def chop (l : List CS) (points : List FP) : Except Err (List CS) := do
  match ← simplify l with
  | .cs _ => .error .attributeError
  | .rs r => .ok (r.flatMap (fun i => i.chop points))

/-- What the second loop of `simplify` (`intervals.pyx` 482-489) does to the interval object `f`,
which occurs once in the list: when later intervals are merged into it (485-486) its `upper` and
`right` change in place.  `isF` says that `last` is that object. -/
def receiverLoop (f last : CS) (isF : Bool) : List CS → CS
  | [] => if isF then last else f
  | s :: t =>
    if last.contiguous s then
      receiverLoop f { last with upper := s.upper, right := s.right } isF t
    else if isF then last
    else receiverLoop f s (decide (s = f)) t

/-- The first interval of the receiver after `simplify` (`intervals.pyx` 466-489): `tail =
list(self.intervals)` shares the interval objects, so the first head *is* `self.intervals[0]`; all
later heads are fresh results of `difference`. -/
def simplifyReceiver (l : List CS) : Except Err (Option CS) := do
  let d ← disjointify (2 ^ l.length) l
  match l.head?, sortUpper d with
  | some f, h :: t => .ok (some (if f.isempty then f else receiverLoop f h (decide (h = f)) t))
  | f, _ => .ok f

/-- `RealSet.to_json` (`intervals.pyx` 221-224): a dict comprehension with the constant key
`'intervals'`, so a later interval overwrites an earlier one; the empty set gives `{}`. -/
def toJson (l : List CS) : List (String × List (String × (FP ⊕ Br))) :=
  match l.getLast? with
  | none => []
  | some s => [("intervals", s.toJson)]

/-- `RealSet.from_json` (`intervals.pyx` 226-230): iterates over `data['intervals']`, which is the
dictionary of one interval, so `d` is a key (a string), and `d['lower']` raises `TypeError`. -/
def fromJson (d : List (String × List (String × (FP ⊕ Br)))) : Except Err (List CS) :=
  match d.lookup "intervals" with
  | none => .error .keyError
  | some [] => .ok []
  | some (_ :: _) => .error .typeError

end RS

/-- `ContinuousSet.union` (`intervals.pyx` 1018-1032). -/
def CS.union (s o : CS) : Except Err NS :=
  if ¬ s.intersects o ∧ ¬ s.contiguous o then
    if s.isempty then do
      let c ← CS.mk? o.lower o.upper o.left o.right
      .ok (.cs c)
    else RS.union [s] [o]
  else do
    let c ← CS.mk? (min s.lower o.lower) (max s.upper o.upper)
      (if s.lower = o.lower then Br.min s.left o.left
        else if s.lower < o.lower then s.left else o.left)
      (if s.upper = o.upper then Br.min s.right o.right
        else if s.upper > o.upper then s.right else o.right)
    .ok (.cs c)

/-- `ContinuousSet.complement` (`intervals.pyx` 1076-1081). -/
def CS.complement (s : CS) : Except Err NS := CS.allnumbers.difference s

/-- `list2interval` (`base/utils.py` 270-285): `None` stands for the infinity; the flags keep their
default `INC`. -/
def list2interval : List (Option FP) → Except Err CS
  | [lo, hi] => CS.mk? (lo.getD ninf) (hi.getD pinf) .inc .inc
  | _ => .error .valueError

end Verif.Iv
