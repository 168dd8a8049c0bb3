import Verif.Common
import Mathlib.Data.List.Basic

/-!
# Model of `ContinuousSet.fromstring`, character by character

`fromstring` / `parse` (intervals.pyx 556, 605-653).  Text is a list of characters.  `num` is `float` of a text, `none` if this
raises an exception; `X` is the type of floats.
-/

namespace Verif.Parse

variable {X β : Type}

/-- `ContinuousSet`; `true` is a closed bound (`_INC`). -/
structure Ival (X : Type) where
  lower : X
  upper : X
  left : Bool
  right : Bool
  deriving DecidableEq

/-- `.+` followed by an expression that `k` matches (intervals.pyx 556): as many characters as possible, none of which is a
line break. -/
def plusThen (k : List Char → Option β) : List Char → Option (List Char × β)
  | [] => none
  | c :: r =>
    if c = '\n' then none
    else match plusThen k r with
      | some (p, b) => some (c :: p, b)
      | none => (k r).map fun b => ([c], b)

/-- `(?P<rdelim>\)|\]|\[)` (intervals.pyx 556). -/
def delimR : List Char → Option Char
  | [] => none
  | c :: _ => if c = ')' ∨ c = ']' ∨ c = '[' then some c else none

/-- A comma followed by an expression that `k` matches (intervals.pyx 556). -/
def commaThen (k : List Char → Option β) : List Char → Option β
  | [] => none
  | c :: r => if c = ',' then k r else none

/-- `re_int.match` (intervals.pyx 556, 615): a match need not reach the end of the text.  The result is `ldelim`, `lval`,
`rval`, `rdelim`. -/
def matchInt : List Char → Option (Char × List Char × List Char × Char)
  | [] => none
  | c :: t =>
    if c = '(' ∨ c = '[' ∨ c = ']' then (plusThen (commaThen (plusThen delimR)) t).map fun p => (c, p.1, p.2.1, p.2.2)
    else none

/-- `s.replace(" ", "").replace('∞', 'inf')` (intervals.pyx 615). -/
def clean (s : List Char) : List Char :=
  (s.filter fun c => c ≠ ' ').flatMap fun c => if c = '∞' then ['i', 'n', 'f'] else [c]

/-- `fromstring` (intervals.pyx 605-651).  `zero` is the float 0: the constant `EMPTY` is the open interval from 0 to 0
(intervals.pyx 39).  The delimiters are those of the regular expression, so that the branches for other ones are not reached.
Simplification: that `EMPTY` is a shared object is not modelled. -/
def fromString (num : List Char → Option X) (zero : X) (s : List Char) : Except Err (Ival X) :=
  if s = ['∅'] then .ok ⟨zero, zero, false, false⟩
  else match matchInt (clean s) with
    | none => .error .valueError
    | some (ld, lv, rv, rd) =>
      match num lv, num rv with
      | some a, some b => .ok ⟨a, b, decide (ld = '['), decide (rd = ']')⟩
      | _, _ => .error .valueError

/-- `RealSet.__init__` of a text (intervals.pyx 143-162): the text is read as a single interval. -/
def realSetOf (num : List Char → Option X) (zero : X) (s : List Char) : Except Err (List (Ival X)) := do
  let i ← fromString num zero s
  return [i]

end Verif.Parse
