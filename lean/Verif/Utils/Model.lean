import Verif.Common
import Mathlib.Algebra.Order.Field.Rat
import Mathlib.Algebra.BigOperators.Group.List.Basic
import Mathlib.Data.List.Sort

/-!
# Model of parts of `src/jpt/base/utils.py` and `src/jpt/base/sampling.py`

Floats are exact rationals.
-/

namespace Verif.Ut

/-! ## `normalized` -/

/-- The argument of `normalized` (utils.py 306-311): a list, a float or integer numpy array, a
dict (its items in order), or something else. -/
inductive Dist (K : Type)
  | list (w : List ℚ)
  | floatArray (w : List ℚ)
  | intArray (w : List ℤ)
  | dict (w : List (K × ℚ))
  | other

/-- `ifnot(np.sign(v), 1)` (utils.py 345). -/
def sign1 (v : ℚ) : ℚ := if v < 0 then -1 else 1

/-- The `while` loop (utils.py 352-379) on the values; `none` means "return `dist.copy()`".
`fuel` bounds the number of rounds. -/
def normLoop (identityOnZeros : Bool) (zeros : ℚ) (signs : List ℚ) :
    (fuel : ℕ) → List ℚ → Except Err (Option (List ℚ))
  | 0, _ => .error .outOfFuel
  | fuel + 1, vs =>
    let z := vs.sum
    if z = 0 then
      if identityOnZeros then .ok none else .error .valueError
    else
      let vs1 := vs.map (· / z)
      if zeros ≠ 0 ∧ vs1.min? = some 0 then
        match (vs1.filter (fun v => decide (0 < v))).min? with
        | none => .error .valueError
        | some m => normLoop identityOnZeros zeros signs fuel
            (vs1.map (fun v => if v = 0 then m * zeros else v))
      else .ok (some (List.zipWith (· * ·) vs1 signs))

/-- The part of `normalized` that works on the values (utils.py 339-379). -/
def normValues (identityOnZeros allowNeg : Bool) (zeros : ℚ) (w : List ℚ) :
    Except Err (List ℚ) :=
  if ¬ (∀ v ∈ w, 0 ≤ v) ∧ allowNeg = false then .error .valueError
  else
    match normLoop identityOnZeros zeros (w.map sign1) 2 (w.map (fun v => |v|)) with
    | .error e => .error e
    | .ok none => .ok w
    | .ok (some r) => .ok r

/-- Conversion to an integer dtype truncates towards zero. -/
def truncQ (q : ℚ) : ℤ := q.num.tdiv q.den

/-- `normalized` (utils.py 306-379).  A dict is a list of items with distinct keys. -/
def normalized {K : Type} (identityOnZeros allowNeg : Bool) (zeros : ℚ) :
    Dist K → Except Err (Dist K)
  | .list w => (normValues identityOnZeros allowNeg zeros w).map .list
  | .floatArray w => (normValues identityOnZeros allowNeg zeros w).map .floatArray
  | .intArray w =>
    (normValues identityOnZeros allowNeg zeros (w.map (fun v : ℤ => (v : ℚ)))).map
      (fun r => .intArray (r.map truncQ))
  | .dict w =>
    (normValues identityOnZeros allowNeg zeros (w.map Prod.snd)).map
      (fun r => .dict (List.zip (w.map Prod.fst) r))
  | .other => .error .typeError

/-! ## `pairwise`, `mapstr`, `setstr_int` -/

/-- The loop of `pairwise` (utils.py 41-46); `prev` is unset in the first round. -/
def pairwiseLoop {β : Type} : Option β → List β → List (β × β)
  | _, [] => []
  | none, e :: l => pairwiseLoop (some e) l
  | some p, e :: l => (p, e) :: pairwiseLoop (some e) l

/-- `pairwise`. -/
def pairwise {β : Type} (l : List β) : List (β × β) := pairwiseLoop none l

/-- `mapstr` (utils.py 79-93) on the formatted elements; `limit = 0` stands for no limit. -/
def mapstr {β : Type} (ellipse : β) (limit : ℕ) (l : List β) : List β :=
  if limit = 0 ∨ l.length ≤ limit then l
  else l.take (max (limit / 2) 1) ++ ellipse :: l.drop (l.length - limit / 2)

/-- The pieces of text `setstr_int` writes. -/
inductive Tok
  | num (n : ℤ)
  | dots
  | inner
  | outer
  deriving DecidableEq

/-- `sep.join(...)`. -/
def joinToks (sep : Tok) : List (List Tok) → List Tok
  | [] => []
  | [x] => x
  | x :: y :: l => x ++ sep :: joinToks sep (y :: l)

/-- The chunking loop of `setstr_int` (utils.py 121-129). -/
def chunkLoop : List (List ℤ) → List ℤ → List (ℤ × ℤ) → List (List ℤ)
  | chunks, chunk, [] => chunks ++ [chunk]
  | chunks, chunk, (a, b) :: ps =>
    if b = a + 1 then chunkLoop chunks (chunk ++ [b]) ps
    else chunkLoop (chunks ++ [chunk]) [b] ps

/-- The text of one chunk (utils.py 130-135). -/
def chunkText (c : List ℤ) : List Tok :=
  let s := mapstr Tok.dots 2 (c.map Tok.num)
  if s.length = 3 then joinToks Tok.inner (s.map fun t => [t])
  else joinToks Tok.outer (s.map fun t => [t])

/-- `setstr_int` (utils.py 111-136); the set is given by its elements in any order. -/
def setstrInt (s : List ℤ) : Except Err (List Tok) :=
  let elements := s.insertionSort (· ≤ ·)
  match elements with
  | [] => .error .indexError
  | e :: _ =>
    .ok (joinToks Tok.outer ((chunkLoop [] [e] (pairwise elements)).map chunkText))

/-! ## `list2intset` -/

/-- `list2intset` (utils.py 288-303). -/
def list2intset (bounds : List ℤ) : Except Err (List ℤ) :=
  match bounds with
  | [a, b] => .ok ((List.range (b + 1 - a).toNat).map fun i : ℕ => a + (i : ℤ))
  | _ => .error .valueError

/-! ## `RouletteWheelSampler` -/

/-- `np.cumsum`. -/
def cumsumFrom : ℚ → List ℚ → List ℚ
  | _, [] => []
  | acc, w :: l => (acc + w) :: cumsumFrom (acc + w) l

/-- A `RouletteWheelSampler`: the upper bounds, or `none` if they are all NaN. -/
structure Wheel (β : Type) where
  bounds : Option (List ℚ)
  elements : List β

/-- `__init__` (sampling.py 12-19).  Dividing non-negative weights by their sum 0 gives NaN. -/
def mkWheel {β : Type} (elements : List β) (weights : List ℚ) (normalize : Bool) :
    Except Err (Wheel β) :=
  if elements.length ≠ weights.length then .error .valueError
  else if normalize then
    let s := weights.sum
    if s = 0 ∧ weights ≠ [] then .ok ⟨none, elements⟩
    else .ok ⟨some (cumsumFrom 0 (weights.map (· / s))), elements⟩
  else .ok ⟨some (cumsumFrom 0 weights), elements⟩

/-- The `for` loop of `index` (sampling.py 31-33). -/
def firstBound (x : ℚ) : List ℚ → Option ℕ
  | [] => none
  | b :: l => if x ≤ b then some 0 else (firstBound x l).map (· + 1)

/-- `index` (sampling.py 24-33); `ok none` would be Python's implicit `None`. -/
def Wheel.index {β : Type} (w : Wheel β) (x : ℚ) : Except Err (Option ℕ) :=
  match w.bounds with
  | none => .error .indexError
  | some bs =>
    match bs.getLast? with
    | none => .error .indexError
    | some last => if ¬ (0 ≤ x ∧ x ≤ last) then .error .indexError else .ok (firstBound x bs)

/-- `__getitem__` (sampling.py 21-22). -/
def Wheel.get {β : Type} (w : Wheel β) (x : ℚ) : Except Err β :=
  match w.index x with
  | .error e => .error e
  | .ok none => .error .typeError
  | .ok (some i) =>
    match w.elements[i]? with
    | none => .error .indexError
    | some e => .ok e

end Verif.Ut
