import Verif.Common
import Verif.Swap
import Mathlib.Algebra.Order.Field.Rat

/-!
# Model of `src/jpt/base/cutils.pxd`: sorting, bisection, `linspace`

Memory is a function from addresses to entries.  `sort` moves a value array and a sample array in
lockstep (`swap` exchanges the same two positions in both), so an entry is the pair
`(Xf[i], samples[i])`.  Values are elements of a linear order: `NaN` is not modelled.
-/

namespace Verif.CU

variable {α β : Type} [LinearOrder α]

/-- `median3` (`cutils.pxd` 98-120) of the `n` entries from address `off` on. -/
def median3 (key : β → α) (a : ℕ → β) (off n : ℕ) : α :=
  let x := key (a off)
  let y := key (a (off + n / 2))
  let z := key (a (off + (n - 1)))
  if x < y then
    if y < z then y else if x < z then z else x
  else if y < z then
    if x < z then x else z
  else y

/-- The loop of the three-way partition in `introsort` (`cutils.pxd` 141-153).  `k` is `r - i`, so
`r = i + k`; the result is the new memory and the final `l` and `r`.  All indices are relative to
`off`. -/
def partition (key : β → α) (pivot : α) (off : ℕ) : (k : ℕ) → (a : ℕ → β) → (i l : ℕ) →
    (ℕ → β) × ℕ × ℕ
  | 0, a, i, l => (a, l, i)
  | k + 1, a, i, l =>
    if key (a (off + i)) < pivot then
      partition key pivot off k (swapAt a (off + i) (off + l)) (i + 1) (l + 1)
    else if key (a (off + i)) > pivot then
      partition key pivot off k (swapAt a (off + i) (off + (i + k))) i l
    else partition key pivot off k a (i + 1) l

/-- The loop of `sift_down` (`cutils.pxd` 164-191) on the entries from `off` on; `fuel` bounds the
number of iterations. -/
def siftDown (key : β → α) (off : ℕ) : (fuel : ℕ) → (a : ℕ → β) → (root stop : ℕ) → (ℕ → β)
  | 0, a, _, _ => a
  | fuel + 1, a, root, stop =>
    let child := root * 2 + 1
    let m1 := if child < stop ∧ key (a (off + root)) < key (a (off + child)) then child else root
    let m2 := if child + 1 < stop ∧ key (a (off + m1)) < key (a (off + (child + 1)))
      then child + 1 else m1
    if m2 = root then a
    else siftDown key off fuel (swapAt a (off + root) (off + m2)) m2 stop

/-- The first loop of `heapsort` (`cutils.pxd` 205-212): `start = s - 1, …, 0` (the loop body runs
for `start = (n-2)/2` down to 0, so `s = (n-2)/2 + 1`). -/
def heapify (key : β → α) (off n : ℕ) : (s : ℕ) → (a : ℕ → β) → (ℕ → β)
  | 0, a => a
  | s + 1, a => heapify key off n s (siftDown key off n a s n)

/-- The second loop of `heapsort` (`cutils.pxd` 215-219), for `end = e, …, 1`. -/
def shrink (key : β → α) (off n : ℕ) : (e : ℕ) → (a : ℕ → β) → (ℕ → β)
  | 0, a => a
  | e + 1, a =>
    shrink key off n e (siftDown key off n (swapAt a (off + 0) (off + (e + 1))) 0 (e + 1))

/-- `heapsort` (`cutils.pxd` 194-219). -/
def heapsort (key : β → α) (a : ℕ → β) (off n : ℕ) : ℕ → β :=
  shrink key off n (n - 1) (heapify key off n ((n - 2) / 2 + 1) a)

/-- `introsort` (`cutils.pxd` 123-161).  Every round of the loop and every recursive call decrements
`maxd`, so the loop on the right part is written as a second recursive call. -/
def introsort (key : β → α) : (maxd : ℕ) → (a : ℕ → β) → (off n : ℕ) → (ℕ → β)
  | 0, a, off, n => if n ≤ 1 then a else heapsort key a off n
  | d + 1, a, off, n =>
    if n ≤ 1 then a
    else
      let (a1, l, r) := partition key (median3 key a off n) off n a 0 0
      let a2 := introsort key d a1 off l
      introsort key d a2 (off + r) (n - r)

/-- `sort` (`cutils.pxd` 69-81): `maxd = 2 * <int> ld(n)`. -/
def sort (key : β → α) (a : ℕ → β) (n : ℕ) : ℕ → β :=
  if n = 0 then a else introsort key (2 * Nat.log2 n) a 0 n

/-- `_bisect` (`cutils.pxd` 232-251); `fuel` bounds the recursion. -/
def bisectAux (X : ℕ → α) (v : α) : (fuel : ℕ) → (lower upper : ℕ) → Except Err ℕ
  | 0, _, _ => .error .outOfFuel
  | fuel + 1, lower, upper =>
    if X lower ≥ v then .ok lower
    else if X upper ≤ v then .ok (upper + 1)
    else if lower + 1 = upper ∧ X lower < v ∧ v < X upper then .ok upper
    else
      let pivot := (lower + upper) / 2
      if X pivot < v then bisectAux X v fuel pivot upper else bisectAux X v fuel lower pivot

/-- `bisect` (`cutils.pxd` 254-262). -/
def bisect (X : ℕ → α) (v : α) (n : ℕ) : Except Err ℕ := bisectAux X v (n + 1) 0 (n - 1)

/-- The loop of `linspace` (`cutils.pxd` 314-317). -/
def linspaceLoop (space : ℚ) : ℕ → ℚ → List ℚ
  | 0, _ => []
  | k + 1, val => val :: linspaceLoop space k (val + space)

/-- `linspace` (`cutils.pxd` 293-318), with exact arithmetic. -/
def linspace (start stop : ℚ) (num : ℕ) : List ℚ :=
  if num = 1 then [(stop - start) / 2]
  else linspaceLoop ((stop - start) / ((num : ℚ) - 1)) num start

/-- `mean` (`cutils.pxd` 24-36), with exact arithmetic. -/
def mean (arr : List ℚ) : ℚ := (arr.foldl (· + ·) 0) / arr.length

end Verif.CU
