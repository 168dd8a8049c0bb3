import Verif.Intervals.Model
import Verif.XQ
import Mathlib.Algebra.Order.Group.Abs

/-!
# Model of `ContinuousSet.linspace` (`intervals.pyx` 777-856)

Unlike in `Verif.Intervals.Model`, the bounds are numbers here, not positions in the list of all floats, since they are
added and divided.  How floats are rounded is a parameter.
-/

namespace Verif.Iv.Lin

/-- The float operations: `rd` rounds the exact result of an operation, `next x y` is `np.nextafter(x, y)`. -/
structure Ops where
  rd : ℚ → ℚ
  next : ℚ → ℚ → ℚ

/-- A `ContinuousSet` with numbers as bounds. -/
structure Box where
  lower : XQ
  upper : XQ
  left : Br
  right : Br

/-- The loop for bounded sets and half-lines (`intervals.pyx` 844-848), as the values in the order in which they are
computed. -/
def walk (N : Ops) (space : ℚ) : ℕ → ℚ → List ℚ
  | 0, _ => []
  | n + 1, v => v :: walk N space n (N.rd (v + space))

/-- Samples, position and value in the loop for all numbers; a sample that is not yet written is `none`. -/
structure Zig where
  samples : List (Option ℚ)
  pos : ℤ
  val : ℚ

/-- One round of the loop for all numbers (`intervals.pyx` 845-848 with `alternate = -1`). -/
def zigStep (N : Ops) (space : ℚ) (st : Zig) (i : ℕ) : Zig :=
  let pos := st.pos + i * (-1) ^ (i + 1)
  ⟨st.samples.set pos.toNat (some (if i % 2 = 1 then st.val else -st.val)), pos,
    if i % 2 = 0 ∨ st.val = 0 then N.rd (st.val + space) else st.val⟩

/-- The loop for all numbers (`intervals.pyx` 830-831, 844-848). -/
def zigzag (N : Ops) (space : ℚ) (num : ℕ) : List (Option ℚ) :=
  ((List.range num).foldl (zigStep N space)
    ⟨List.replicate num none, (num / 2 : ℕ) - (if num % 2 = 1 then 0 else 1), 0⟩).samples

/-- The last two statements (`intervals.pyx` 850-854): open bounds are avoided. -/
def ends (N : Ops) (s : Box) (xs : List ℚ) : List ℚ :=
  let xs := if s.left = .exc ∧ s.lower ≠ .ninf then xs.modify 0 (fun x => N.next x (N.rd (x + 1))) else xs
  if s.right = .exc ∧ s.upper ≠ .pinf then xs.modify (xs.length - 1) (fun x => N.next x (N.rd (x - 1))) else xs

/-- `linspace` (`intervals.pyx` 777-856); `empty` is `self.isempty()`.  Simplifications: `default_step` is positive for
the set of all numbers; a sample that is not written is 0; without samples (`num = 0`) the code writes outside the array
if a bound is open, and returns no samples otherwise; sets with `inf` as lower or `-inf` as upper bound are not modelled. -/
def linspace (N : Ops) (s : Box) (empty : Bool) (num : ℕ) (step : ℚ := 1) : Except Err (List ℚ) :=
  if empty then .error .indexError
  else
    let loop (space start : ℚ) : List ℚ :=
      if space < 0 then (walk N space num start).reverse else walk N space num start
    match s.lower, s.upper with
    | .ninf, .pinf => .ok (ends N s (if num = 1 then [0] else (zigzag N step num).map (fun x => x.getD 0)))
    | .ninf, .fin b => .ok (ends N s (if num = 1 then [b] else loop (-step) b))
    | .fin a, .pinf => .ok (ends N s (if num = 1 then [a] else loop step a))
    | .fin a, .fin b =>
      .ok (ends N s (if num = 1 then [N.rd (N.rd (b + a) / 2)] else loop (N.rd (|N.rd (b - a)| / (num - 1))) a))
    | _, _ => .error .notImplemented

/-- Rounding to the 53 bits of a double (half to even), for numbers that neither overflow nor are subnormal. -/
def dbl (x : ℚ) : ℚ :=
  if x = 0 then 0
  else
    let e : ℤ := (Nat.log2 x.num.natAbs : ℤ) - Nat.log2 x.den
    let e := if |x| < (2 : ℚ) ^ e then e - 1 else e
    let ulp := (2 : ℚ) ^ (e - 52)
    let q := x / ulp
    let f := q.floor
    let r := q - (f : ℚ)
    let g : ℤ := if r < 1 / 2 then f else if 1 / 2 < r then f + 1 else if f % 2 = 0 then f else f + 1
    (g : ℚ) * ulp

end Verif.Iv.Lin
