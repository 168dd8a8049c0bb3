import Verif.Functions.Model
import Verif.Intervals.Spec2
import Mathlib.Order.Monotone.Defs

/-!
# What the properties of functions mean

Nothing here refers to a method of the modelled classes, except the value `Fn.eval` of a constant,
linear or quadratic expression.
-/

namespace Verif.Fun

open Iv Iv.FP

/-- An operation on numbers, extended to "undefined" (NaN): the result is defined iff both operands
are. -/
def nanOp (op : ℚ → ℚ → ℚ) : Option ℚ → Option ℚ → Option ℚ
  | some a, some b => some (op a b)
  | _, _ => none

namespace PF

/-- No two pieces have a float in common. -/
def Disj (p : PF) : Prop := p.Pairwise (fun s t => s.1.Disjoint t.1)

/-- `v` is the value at `x` of a piece that contains the `n`-th float (whose number is `x = val n`);
`none` for a piece that is explicitly undefined. -/
def Value (val : ℤ → ℚ) (p : PF) (n : ℤ) (v : Option ℚ) : Prop :=
  ∃ s ∈ p, s.1.Mem (fin n) ∧ s.2.eval (val n) = v

/-- Some piece contains the `n`-th float. -/
def Covers (p : PF) (n : ℤ) : Prop := ∃ s ∈ p, s.1.Mem (fin n)

/-- A piece in the form in which piecewise functions are built throughout the code: `[a, b)` with
`a < b`, or `(-inf, b)`, where `b` may be `+inf`. -/
abbrev Norm (i : CS) : Prop := i.HalfOpen

end PF

end Verif.Fun
