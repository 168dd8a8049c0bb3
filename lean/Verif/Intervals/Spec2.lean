import Verif.Intervals.Spec

/-! # Half-open intervals -/

namespace Verif.Iv
open FP

/-- `[a, b)` with `a < b`, or `(-inf, b)`, where `b` may be `+inf`: the form of the pieces of a
piecewise function and of the intervals in a tree. -/
def CS.HalfOpen (i : CS) : Prop :=
  i.lower < i.upper ∧ i.right = .exc ∧
    (i.lower = ninf ∧ i.left = .exc ∨ i.lower ≠ ninf ∧ i.left = .inc)

instance (i : CS) : Decidable i.HalfOpen := by unfold CS.HalfOpen; infer_instance

/-- A half-open interval or the canonical empty set. -/
def CS.HalfOpenOrEmpty (i : CS) : Prop := i.HalfOpen ∨ i = .emptyset

end Verif.Iv
