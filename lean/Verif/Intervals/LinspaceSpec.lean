import Verif.Intervals.Linspace

/-! # What evenly spaced points are -/

namespace Verif.Iv.Lin

/-- `x` lies between the bounds, and on a bound only if it is included. -/
def Box.Inside (s : Box) (x : ℚ) : Prop :=
  (∀ a, s.lower = .fin a → a < x ∨ a = x ∧ s.left = .inc) ∧ (∀ b, s.upper = .fin b → x < b ∨ x = b ∧ s.right = .inc)

/-- Computing without rounding errors. -/
def Ops.Exact (N : Ops) : Prop := ∀ x, N.rd x = x

end Verif.Iv.Lin
