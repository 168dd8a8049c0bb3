import Verif.Numeric.Spec

/-! # The graph of a cdf, extended beyond its ends -/

namespace Verif.Num

/-- `(x, y)` lies on the graph through the points `(k, F k)` for `k` in `K`, whose first and last lines are extended beyond
their ends. -/
def OnExtended (val : ℤ → ℚ) (K : List ℤ) (F : ℤ → ℚ) (x y : ℚ) : Prop :=
  ∃ (i : ℕ) (a b : ℤ), K[i]? = some a ∧ K[i + 1]? = some b ∧ (i = 0 ∨ val a ≤ x) ∧ (K[i + 2]? = none ∨ x ≤ val b) ∧
    (y - F a) * (val b - val a) = (F b - F a) * (x - val a)

end Verif.Num
