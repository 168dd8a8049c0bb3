import Mathlib.Algebra.Order.Ring.Rat
import Mathlib.Algebra.BigOperators.Group.List.Basic

/-! # Weighted mean and covariance of a list of points -/

namespace Verif.Gau

/-- Points with their weights. -/
abbrev Pts (d : ℕ) := List ((Fin d → ℚ) × ℚ)

/-- `∑ w`. -/
def total {d : ℕ} (ps : Pts d) : ℚ := (ps.map (fun p => p.2)).sum

/-- `∑ w² / (∑ w)²`. -/
def share {d : ℕ} (ps : Pts d) : ℚ := (ps.map (fun p => p.2 ^ 2)).sum / total ps ^ 2

/-- The weighted mean; 0 if there are no points. -/
def bmean {d : ℕ} (ps : Pts d) (i : Fin d) : ℚ := (ps.map (fun p => p.2 * p.1 i)).sum / total ps

/-- `∑ w (x_j - mean_j) (x_k - mean_k)`. -/
def scatter {d : ℕ} (ps : Pts d) (j k : Fin d) : ℚ :=
  (ps.map (fun p => p.2 * (p.1 j - bmean ps j) * (p.1 k - bmean ps k))).sum

/-- The covariance for reliability weights, which for equal weights is the sample covariance with divisor
`n - 1`; 0 if there are less than two points. -/
def bcov {d : ℕ} (ps : Pts d) (j k : Fin d) : ℚ := scatter ps j k / (total ps * (1 - share ps))

end Verif.Gau
