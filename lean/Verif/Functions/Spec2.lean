import Verif.Functions.Spec
import Mathlib.Analysis.SpecialFunctions.Integrals.Basic

/-!
# Functions of a real variable and areas

Areas are integrals of functions of a real variable (Mathlib's integral), so that the specification
does not depend on how the code sums up pieces.
-/

namespace Verif.Fun

open Iv Iv.FP

/-- The function of a real variable; an undefined function counts as 0. -/
noncomputable def Fn.real : Fn → ℝ → ℝ
  | .undef, _ => 0
  | .const v, _ => (v : ℝ)
  | .lin m c, x => (m : ℝ) * x + (c : ℝ)
  | .quad a b c, x => (a : ℝ) * x * x + (b : ℝ) * x + (c : ℝ)

/-- The real numbers between the bounds of a half-open interval `[a, b)`, `(-inf, b)`, `[a, inf)`. -/
def span (val : ℤ → ℚ) (i : CS) : Set ℝ :=
  {x | (∀ n, i.lower = fin n → (val n : ℝ) ≤ x) ∧ (∀ n, i.upper = fin n → x < (val n : ℝ)) ∧
    i.lower ≠ pinf ∧ i.upper ≠ ninf}

open Classical in
/-- The piecewise function as a function of a real variable: the value of the piece that contains
`x`, and 0 where there is no piece. -/
noncomputable def PF.real (val : ℤ → ℚ) : PF → ℝ → ℝ
  | [], _ => 0
  | s :: p, x => if x ∈ span val s.1 then s.2.real x else PF.real val p x

end Verif.Fun
