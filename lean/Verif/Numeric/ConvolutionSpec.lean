import Verif.Functions.Spec2
import Verif.Numeric.Tiles

/-!
# What a convolution should be
-/

namespace Verif.Fun.PF

open Iv Iv.FP MeasureTheory

/-- The convolution of two functions of a real variable. -/
noncomputable def conv (f g : ℝ → ℝ) (z : ℝ) : ℝ := ∫ y, f y * g (z - y)

/-- The step function with the knots `(k, v)`: 0 up to the first knot, `v` from the knot `k` up to the next one, and the
last value to the right of the last knot. -/
def stepFn (L : List (ℤ × ℚ)) : PF := Num.tile ninf (.const 0) (L.map (fun s => (s.1, .const s.2))) pinf

/-- Increasing knots, the last value is 0: a step function with a bounded support. -/
def IsBump (L : List (ℤ × ℚ)) : Prop :=
  L.Pairwise (fun s t => s.1 < t.1) ∧ L.getLast?.map Prod.snd = some 0

/-- A single step whose width is at most two floats. -/
def Narrow (L : List (ℤ × ℚ)) : Prop := ∃ a b v w, L = [(a, v), (b, w)] ∧ b ≤ a + 2

/-- The total variation of a step function that starts with the value `p`. -/
def variation : ℚ → List (ℤ × ℚ) → ℚ
  | _, [] => 0
  | p, (_, v) :: r => |v - p| + variation v r

end Verif.Fun.PF
