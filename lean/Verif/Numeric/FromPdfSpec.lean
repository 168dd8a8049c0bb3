import Verif.Numeric.Query
import Verif.Numeric.Tiles

/-! # What integrating a density and closing gaps mean -/

namespace Verif.Num

open Iv Iv.FP Fun

/-- The density that is `v` from `lo` on up to the first knot, then the value of that knot, and so on. -/
def stepDens (lo : FP) (v : ℚ) : List (ℤ × ℚ) → Dens
  | [] => [(⟨lo, pinf, brOf lo, .exc⟩, .fin v)]
  | (k, w) :: r => (⟨lo, fin k, brOf lo, .exc⟩, .fin v) :: stepDens (fin k) w r

/-- The area under the density with the knots `K`, from the first of them up to the `n`-th float. -/
def area (val : ℤ → ℚ) (n : ℤ) : List (ℤ × ℚ) → ℚ
  | (k, v) :: (k', v') :: r => v * (val (max k (min n k')) - val k) + area val n ((k', v') :: r)
  | _ => 0

/-- The area under the density with the knots `K`. -/
def areaAll (val : ℤ → ℚ) : List (ℤ × ℚ) → ℚ
  | (k, v) :: (k', v') :: r => v * (val k' - val k) + areaAll val ((k', v') :: r)
  | _ => 0

/-- The cdf of the uniform distribution between two floats. -/
def ramp (val : ℤ → ℚ) (a b n : ℤ) : ℚ :=
  if n ≤ a then 0 else if b ≤ n then 1 else (val n - val a) / (val b - val a)

/-- Where the gap begins that a path leaves below the least value `lo` of a leaf; `lo` if there is none. -/
def gapFrom (path : CS) (lo : ℤ) : ℤ := match path.lower with
  | fin a => min a lo
  | _ => lo

/-- Where the gap ends that a path leaves above the values of a leaf, which end before `hi`; `hi` if there is none. -/
def gapTo (path : CS) (hi : ℤ) : ℤ := match path.upper with
  | fin b => max b hi
  | _ => hi

/-- How much of the probability for the gaps each of the gaps `[a, lo]` and `[hi, b]` gets. -/
def share (a lo hi b : ℤ) : ℚ := if a < lo ∧ hi < b then 1 / 2 else 1

/-- The cdf of the distribution that is uniform on each gap. -/
def gapCdf (val : ℤ → ℚ) (a lo hi b n : ℤ) : ℚ :=
  (if a < lo then share a lo hi b * ramp val a lo n else 0) + (if hi < b then share a lo hi b * ramp val hi b n else 0)

end Verif.Num
