import Mathlib.Analysis.SpecialFunctions.Integrals.Basic
import Verif.Numeric.Tiles

/-! # Moments of a distribution that is uniform between neighbouring knots -/

namespace Verif.Num

/-- The contribution of the gaps between neighbouring knots `K` to the moment of order `r` around `c`: between the
knots `a` and `b`, which are the numbers `x a` and `x b`, lies the mass `F b - F a`, spread evenly. -/
noncomputable def gapMoments (x : ℤ → ℝ) (F : ℤ → ℝ) (c : ℝ) (r : ℕ) : List ℤ → ℝ
  | a :: b :: K => (F b - F a) / (x b - x a) * (∫ t in (x a)..(x b), (t - c) ^ r) + gapMoments x F c r (b :: K)
  | _ => 0

/-- The moment of order `r` around `c`: the mass on the first knot and that between the knots. -/
noncomputable def momentOf (x : ℤ → ℝ) (F : ℤ → ℝ) (c : ℝ) (r : ℕ) (K : List ℤ) : ℝ :=
  (K.head?.map (fun a => F a * (x a - c) ^ r)).getD 0 + gapMoments x F c r K

open Iv Iv.FP Fun

/-- A cdf that is 0 before its first knot, then constant or increasing between its knots, and constant at the end. -/
def Cdf (p : PF) : Prop := ∃ (L : List (ℤ × Fn)) (z : ℤ) (v : ℚ), p = tile ninf (.const 0) (L ++ [(z, .const v)]) pinf ∧
  (L ++ [(z, Fn.const v)]).Pairwise (fun s t => s.1 < t.1) ∧
  ∀ s ∈ L, (∃ v, s.2 = .const v) ∨ ∃ m c, s.2 = .lin m c ∧ 0 < m

/-- What a piece that holds a single float would contribute to a moment: its density, in labels, times the integral of
the power over it.  `moment` leaves such pieces out. -/
def lostPiece (val : ℤ → ℚ) (lab : ℚ → ℚ) (order : ℕ) (c : ℚ) (s : CS × Fn) : ℚ := match s.2, s.1.lower, s.1.upper with
  | .lin m _, fin a, fin b => if b = a + 1 then m * (val b - val a) / (lab (val b) - lab (val a)) *
      (((lab (val b) - c) ^ (order + 1) - (lab (val a) - c) ^ (order + 1)) / (order + 1)) else 0
  | _, _, _ => 0

/-- What the pieces that hold a single float would contribute to a moment. -/
def lost (val : ℤ → ℚ) (lab : ℚ → ℚ) (order : ℕ) (c : ℚ) (p : PF) : ℚ := (p.map (lostPiece val lab order c)).sum

end Verif.Num
