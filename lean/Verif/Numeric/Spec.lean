import Verif.Intervals.Spec2
import Mathlib.Data.List.Count
import Mathlib.Algebra.Order.Field.Rat

/-! # What the properties of numeric distributions mean -/

namespace Verif.Num

/-- The empirical rank of `x` in a sample: the number of samples `≤ x`, except one, relative to the
number of samples except one (so that the least of distinct samples has rank 0 and the greatest has
rank 1). -/
def rank (sample : List ℤ) (x : ℤ) : ℚ :=
  ((sample.countP (fun v => decide (v ≤ x)) : ℚ) - 1) / ((sample.length : ℚ) - 1)

/-- `K` runs from `lo` to `hi` in strictly increasing order. -/
def RunsFromTo (K : List ℤ) (lo hi : ℤ) : Prop :=
  K.Pairwise (· < ·) ∧ K.head? = some lo ∧ K.getLast? = some hi

/-- On the floats between neighbours `a`, `b` of `K`, `F` is the straight line from `(a, F a)` to
`(b, F b)`. -/
def StraightBetween (val : ℤ → ℚ) (K : List ℤ) (F : ℤ → ℚ) : Prop :=
  ∀ (i : ℕ) (a b : ℤ), K[i]? = some a → K[i + 1]? = some b → ∀ n, a ≤ n → n ≤ b →
    (F n - F a) * (val b - val a) = (F b - F a) * (val n - val a)

/-- `(x, y)` lies on the graph through the points `(k, F k)` for `k` in `K`: on the straight line from
one point to the next. -/
def OnGraph (val : ℤ → ℚ) (K : List ℤ) (F : ℤ → ℚ) (x y : ℚ) : Prop :=
  ∃ (i : ℕ) (a b : ℤ), K[i]? = some a ∧ K[i + 1]? = some b ∧ val a ≤ x ∧ x ≤ val b ∧
    (y - F a) * (val b - val a) = (F b - F a) * (x - val a)

/-- The value of a cdf `F` at the lower end of an interval: at its least float, 0 if it has no lower
bound. -/
def LowEnd (F : ℤ → ℚ) (I : Iv.CS) (y : ℚ) : Prop :=
  (I.lower = .ninf ∧ y = 0) ∨
    ∃ a, I.Mem (.fin a) ∧ (∀ n, I.Mem (.fin n) → a ≤ n) ∧ y = F a

/-- The value of a cdf `F` at the upper end of an interval: at its greatest float, 1 if it has no upper
bound. -/
def HighEnd (F : ℤ → ℚ) (I : Iv.CS) (y : ℚ) : Prop :=
  (I.upper = .pinf ∧ y = 1) ∨
    ∃ b, I.Mem (.fin b) ∧ (∀ n, I.Mem (.fin n) → n ≤ b) ∧ y = F b

/-- `G` is the cdf of the distribution with cdf `F`, given the interval `I`, for `F` equal to `y0` and
`y1` at the ends of `I`. -/
structure Conditioned (F : ℤ → ℚ) (I : Iv.CS) (y0 y1 : ℚ) (G : ℤ → ℚ) : Prop where
  /-- nothing below `I` -/
  below : ∀ n, (∀ m, I.Mem (.fin m) → n < m) → G n = 0
  /-- everything up to the end of `I` -/
  above : ∀ n, I.upper ≠ .pinf → (∀ m, I.Mem (.fin m) → m ≤ n) → G n = 1
  inside : ∀ n, I.Mem (.fin n) → G n = (F n - y0) / (y1 - y0)

end Verif.Num
