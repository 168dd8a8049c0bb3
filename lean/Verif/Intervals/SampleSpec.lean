import Verif.Intervals.Sample
import Verif.Intervals.Spec
import Mathlib.Algebra.BigOperators.Group.List.Basic

/-! # What sampling from and counting a number set mean -/

namespace Verif.Iv

open FP

/-- What `numpy.random.uniform` promises: a number between the bounds. -/
def Between (d : ℤ → ℤ → ℤ) : Prop := ∀ lo hi, lo ≤ hi → lo ≤ d lo hi ∧ d lo hi ≤ hi

/-- Some finite double lies in the interval. -/
def HasFloat (F : Floats) (s : CS) : Prop := ∃ n, F.fmin ≤ n ∧ n ≤ F.fmax ∧ s.Mem (fin n)

/-- No two finite doubles in the interval are so far apart that their difference is infinite. -/
def Small (F : Floats) (s : CS) : Prop := ∀ m n, F.fmin ≤ m → n ≤ F.fmax → s.Mem (fin m) → s.Mem (fin n) →
  F.val n - F.val m < F.lim

/-- Both bounds are finite. -/
def Bounded (s : CS) : Prop := ∃ a b, s.lower = fin a ∧ s.upper = fin b

/-- The length of an interval with finite bounds. -/
def len (F : Floats) (s : CS) : ℚ :=
  match s.lower, s.upper with
  | fin a, fin b => F.val b - F.val a
  | _, _ => 0

/-- The sum of the lengths. -/
def total (F : Floats) (l : List CS) : ℚ := (l.map (len F)).sum

/-- A number `numpy.random.uniform(0, b)` may return, where `b` is the total length (the number of intervals if all
are single points). -/
def Drawn (F : Floats) (l : List CS) (u : ℚ) : Prop :=
  0 ≤ u ∧ ((∀ s ∈ l, Bounded s) → u ≤ if total F l = 0 then (l.length : ℚ) else total F l)

end Verif.Iv
