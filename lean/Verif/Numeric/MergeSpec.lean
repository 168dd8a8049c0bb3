import Verif.Numeric.Tiles
import Mathlib.Algebra.BigOperators.Group.List.Defs

/-! # What merging cdfs means -/

namespace Verif.Num

open Iv Iv.FP Fun

/-- By how much a linear piece `[a, b)` has risen at the float `n`. -/
def climb (val : ℤ → ℚ) (n : ℤ) (s : CS × Fn) : ℚ := match s.2, s.1.lower, s.1.upper with
  | .lin m _, fin a, fin b => if n < a then 0 else m * (val (min n b) - val a)
  | _, _, _ => 0

/-- By how much a cdf has risen at the float `n`, jumps not counted; a cdf of two pieces is the one of a
single value, which rises by 1 at that value. -/
def mass (val : ℤ → ℚ) (p : PF) (n : ℤ) : ℚ := match p with
  | [s, _] => (match s.1.upper with
    | fin k => if k ≤ n then 1 else 0
    | _ => 0)
  | p => (p.map (climb val n)).sum

/-- `∑ w_i · mass_i`. -/
def mixture (val : ℤ → ℚ) (dw : List (PF × ℚ)) (n : ℤ) : ℚ := (dw.map (fun d => d.2 * mass val d.1 n)).sum

/-- The pieces are constant, or linear and increasing between two floats; if there are just two, they are
constant and separated by a float. -/
structure Mergeable (p : PF) : Prop where
  pieces : ∀ s ∈ p, (∃ v, s.2 = .const v) ∨
    ∃ m c a b, s.2 = .lin m c ∧ 0 < m ∧ s.1.lower = fin a ∧ s.1.upper = fin b ∧ a < b
  step : ∀ s t, p = [s, t] → (∃ k, s.1.upper = fin k) ∧ (∃ v, s.2 = .const v) ∧ ∃ v, t.2 = .const v

/-- A cdf to be merged: what is stored, its values, how far it may be missed, its weight. -/
structure Part where
  cdf : PF
  F : ℤ → ℚ
  over : ℚ
  w : ℚ

/-- The mixture `∑ w F`. -/
def blend (parts : List Part) (n : ℤ) : ℚ := (parts.map (fun q => q.w * q.F n)).sum

/-- `∑ w`. -/
def wsum (parts : List Part) : ℚ := (parts.map (·.w)).sum

/-- `∑ w over`. -/
def osum (parts : List Part) : ℚ := (parts.map (fun q => q.w * q.over)).sum

/-- A continuous cdf, or the cdf of a single value: zero before the first of its increasing knots, then
constant or increasing lines, at the end 1. -/
structure Regular (val : ℤ → ℚ) (q : Part) : Prop where
  knots : ∃ L : List (ℤ × Fn), q.cdf = tile ninf (.const 0) L pinf ∧ L.Pairwise (fun s t => s.1 < t.1) ∧
    (∀ s ∈ L, (∃ v, s.2 = .const v) ∨ ∃ m c, s.2 = .lin m c ∧ 0 < m) ∧
    (∃ z, L.getLast? = some (z, .const 1)) ∧
    (L.length = 1 ∨ ∀ s ∈ L, (tileAt (.const 0) L (s.1 - 1)).eval (val s.1) = s.2.eval (val s.1))
  values : ∀ n, q.cdf.eval val n = .ok (some (q.F n))

/-- A fitted cdf.  For a single value, nothing is missed.  Otherwise the least sample `lo` occurs once; `k`
is at least the last sample before the greatest one `hi`, and what may be missed is a line from `k` to `hi`
after one more float. -/
inductive IsFit (val : ℤ → ℚ) (eps : ℚ) (q : Part) : Prop
  | single (data : List ℤ) (x : ℤ) (hfit : fit val eps data none none = .ok q.cdf)
      (values : ∀ n, q.cdf.eval val n = .ok (some (q.F n))) (mem : x ∈ data) (all : ∀ y ∈ data, y = x)
      (over : q.over = 0)
  | line (data : List ℤ) (lo k hi : ℤ) (hfit : fit val eps data none none = .ok q.cdf)
      (values : ∀ n, q.cdf.eval val n = .ok (some (q.F n))) (hlo : lo ∈ data) (once : data.count lo = 1)
      (hhi : hi ∈ data) (hlok : lo ≤ k) (hk : k < hi) (all : ∀ x ∈ data, lo ≤ x ∧ (x ≤ k ∨ x = hi))
      (over : q.over = (val (hi + 1) - val hi) / (val hi - val k))

end Verif.Num
