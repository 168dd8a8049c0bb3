import Mathlib.Order.Defs.LinearOrder
import Verif.Common

/-!
# The float line

Interval bounds are IEEE doubles.  The interval code only compares them, negates them and moves to
the neighbouring float (`numpy.nextafter`, `Epsilon` in `base/constants.py` 88-101).  So a float is
modelled by its position on the line of doubles: `-inf`, the `n`-th finite float, or `+inf`.

Simplifications: there is no NaN; there is no largest finite float; `x + eps` is always the next
float (for `|x| ≥ 2^53` the real code's `nextafter(x, x + 1)` may return `x` itself).
-/

namespace Verif.Iv

/-- A double, by position: `fin 0` is `0.0`, `fin 1` the smallest positive double, and so on.
(`-0.0` and `0.0` compare equal and are identified.) -/
inductive FP
  | ninf
  | fin (n : Int)
  | pinf
deriving DecidableEq, Repr

namespace FP

/-- `a ≤ b` on floats. -/
def leb : FP → FP → Bool
  | ninf, _ => true
  | _, pinf => true
  | fin a, fin b => decide (a ≤ b)
  | _, _ => false

instance : LE FP := ⟨fun a b => leb a b = true⟩
instance : LT FP := ⟨fun a b => leb b a = false⟩
instance (a b : FP) : Decidable (a ≤ b) := inferInstanceAs (Decidable (leb a b = true))
instance (a b : FP) : Decidable (a < b) := inferInstanceAs (Decidable (leb b a = false))

theorem le_def (a b : FP) : (a ≤ b) = (leb a b = true) := rfl
theorem lt_def (a b : FP) : (a < b) = (leb b a = false) := rfl

instance : LinearOrder FP where
  le_refl a := by cases a <;> simp [le_def, leb]
  le_trans a b c := by
    cases a <;> cases b <;> cases c <;> simp [le_def, leb]; omega
  lt_iff_le_not_ge a b := by
    cases a <;> cases b <;> simp [le_def, lt_def, leb]; omega
  le_antisymm a b := by
    cases a <;> cases b <;> simp [le_def, leb]; omega
  le_total a b := by
    cases a <;> cases b <;> simp [le_def, leb]; omega
  toDecidableLE := inferInstance
  toDecidableEq := inferInstance
  toDecidableLT := inferInstance

/-- `x + eps = numpy.nextafter(x, x + 1)` (`base/constants.py` 88-101, `intervals.pyx` 1119).
`nextafter(±inf, ±inf)` returns its argument. -/
def up : FP → FP
  | ninf => ninf
  | fin n => fin (n + 1)
  | pinf => pinf

/-- `x - eps = numpy.nextafter(x, x - 1)`. -/
def dn : FP → FP
  | ninf => ninf
  | fin n => fin (n - 1)
  | pinf => pinf

/-- `-x`. -/
def neg : FP → FP
  | ninf => pinf
  | fin n => fin (-n)
  | pinf => ninf

/-- `numpy.isinf(x)`. -/
def isInf : FP → Bool
  | fin _ => false
  | _ => true

end FP
end Verif.Iv
