import Mathlib.Data.Rat.Defs
import Mathlib.Algebra.Order.Field.Rat
import Verif.Common

/-!
# Numbers with infinities
-/

namespace Verif

/-- A number or an infinity. -/
inductive XQ
  | ninf
  | fin (q : ℚ)
  | pinf
  deriving DecidableEq

namespace XQ

/-- `a ≤ b`. -/
def le : XQ → XQ → Bool
  | ninf, _ => true
  | _, pinf => true
  | fin a, fin b => decide (a ≤ b)
  | _, _ => false

/-- Apply a function to the finite numbers. -/
def map (f : ℚ → ℚ) : XQ → XQ
  | fin q => fin (f q)
  | x => x

theorem map_map (f g : ℚ → ℚ) (h : ∀ q, f (g q) = q) (x : XQ) : (x.map g).map f = x := by
  cases x <;> simp [map, h]

theorem map_le {f : ℚ → ℚ} (h : ∀ a b, a ≤ b → f a ≤ f b) {x y : XQ} (hxy : x.le y = true) :
    (x.map f).le (y.map f) = true := by
  cases x <;> cases y <;> simp_all [map, le]

end XQ

end Verif
