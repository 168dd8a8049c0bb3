import Verif.Functions.Knots
import Verif.Functions.Spec
import Verif.Intervals.Spec2

/-! # Polylines -/

namespace Verif.Fun

open Iv Iv.FP

namespace PF

/-- A continuous function made of finitely many lines and constants on bounded intervals `[a, b)` that follow upon one
another without gaps. -/
structure Polyline (val : ℤ → ℚ) (p : PF) : Prop where
  nonempty : p ≠ []
  bounded : ∀ s ∈ p, ∃ a b : ℤ, a < b ∧ s.1 = ⟨fin a, fin b, .inc, .exc⟩
  straight : ∀ s ∈ p, (∃ v, s.2 = .const v) ∨ ∃ m c, s.2 = .lin m c
  continuous : p.IsChain (fun s t => s.1.upper = t.1.lower ∧ ∀ b, s.1.upper = fin b → s.2.eval (val b) = t.2.eval (val b))

/-- Half-open intervals that follow upon one another without gaps. -/
structure Contiguous (p : PF) : Prop where
  halfOpen : ∀ s ∈ p, s.1.HalfOpen
  adjacent : p.IsChain (fun s t => s.1.upper = t.1.lower)

end PF

end Verif.Fun
