import Verif.Functions.Levels

/-!
# What the solutions of `f(x) = y`, `f(x) < y` and `f(x) > y` are

Independent of the loops in `Verif.Functions.Levels`.
-/

namespace Verif.Fun.LF

open Vars (RI)
open Trees (RIMem)
open Iv (Br)

/-- The function has the value `v` at `x`. -/
def Has (p : LF) (x v : ℚ) : Prop := ∃ s ∈ p, RIMem s.1 (.fin x) ∧ s.2.eval x = some v

/-- `x` is in one of the intervals. -/
def In (l : List RI) (x : ℚ) : Prop := ∃ i ∈ l, RIMem i (.fin x)

/-- The pieces cover everything from `b` on, one after the other without gaps: each includes its lower bound and excludes
its upper bound, which is the lower bound of the next; the last has no end. -/
def From (b : XQ) : LF → Prop
  | [] => b = .pinf
  | s :: p => s.1.lower = b ∧ b < s.1.upper ∧ s.1.left = (if b = .ninf then .exc else .inc) ∧ s.1.right = .exc ∧
      From s.1.upper p

/-- Neighbouring pieces agree at the bound between them: no jumps. -/
def Joined : LF → Prop
  | [] => True
  | s :: p => (∀ t ∈ p.head?, ∀ b, s.1.upper = .fin b → s.2.eval b = t.2.eval b) ∧ Joined p

/-- The pieces are constants and proper lines. -/
def Lines (p : LF) : Prop := ∀ s ∈ p, (∃ v, s.2 = .const v) ∨ ∃ m c, m ≠ 0 ∧ s.2 = .lin m c

/-- The function does not take the value `y` at the bounds between the pieces, where it may turn. -/
def Misses (p : LF) (y : ℚ) : Prop := ∀ s ∈ p, ∀ b, s.1.lower = .fin b → s.2.eval b ≠ some y

/-- The piece `t`, which follows a piece with function `g`, begins at `x`, where the function jumps over `y`; and `y` is no
value of `t`. -/
def JumpAt (g : Fn) (t : RI × Fn) (y x : ℚ) : Prop :=
  t.1.lower = .fin x ∧ (∃ u v, g.eval x = some u ∧ t.2.eval x = some v ∧ (u < y ∧ y < v ∨ v < y ∧ y < u)) ∧
    ∀ z, RIMem t.1 (.fin z) → t.2.eval z ≠ some y

end Verif.Fun.LF
