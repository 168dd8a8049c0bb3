import Verif.Trees.Sampling

/-!
# Specification of sampling from a tree
-/

namespace Verif.Trees

/-- The random numbers of one row: the one for the leaf, and for each variable a piece and a number. -/
abbrev Draw := ℚ × (ℕ → ℕ × ℚ)

/-- What the random number generator may return for a row; the number 0, which has probability zero, is left out for
the variables, see `C86_violated_zero`. -/
def Draw.OK (n : ℕ) (w : Draw) : Prop := 0 ≤ w.1 ∧ w.1 < 1 ∧ ∀ v < n, 0 < (w.2 v).2 ∧ (w.2 v).2 ≤ 1

/-- A box in the unit cube of random numbers: an interval for the leaf and one for each variable. -/
abbrev Box := (ℚ × ℚ) × (ℕ → ℚ × ℚ)

/-- The numbers lie in the box. -/
def Box.Mem (n : ℕ) (b : Box) (w : Draw) : Prop :=
  b.1.1 ≤ w.1 ∧ w.1 < b.1.2 ∧ ∀ v < n, (b.2 v).1 < (w.2 v).2 ∧ (w.2 v).2 ≤ (b.2 v).2

/-- Its volume. -/
def Box.volume (n : ℕ) (b : Box) : ℚ :=
  (b.1.2 - b.1.1) * ((List.range n).map (fun v => (b.2 v).2 - (b.2 v).1)).prod

/-- It is a part of the unit cube. -/
def Box.OK (n : ℕ) (b : Box) : Prop :=
  0 ≤ b.1.1 ∧ b.1.1 ≤ b.1.2 ∧ b.1.2 ≤ 1 ∧ ∀ v < n, 0 ≤ (b.2 v).1 ∧ (b.2 v).1 ≤ (b.2 v).2 ∧ (b.2 v).2 ≤ 1

end Verif.Trees
