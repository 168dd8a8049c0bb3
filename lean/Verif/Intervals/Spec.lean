import Verif.Intervals.Model

/-!
# What the interval properties mean

An interval stands for the set of floats between its bounds; a `RealSet` for the union of its
intervals.  Nothing here refers to a method of the modelled classes.
-/

namespace Verif.Iv

/-- `x` lies in the interval: between the bounds, a bound itself only where the flag says so. -/
def CS.Mem (s : CS) (x : FP) : Prop :=
  (s.lower < x ∨ s.lower = x ∧ s.left = .inc) ∧ (x < s.upper ∨ x = s.upper ∧ s.right = .inc)

/-- `x` lies in one of the intervals. -/
def RS.Mem (l : List CS) (x : FP) : Prop := ∃ s ∈ l, s.Mem x

/-- `x` lies in the set. -/
def NS.Mem : NS → FP → Prop
  | .cs c, x => c.Mem x
  | .rs l, x => RS.Mem l x

/-- The constructor accepts these bounds: `lower ≤ upper`. -/
def CS.WF (s : CS) : Prop := s.lower ≤ s.upper

/-- The interval does not contain `±inf` and is not a set made of infinities only: an infinite bound
is open, as in `R` and in the intervals of a tree. -/
def CS.Reg (s : CS) : Prop :=
  s.lower ≠ .pinf ∧ s.upper ≠ .ninf ∧ (s.lower = .ninf → s.left = .exc) ∧
    (s.upper = .pinf → s.right = .exc)

/-- No point in common. -/
def CS.Disjoint (a b : CS) : Prop := ∀ x, ¬ (a.Mem x ∧ b.Mem x)

/-- The denotations agree. -/
def NS.Same (a : NS) (P : FP → Prop) : Prop := ∀ x, a.Mem x ↔ P x

/-- Every interval of a `NumberSet`. -/
def NS.All (P : CS → Prop) : NS → Prop
  | .cs c => P c
  | .rs l => ∀ s ∈ l, P s

/-- Intervals in order of their points: nothing in `b` lies below everything in `a`. -/
def CS.NotBelow (a b : CS) : Prop := ∀ y, b.Mem y → (∃ x, a.Mem x) → ∃ x, a.Mem x ∧ x ≤ y

/-- Every point of `a` lies below every point of `b`. -/
def RS.Before (a b : CS) : Prop := ∀ x y, a.Mem x → b.Mem y → x < y

/-- Valid, regular intervals. -/
abbrev RS.Good (s : CS) : Prop := s.WF ∧ s.Reg

/-- No bound of one of the intervals is the float directly after a bound of another one (0 counts as
a bound because of the canonical empty set). -/
def RS.Spaced (l : List CS) : Prop :=
  ∀ a b, (a = .fin 0 ∨ ∃ s ∈ l, a = s.lower ∨ a = s.upper) →
    (b = .fin 0 ∨ ∃ s ∈ l, b = s.lower ∨ b = s.upper) → a.up = b → a = b

instance (s : CS) (x : FP) : Decidable (s.Mem x) := by unfold CS.Mem; infer_instance
instance (l : List CS) (x : FP) : Decidable (RS.Mem l x) := by unfold RS.Mem; infer_instance
instance (s : CS) : Decidable s.WF := by unfold CS.WF; infer_instance
instance (s : CS) : Decidable s.Reg := by unfold CS.Reg; infer_instance
instance : (a : NS) → (x : FP) → Decidable (a.Mem x)
  | .cs c, x => inferInstanceAs (Decidable (c.Mem x))
  | .rs l, x => inferInstanceAs (Decidable (RS.Mem l x))

end Verif.Iv
