import Verif.Vars.Bind
import Verif.Trees.Region

/-!
# What the user means by a binding
-/

namespace Verif.Vars

open Trees (RIMem)

/-- The key refers to the variable: by the object or by its name. -/
def Named (vs : List (Var Domain)) (k : Key Domain) (v : Var Domain) : Prop :=
  k = .var v ∨ k = .name v.name ∧ v ∈ vs

/-- A lower and an upper bound; `None` is no bound. -/
def Between (lo hi : Option Atom) (x : XQ) : Prop :=
  (∀ l, lo = some (.num l) → l ≤ x) ∧ (∀ u, hi = some (.num u) → x ≤ u)

/-- Numbers: a number stands for itself, a list of two for all numbers from the first to the second. -/
def UArg.DescribesNum : UArg → XQ → Prop
  | .atom b, x => b = .num x
  | .list [lo, hi], x => Between lo hi x
  | .cs c, x => RIMem c x
  | .rs l, x => ∃ c ∈ l, RIMem c x
  | _, _ => False

/-- Symbols: lists and sets stand for their elements. -/
def UArg.DescribesSym : UArg → Atom → Prop
  | .atom b, a => a = b
  | .list l, a => some a ∈ l
  | .set l, a => a ∈ l
  | _, _ => False

/-- Integers: a list of two stands for all integers from the first to the second, a set for its elements. -/
def UArg.DescribesInt : UArg → Atom → Prop
  | .atom b, a => a = b
  | .list [lo, hi], a => ∃ z : ℤ, a = .int z ∧ Between lo hi (.fin z)
  | .set l, a => a ∈ l
  | _, _ => False

/-- The label `a` of a variable is one of those the user describes. -/
def UArg.Describes (d : Domain) (u : UArg) (a : Atom) : Prop :=
  match d with
  | .numeric _ | .scaled _ _ _ => ∃ x, a = .num x ∧ u.DescribesNum x
  | .symbolic _ _ => u.DescribesSym a
  | .integer _ _ _ => u.DescribesInt a

/-- The label is one of those of an assignment. -/
def Val.Has : Val → Atom → Prop
  | .ev (.atom b), a => a = b
  | .ev (.set l), a => a ∈ l
  | .cs c, a => ∃ x, a = .num x ∧ RIMem c x
  | .rs l, a => ∃ x, a = .num x ∧ ∃ c ∈ l, RIMem c x
  | _, _ => False

/-- Numbers, and bounds in the right order. -/
def UArg.AcceptsNum : UArg → Prop
  | .atom (.num _) => True
  | .list [lo, hi] => (∀ s, lo ≠ some (.str s)) ∧ (∀ s, hi ≠ some (.str s)) ∧
      ∀ l u, (lo = some (.num l) ∨ lo = Option.none ∧ l = .ninf) → (hi = some (.num u) ∨ hi = Option.none ∧ u = .pinf) →
        l ≤ u
  | .cs _ => True
  | .rs l => ∀ c ∈ l, c.lower ≤ c.upper
  | _ => False

/-- Integers that `range` accepts. -/
def IsInt (a : Option Atom) : Prop := ∃ z : ℤ, a = some (.int z)

/-- What a user may bind to a variable. -/
def UArg.Accepts (d : Domain) (u : UArg) : Prop :=
  match d with
  | .numeric _ | .scaled _ _ _ => u.AcceptsNum
  | .symbolic _ labels => match u with
    | .atom a => a ∈ labels
    | .list l => ∀ a ∈ l, ∃ b ∈ labels, a = some b
    | .set l => ∀ a ∈ l, a ∈ labels
    | _ => False
  | .integer _ _ _ => match u with
    | .atom _ => True
    | .list l => l.length = 2 ∧ ∀ a ∈ l, IsInt a
    | .set _ => True
    | _ => False

end Verif.Vars
