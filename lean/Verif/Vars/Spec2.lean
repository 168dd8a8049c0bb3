import Verif.Vars.Spec
import Verif.Vars.Model2

/-!
# What labels and values are, and when they correspond
-/

namespace Verif.Vars

/-- A domain as the library's type constructors make it: labels are distinct and a scale is positive. -/
def Domain.OK : Domain → Prop
  | .numeric _ => True
  | .scaled _ _ scale => 0 < scale
  | .symbolic _ labels => labels.Nodup
  | .integer _ _ _ => True

/-- The internal values of a symbolic or integer domain: `0, …, n-1`. -/
def Domain.values (d : Domain) : List Atom := (List.range d.labels.length).map fun i : ℕ => Atom.int i

/-- A number, an interval with ordered bounds, or a union of such intervals. -/
def Val.Number : Val → Prop
  | .ev (.atom (.num _)) => True
  | .cs c => c.lower.le c.upper = true
  | .rs l => ∀ c ∈ l, c.lower.le c.upper = true
  | _ => False

/-- An element of `s` or a set of elements of `s`. -/
def Val.Symbol (s : List Atom) : Val → Prop
  | .ev (.atom a) => a ∈ s
  | .ev (.set l) => l.Nodup ∧ ∀ a ∈ l, a ∈ s
  | _ => False

/-- An element of `s` or a collection of elements of `s`. -/
def Val.Event (s : List Atom) : Val → Prop
  | .ev (.set l) => l.Nodup ∧ ∀ a ∈ l, a ∈ s
  | .ev e => ∀ a ∈ e.elems, a ∈ s
  | _ => False

/-- A value of the variable's type, in the user's representation. -/
def Domain.IsLabel (d : Domain) (x : Val) : Prop :=
  match d with
  | .numeric _ | .scaled _ _ _ => x.Number
  | .symbolic _ _ => x.Symbol d.labels
  | .integer _ _ _ => x.Event d.labels

/-- A value of the variable's type, in the internal representation. -/
def Domain.IsValue (d : Domain) (x : Val) : Prop :=
  match d with
  | .numeric _ | .scaled _ _ _ => x.Number
  | .symbolic _ _ => x.Symbol d.values
  | .integer _ _ _ => x.Event d.values

/-- The number `y` is `x` scaled. -/
def Domain.Scaled (d : Domain) (x y : XQ) : Prop :=
  match d with
  | .scaled _ mean scale => (x = .ninf ∧ y = .ninf) ∨ (x = .pinf ∧ y = .pinf) ∨
      ∃ p q : ℚ, x = .fin p ∧ y = .fin q ∧ p = q * scale + mean
  | _ => x = y

/-- `b` is the position of the label `a`. -/
def Domain.At (d : Domain) (a b : Atom) : Prop := ∃ i : ℕ, d.labels[i]? = some a ∧ b = Atom.int i

/-- Intervals with corresponding bounds. -/
def Domain.CorrRI (d : Domain) (c e : RI) : Prop :=
  d.Scaled c.lower e.lower ∧ d.Scaled c.upper e.upper ∧ c.left = e.left ∧ c.right = e.right

/-- Corresponding numeric assignments. -/
def Domain.CorrNum (d : Domain) : Val → Val → Prop
  | .ev (.atom (.num x)), .ev (.atom (.num y)) => d.Scaled x y
  | .cs c, .cs e => d.CorrRI c e
  | .rs l, .rs k => List.Forall₂ d.CorrRI l k
  | _, _ => False

/-- Corresponding symbolic or integer assignments. -/
def Domain.CorrSym (d : Domain) : Val → Val → Prop
  | .ev (.atom a), .ev (.atom b) => d.At a b
  | .ev (.list l), .ev (.list k) => List.Forall₂ d.At l k
  | .ev (.tuple l), .ev (.tuple k) => List.Forall₂ d.At l k
  | .ev (.set l), .ev (.set k) => List.Forall₂ d.At l k
  | _, _ => False

/-- The label `x` and the value `y` mean the same. -/
def Domain.Corr (d : Domain) (x y : Val) : Prop :=
  match d with
  | .numeric _ | .scaled _ _ _ => d.CorrNum x y
  | .symbolic _ _ | .integer _ _ _ => d.CorrSym x y

/-- A domain whose JSON can be read back: the class `Numeric` itself, or one that the type constructors
accept, with finite labels. -/
def Domain.Serialisable : Domain → Prop
  | .numeric name => name = "Numeric"
  | .scaled _ _ _ => True
  | .symbolic _ labels => labels ≠ [] ∧ labels.Nodup ∧ ∀ a ∈ labels, a ≠ .num .ninf ∧ a ≠ .num .pinf
  | .integer _ lmin lmax => lmin ≤ lmax

end Verif.Vars

namespace Verif.Vars

/-- An object that exists: intervals have ordered bounds, sets have distinct elements. -/
def Val.Exists : Val → Prop
  | .ev (.set l) => l.Nodup
  | .cs c => c.lower.le c.upper = true
  | .rs l => ∀ c ∈ l, c.lower.le c.upper = true
  | _ => True

/-- A history of item assignments; one that raises leaves the object as it is. -/
def Asg.run (set : Asg → Key Domain → Val → Except Err Asg) (m : Asg) (ops : List (Key Domain × Val)) : Asg :=
  ops.foldl (fun m p => match set m p.1 p.2 with | .ok m' => m' | .error _ => m) m

end Verif.Vars
