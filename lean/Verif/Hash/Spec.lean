import Verif.Hash.Model

/-! # Domains as a user makes them -/

namespace Verif.Hash

variable {L : Type} [DecidableEq L]

/-- The domain is made by `NumericType` from at least one value, by `SymbolicType` or by `IntegerType`. -/
inductive Built (inj : ℤ → L) : Domain L → Prop
  | numeric (name : String) (mean scale : ℚ) : Built inj (numericType name ⟨some mean, some scale⟩)
  | symbolic (name : String) (labels : List L) (d : Domain L) : symbolicType inj name labels = .ok d → Built inj d
  | integer (name : String) (lmin lmax : ℤ) (d : Domain L) : integerType inj name lmin lmax = .ok d → Built inj d

/-- The number of labels. -/
def Domain.size (d : Domain L) : ℕ := match d.labels with
  | .dict l => l.length
  | _ => 0

/-- Two symbolic domains have the same number of labels. -/
def SameSize (d e : Domain L) : Prop := d.kind = .symbolic → e.kind = .symbolic → d.size = e.size

end Verif.Hash
