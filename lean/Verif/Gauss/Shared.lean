import Verif.Gauss.InPlace

/-!
# Model of copies of a `Gaussian` that share arrays

The arrays `_mean` and `_cov` of a Gaussian are objects of their own.  Simplification: both are kept in one cell, since `copy` shares both,
`update` writes into both, and the operators in place replace both.
-/

namespace Verif.Gau

/-- The contents of a cell. -/
structure Arrays (d : ℕ) where
  mean : Fin d → ℚ
  cov : Fin d → Fin d → ℚ

/-- A Gaussian object (`gaussian.py` 38-47): where its arrays are, and its other attributes. -/
structure Ref where
  cell : ℕ
  shaped : Bool
  asList : Bool
  sumW : ℚ
  sumWsq : ℚ
  samples : ℕ

/-- What a Gaussian object is at the moment. -/
def Ref.view {d : ℕ} (h : ℕ → Arrays d) (o : Ref) : G d := ⟨o.shaped, (h o.cell).mean, (h o.cell).cov, o.asList, o.sumW, o.sumWsq, o.samples⟩

/-- The object with the attributes of a Gaussian and arrays in a cell. -/
def Ref.of {d : ℕ} (g : G d) (cell : ℕ) : Ref := ⟨cell, g.shaped, g.asList, g.sumW, g.sumWsq, g.samples⟩

/-- Write the arrays of a Gaussian into a cell. -/
def write {d : ℕ} (h : ℕ → Arrays d) (cell : ℕ) (g : G d) : ℕ → Arrays d := fun c => if c = cell then ⟨g.mean, g.cov⟩ else h c

/-- `copy` (`gaussian.py` 135-141): a new object with the arrays of `self` and its number of samples; the sums of weights of the new object
are those of `Gaussian()`, 0. -/
def Ref.copy (o : Ref) : Ref := { o with sumW := 0, sumWsq := 0 }

/-- `update` (`gaussian.py` 185-225): the entries of the arrays are overwritten one by one; an empty distribution gets new arrays first
(190-192), here in the cell `free`. -/
def Ref.update {d : ℕ} (h : ℕ → Arrays d) (free : ℕ) (o : Ref) (x : Fin d → ℚ) (w : ℚ) : Except Err ((ℕ → Arrays d) × Ref) :=
  match (o.view h).update x w with
  | .error e => .error e
  | .ok g => if o.shaped then .ok (write h o.cell g, Ref.of g o.cell) else .ok (write h free g, Ref.of g free)

/-- `__imul__` with a number (`gaussian.py` 110-114): the arrays are those of a new Gaussian, in the cell `free`. -/
def Ref.imul {d : ℕ} (h : ℕ → Arrays d) (free : ℕ) (o : Ref) (a : ℚ) : Except Err ((ℕ → Arrays d) × Ref) :=
  match (o.view h).imul a with
  | .error e => .error e
  | .ok g => .ok (write h free g, Ref.of g free)

/-- `__iadd__` of a number (`gaussian.py` 93-97), likewise. -/
def Ref.iaddNum {d : ℕ} (h : ℕ → Arrays d) (free : ℕ) (o : Ref) (a : ℚ) : Except Err ((ℕ → Arrays d) × Ref) :=
  match (o.view h).iaddNum a with
  | .error e => .error e
  | .ok g => .ok (write h free g, Ref.of g free)

end Verif.Gau
