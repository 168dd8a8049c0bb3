import Verif.Gauss.Model

/-!
# Model of comparing Gaussians (`gaussian.py` 143-144) and of `sym` (272-277)

Both Gaussians have arrays of the same dimension.
-/

namespace Verif.Gau

/-- What a comparison gives: a Boolean or an array of Booleans (with its entries row by row). -/
inductive Cmp
  | bool (b : Bool)
  | array (entries : List Bool)
  deriving DecidableEq

/-- `bool(…)` in NumPy: an array must have exactly one entry.  Simplification: an empty array is an error (older versions of NumPy take it as
`False` with a warning). -/
def truth : Cmp → Except Err Bool
  | .bool b => .ok b
  | .array [b] => .ok b
  | .array _ => .error .valueError

/-- `other.mean == self.mean`, by coordinates. -/
def sameMean {d : ℕ} (g h : G d) : List Bool := (List.ofFn (fun i : Fin d => i)).map (fun i => decide (h.mean i = g.mean i))

/-- `other.cov == self.cov`, by entries. -/
def sameCov {d : ℕ} (g h : G d) : List Bool :=
  (List.ofFn (fun i : Fin d => i)).flatMap (fun j => (List.ofFn (fun i : Fin d => i)).map (fun k => decide (h.cov j k = g.cov j k)))

/-- `__eq__` (`gaussian.py` 143-144): `a and b` is `a` if that is false, and `b` otherwise. -/
def eqG {d : ℕ} (g : G d) : Option (G d) → Except Err Cmp
  | none => .ok (.bool false)
  | some h =>
    match truth (.array (sameMean g h)) with
    | .error e => .error e
    | .ok true => .ok (.array (sameCov g h))
    | .ok false => .ok (.array (sameMean g h))

/-- `if g == other`. -/
def ifEq {d : ℕ} (g : G d) (h : Option (G d)) : Except Err Bool :=
  match eqG g h with
  | .error e => .error e
  | .ok c => truth c

/-- The inner loop of `sym` (`gaussian.py` 274-276). -/
def symRow {d : ℕ} (g : G d) (i : Fin d) : List (Fin d) → Bool
  | [] => true
  | j :: r => if g.cov i j ≠ g.cov j i then false else symRow g i r

/-- The outer loop of `sym` (`gaussian.py` 272-277). -/
def symRows {d : ℕ} (g : G d) : List (Fin d) → Bool
  | [] => true
  | i :: r => if symRow g i (List.ofFn (fun i : Fin d => i)) then symRows g r else false

/-- `sym()` (`gaussian.py` 272-277). -/
def G.sym {d : ℕ} (g : G d) : Bool := symRows g (List.ofFn (fun i : Fin d => i))

end Verif.Gau
