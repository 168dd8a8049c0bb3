import Verif.Trees.Learned2

/-!
# Model of the likelihood of worlds (`trees.py`)

A world assigns one value to every variable: a number or a label.
-/

namespace Verif.Trees

open Iv (FP)

variable {L : Type} [DecidableEq L]

/-- A cell of a table: a number, or a label of a symbolic or integer variable. -/
abbrev Cell (L : Type) := ℚ ⊕ L

/-- `var.domain.values[v]` (trees.py 1735), stored as a float: numbers are kept as they are, labels are replaced by
their index.  A number that is no label and a label given for a numeric variable are rejected.  Scaled numeric
variables are not modelled. -/
def cell : MK L → Cell L → Except Err ℚ
  | .inl _, .inl q => .ok q
  | .inr k, .inr x => (k.2.valueOrErr x).map (fun z : ℤ => (z : ℚ))
  | _, _ => .error .valueError

/-- One row of the table (trees.py 1699-1700, 1733-1735).  Surplus cells are ignored. -/
def preprocessRow (kind : ℕ → MK L) (n : ℕ) (row : List (Cell L)) : Except Err (List ℚ) :=
  (List.range n).mapM (fun v =>
    match row[v]? with
    | none => .error .indexError
    | some x => cell (kind v) x)

/-- `_preprocess_data` (trees.py 1676-1737) for a list of rows.  Arrays and data frames are not modelled. -/
def preprocess (kind : ℕ → MK L) (n : ℕ) (rows : List (List (Cell L))) : Except Err (List (List ℚ)) :=
  if rows = [] then .error .valueError else rows.mapM (preprocessRow kind n)

/-- Infinite densities are replaced (trees.py 588-594).  The distance is looked up in any case. -/
def replaceInf (scaling : ℚ) (dists : List (ℕ × ℚ)) (v : ℕ) (x : XQ) : Except Err ℚ :=
  if dists = [] then
    match x with
    | .fin q => .ok q
    | .pinf => .ok 1
    | .ninf => .error .valueError
  else
    match dists.lookup v with
    | none => .error .keyError
    | some δ =>
      if δ = 0 then .error .zeroDivision
      else match x with
        | .fin q => .ok q
        | .pinf => .ok (scaling / δ)
        | .ninf => .error .valueError

/-- `params[i]` of a numpy array: negative indices count from the end. -/
def paramAt (params : List ℚ) (i : ℤ) : Except Err ℚ :=
  if 0 ≤ i then
    match params[i.toNat]? with
    | some p => .ok p
    | none => .error .indexError
  else if 0 ≤ (params.length : ℤ) + i then
    match params[((params.length : ℤ) + i).toNat]? with
    | some p => .ok p
    | none => .error .indexError
  else .error .indexError

/-- The factor of one variable (trees.py 577-594). -/
def cellDensity (idx : ℚ → ℤ) (scaling : ℚ) (dists : List (ℕ × ℚ)) (d : MD L) (v : ℕ) (x : ℚ) : Except Err ℚ :=
  match d with
  | .inl f => do
    let g ← Num.pdf f
    let y ← Num.densAt g (.fin (idx x))
    replaceInf scaling dists v y
  | .inr d => paramAt d.2.params (Learn.toInt x)

/-- `Leaf.parallel_likelihood` (trees.py 551-603), for one row. -/
def Leaf.likelihood (idx : ℚ → ℤ) (scaling : ℚ) (dists : List (ℕ × ℚ)) (l : Leaf (MD L)) (row : List ℚ) :
    Except Err ℚ :=
  l.dists.zipIdx.foldlM (fun acc d =>
    match row[d.2]? with
    | none => .error .indexError
    | some x => do
      let p ← cellDensity idx scaling dists d.1 d.2 x
      return acc * p) 1

/-- The sum over the leaves (trees.py 1914-1928), for one row. -/
def rowLikelihood (idx : ℚ → ℤ) (scaling : ℚ) (dists : List (ℕ × ℚ)) (h : Heap (MD L)) (row : List ℚ) :
    Except Err ℚ := do
  let ps ← h.leaves.mapM (fun l => do
    let p ← l.2.likelihood idx scaling dists row
    return l.2.prior * p)
  return ps.sum

/-- `JPT.likelihood` (trees.py 1888-1930) for a list of rows; `dists` are the minimal distances of the numeric
variables. -/
def likelihood (idx : ℚ → ℤ) (scaling : ℚ) (dists : List (ℕ × ℚ)) (kind : ℕ → MK L) (n : ℕ) (h : Heap (MD L))
    (rows : List (List (Cell L))) : Except Err (List ℚ) := do
  let ws ← preprocess kind n rows
  ws.mapM (rowLikelihood idx scaling dists h)

end Verif.Trees
