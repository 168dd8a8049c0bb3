import Verif.Trees.Discrete

/-!
# The likelihood of a partial world

`JPT.pdf` (src/jpt/trees.py 972-1009) for symbolic and integer variables.
-/

namespace Verif.Trees

open Disc

variable {L : Type} [DecidableEq L]

/-- `leaf.distributions[var].pdf(value)` (trees.py 1007): `pdf` is `p` (multinomial.py 212-213, integer.py 239-240), which
takes a *label*, but is given the internal value.  `asLabel` is that value seen as a label: the same Python integer. -/
def pdfAt (asLabel : ℤ → L) (d : DD L) (z : ℤ) : Except Err ℚ :=
  if d.1 then d.2.intP (.atom (asLabel z)) else d.2.p (.atom (asLabel z))

/-- The factor of one variable (trees.py 993-1007).  The value of a set is its `first` element; for an empty set there
is none, for which we return an error (`first` returns `None` there, which is no label of an integer variable).  Numeric
variables are not modelled. -/
def pdfFactor (asLabel : ℤ → L) (l : Leaf (DD L)) (i : ℕ × Region) : Except Err ℚ :=
  match l.dists[i.1]? with
  | none => .error .keyError
  | some d =>
    match i.2 with
    | .set (z :: _) => pdfAt asLabel d z
    | .set [] => .error .valueError
    | .num _ => .error .typeError

/-- `len(val) > 1` (trees.py 983-984). -/
def tooBig (i : ℕ × Region) : Bool :=
  match i.2 with
  | .set l => decide (1 < l.length)
  | .num _ => false

/-- `JPT.pdf` (trees.py 972-1009).  The empty product is one, as in line 1008. -/
def pdf (asLabel : ℤ → L) (n : ℕ) (h : Heap (DD L)) (q : Query) : Except Err ℚ := do
  if q.any tooBig then .error .valueError
  else do
    checkQuery n q
    let ls ← apply n h q
    let ts ← ls.mapM (fun l => do
      let fs ← q.mapM (pdfFactor asLabel l.2)
      return l.2.prior * fs.prod)
    return ts.sum

end Verif.Trees
