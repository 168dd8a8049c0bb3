import Verif.Trees.Pdf
import Verif.Trees.MixLaws
import Verif.Numeric.Compare

/-!
# The likelihood of a partial world with numbers

`JPT.pdf` (src/jpt/trees.py 972-1009) for all kinds of variables.  Densities of single values are infinite, so the sums and
products are those of floats with infinities and NaN; `none` stands for NaN.
-/

namespace Verif.Trees

open Disc
open Fun (PF)

variable {L : Type} [DecidableEq L]

/-- The sign. -/
def xsign : XQ → ℤ
  | .ninf => -1
  | .fin q => if q < 0 then -1 else if q = 0 then 0 else 1
  | .pinf => 1

/-- `a * b` of floats: infinity times zero is NaN. -/
def xmul : XQ → XQ → Option XQ
  | .fin a, .fin b => some (.fin (a * b))
  | x, y =>
    let s := xsign x * xsign y
    if s = 0 then none else if 0 < s then some .pinf else some .ninf

/-- `a + b` of floats: `inf - inf` is NaN. -/
def xplus : XQ → XQ → Option XQ
  | .fin a, .fin b => some (.fin (a + b))
  | .pinf, .ninf => none
  | .ninf, .pinf => none
  | .pinf, _ => some .pinf
  | .ninf, _ => some .ninf
  | .fin _, y => some y

/-- `prod` (base/utils.py 139-143).  Simplification: it starts with 1, not with the first factor. -/
def xprod (fs : List XQ) : Option XQ := fs.foldlM xmul (.fin 1)

/-- `val.size() > 1` and `len(val) > 1` (trees.py 981-984). -/
def tooBigMix (idx : ℚ → ℤ) (i : ℕ × Region) : Bool :=
  match i.2 with
  | .num c => (toCS idx c).size == none
  | .set l => decide (1 < l.length)

/-- The factor of one variable (trees.py 990-1007): of an interval the *lower bound* is taken.  `pdf(value)` of a numeric
distribution evaluates the density (numeric.py 137-139, functions.pyx 1032-1034).  Values of the wrong kind are never
assigned to a variable. -/
def pdfFactorMix (idx : ℚ → ℤ) (asLabel : ℤ → L) (l : Leaf (MD L)) (i : ℕ × Region) : Except Err XQ :=
  match l.dists[i.1]? with
  | none => .error .keyError
  | some (.inl d) =>
    match i.2 with
    | .num c => (Num.pdf d).bind (fun g => Num.densAt g (toFP idx c.lower))
    | .set _ => .error .typeError
  | some (.inr d) =>
    match i.2 with
    | .set (z :: _) => (pdfAt asLabel d z).map .fin
    | .set [] => .error .valueError
    | .num _ => .error .typeError

/-- `leaf.prior * prod(...)` (trees.py 1007-1008). -/
def pdfLeaf (idx : ℚ → ℤ) (asLabel : ℤ → L) (q : Query) (l : Leaf (MD L)) : Except Err (Option XQ) := do
  let fs ← q.mapM (pdfFactorMix idx asLabel l)
  return (xprod fs).bind (xmul (.fin l.prior))

/-- `JPT.pdf` (trees.py 972-1009). -/
def pdfMix (idx : ℚ → ℤ) (asLabel : ℤ → L) (n : ℕ) (h : Heap (MD L)) (q : Query) : Except Err (Option XQ) := do
  if q.any (tooBigMix idx) then .error .valueError
  else do
    checkQuery n q
    let ls ← apply n h q
    let ts ← ls.mapM (fun l => pdfLeaf idx asLabel q l.2)
    return ts.foldlM (fun s t => t.bind (xplus s)) (XQ.fin 0)

end Verif.Trees
