import Verif.Trees.BindQuery

/-!
# Model of `JPT.reverse`

`src/jpt/trees.py` 1932-1981.
-/

namespace Verif.Trees

open Vars

variable {D E : Type}

/-- The name a key stands for in the comparison with the names of the tree (trees.py 1947); the names of objects that are
no variables are no names of variables. -/
def keyName : Key Domain → Option String
  | .var v => some v.name
  | .name s => some s
  | .other => none

/-- `reverse` (trees.py 1932-1981).  Each leaf comes with the probabilities of the variables in their order.  The labels are
translated to internal values once, instead of in each call of `p`; variables with a `blur` and unions of intervals are
not modelled. -/
def reverse (o : DistOps D E) (vs : List (Var Domain)) (full : ℕ → Region) (h : Heap D) (q : List (Key Domain × UArg))
    (confidence : ℚ) : Except Err (List (List ℚ × ℕ)) :=
  if ∀ p ∈ q, ∀ n ∈ keyName p.1, n ∉ vs.map Var.name then .ok []
  else do
    let m ← preprocessQuery vs (fun _ => none) true ⟨false, true⟩ q
    let qs ← queryOf vs (← m.valueAssignment)
    let confs ← h.leaves.mapM (fun l => do
      let ps ← l.2.dists.zipIdx.mapM (fun d => o.p d.1 ((qs.lookup d.2).getD (full d.2)))
      return (ps, l.1))
    return (confs.filter (fun a => a.1.all (fun x => decide (confidence ≤ x)))).insertionSort
      (fun a b => b.1.sum ≤ a.1.sum)

end Verif.Trees
