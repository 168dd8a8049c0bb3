import Verif.Trees.Learned2

/-!
# Size statistics of trees
-/

namespace Verif.Trees

variable {D : Type}

/-- `Leaf.depth` (trees.py 161-165): the number of splits on the path. -/
def Leaf.depth (l : Leaf D) : ℕ := l.path.length

/-- `JPT.depth` (trees.py 2381-2385); `max` of an empty list raises `ValueError`. -/
def treeDepth (h : Heap D) : Except Err ℕ :=
  match h.leaves.map (fun l => l.2.depth) with
  | [] => .error .valueError
  | d :: ds => .ok (ds.foldl max d)

/-- `JPT.total_samples` (trees.py 2387-2391). -/
def totalSamples (h : Heap D) : ℕ := (h.leaves.map (fun l => l.2.samples)).sum

/-- `number_of_parameters` of a distribution: multinomial.py 508-521, integer.py 455-456, numeric.py 151-159. -/
def distParams {L : Type} : MD L → ℕ
  | .inl cdf => if Num.isDirac cdf then 1 else cdf.length
  | .inr (true, d) => d.params.length
  | .inr (false, d) => if d.params.any (fun p => decide (p = 1)) then 1 else d.params.length

/-- `Leaf.number_of_parameters` (trees.py 671-677). -/
def Leaf.numParams {L : Type} (l : Leaf (MD L)) : ℕ := (l.dists.map distParams).sum

/-- `DecisionNode.number_of_parameters` (trees.py 329-335). -/
def Inner.numParams (_ : Inner) : ℕ := 2

/-- `JPT.number_of_parameters` (trees.py 2450-2454). -/
def treeParams {L : Type} (h : Heap (MD L)) : ℕ := (h.leaves.map (fun l => l.2.numParams)).sum

end Verif.Trees
