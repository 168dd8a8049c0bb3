import Verif.Trees.Json

/-!
# Consistency of nodes with evidence, and conditioned leaves
-/

namespace Verif.Trees

variable {D E : Type}

/-- A value in preprocessed evidence: a single number or label, or a range of them. -/
inductive EvVal
  | single (x : ℚ)
  | range (r : Region)
  deriving DecidableEq

/-- One variable that the path restricts, in `Node.consistent_with` (trees.py 119-145).  The kind of the variable is that of
its restriction.  A set of labels cannot be compared with the bounds of an interval; an interval is no label. -/
def consistentItem : Region → EvVal → Except Err Bool
  | .num c, .range (.num r) => .ok (!(Region.num r).disjoint (.num c))
  | .num c, .single x => .ok (decide (c.lower < .fin x) && decide (.fin x ≤ c.upper))
  | .num _, .range (.set _) => .error .typeError
  | .set l, .range (.set r) => .ok (!(Region.set r).disjoint (.set l))
  | .set l, .single x => .ok (l.any (fun z => decide (x = (z : ℚ))))
  | .set _, .range (.num _) => .ok false

/-- `Node.consistent_with` (trees.py 103-147), also `Leaf.path_consistent_with` (trees.py 456-463).  `RealSet`s as evidence
are not modelled. -/
def consistentWith (full : ℕ → Region) (path : Path) : List (ℕ × EvVal) → Except Err Bool
  | [] => .ok true
  | (v, x) :: e =>
    match (pathMap full path).lookup v with
    | none => consistentWith full path e
    | some R =>
      match consistentItem R x with
      | .error err => .error err
      | .ok false => .ok false
      | .ok true => consistentWith full path e

/-- `Leaf.consistent_with` (trees.py 447-454). -/
def Leaf.consistentWith (o : DistOps D E) (l : Leaf D) (e : Query) : Except Err Bool := do
  let p ← l.probability o e
  return decide (0 < p)

/-- `Leaf.copy` (trees.py 605-616): a leaf without parent and path. -/
def Leaf.copy (o : DistOps D E) (l : Leaf D) : Except Err (Leaf D) := do
  let ds ← l.dists.mapM o.reload
  return ⟨none, [], ds, l.prior, l.samples, l.rows⟩

/-- `Leaf.conditional_leaf` (trees.py 618-634). -/
def Leaf.conditional (o : DistOps D E) (l : Leaf D) (e : Query) : Except Err (Leaf D) := do
  let r ← l.copy o
  let ds ← e.foldlM (cropAt o) r.dists
  return { r with dists := ds }

end Verif.Trees
