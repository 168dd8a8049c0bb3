import Verif.Trees.Region
import Verif.Dict

/-!
# The nodes of a tree

Python objects refer to each other; here a node is referred to by its `idx`, which is also its key in
`JPT.innernodes` or `JPT.leaves`.  Both dictionaries are insertion-ordered item lists
(`Verif.Dict`).  A variable is its position in `JPT.variables`; a leaf's distributions are listed in
that order.  `D` is the type of distributions.
-/

namespace Verif.Trees

/-- `Node._path` (trees.py 86, 277-286): the splits from the root on. -/
abbrev Path := List (ℕ × Region)

/-- A `DecisionNode` (trees.py 188-335). `None` children are `none`. -/
structure Inner where
  var : ℕ
  splits : List Region
  children : List (Option ℕ)
  parent : Option ℕ
  samples : ℕ
  path : Path
  deriving DecidableEq

/-- `self.children[idx] = node` (trees.py 277-286). -/
def Inner.setChild (n : Inner) (i id : ℕ) : Inner := { n with children := n.children.set i (some id) }

/-- A `Leaf` (trees.py 340-356).  `rows` are the rows its distributions were fitted to, which is what
`s_indices` holds if samples are kept (trees.py 1613-1623). -/
structure Leaf (D : Type) where
  parent : Option ℕ
  path : Path
  dists : List D
  prior : ℚ
  samples : ℕ
  rows : List ℕ
  deriving DecidableEq

/-- `JPT.innernodes`, `JPT.leaves`, `JPT.root` (trees.py 740-757). -/
structure Heap (D : Type) where
  inner : List (ℕ × Inner)
  leaves : List (ℕ × Leaf D)
  root : Option ℕ

namespace Heap

variable {D : Type}

/-- An unfitted tree (trees.py 740-757, 772-778). -/
def empty : Heap D := ⟨[], [], none⟩

/-- The parent's part of `DecisionNode.set_child` (trees.py 277-286): the child is stored, and its
path, which is the second result, extends that of the parent.  Without a parent the tree is unchanged
and the path empty (trees.py 86, 1606, 1629). -/
def attach (h : Heap D) (parent : Option ℕ) (i id : ℕ) : Except Err (Heap D × Path) :=
  match parent with
  | none => .ok (h, [])
  | some p =>
    match h.inner.lookup p with
    | none => .error .attributeError
    | some n =>
      match n.splits[i]? with
      | none => .error .indexError
      | some s =>
        if i < n.children.length then
          .ok (⟨Dict.set h.inner p (n.setChild i id), h.leaves, h.root⟩,
            n.path ++ [(n.var, s)])
        else .error .indexError

end Heap

end Verif.Trees
