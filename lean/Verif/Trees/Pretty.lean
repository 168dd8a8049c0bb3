import Verif.Common

/-!
# Model of `JPT.pfmt` (trees.py 1657-1674)

A forest is a list of trees with the strings of their nodes (`str(node)`): the first node, its children, and the trees after it.  A leaf is
a node without children, as `_pfmt` treats it.
-/

namespace Verif.Pretty

/-- A list of trees. -/
inductive Forest
  | nil
  | node (text : List Char) (children next : Forest)
  deriving DecidableEq

/-- `_pfmt` of all trees of a list, joined (trees.py 1663-1674): a line for the node, then its children indented by 4 more. -/
def Forest.fmt (indent : Nat) : Forest → List Char
  | .nil => []
  | .node s c n => List.replicate indent ' ' ++ s ++ '\n' :: (c.fmt (indent + 4) ++ n.fmt indent)

/-- `pfmt` (trees.py 1657-1661) of a tree: its root with the text `s` and the children `c`. -/
def pfmt (s : List Char) (c : Forest) : List Char := (Forest.node s c .nil).fmt 0

end Verif.Pretty
