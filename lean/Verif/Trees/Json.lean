import Verif.Trees.Model

/-!
# Model of `JPT.to_json`, `JPT.from_json` and `JPT.copy`: the nodes

The settings are in `Verif/Trees/Settings.lean`.
-/

namespace Verif.Trees

variable {D E : Type}

/-- The JSON object of a `DecisionNode` (trees.py 217-239).  `_path`, which is never read, is left
out. -/
structure JInner where
  idx : ℕ
  parent : Option ℕ
  splits : List Region
  var : ℕ
  children : List ℕ
  samples : ℕ
  childIdx : Option ℕ

/-- The JSON object of a `Leaf` (trees.py 398-411).  The distributions stand for their own JSON
objects, from which `DistOps.reload` makes distributions. -/
structure JLeaf (D : Type) where
  idx : ℕ
  dists : List D
  prior : ℚ
  samples : ℕ
  rows : List ℕ
  parent : Option ℕ
  childIdx : Option ℕ

/-- The part of `JPT.to_json` (trees.py 838-856) about the nodes. -/
structure JTree (D : Type) where
  leaves : List (JLeaf D)
  inner : List JInner
  root : Option ℕ

/-- `self.parent.children.index(self) if self.parent is not None` (trees.py 238, 410). -/
def childIdx (h : Heap D) (parent : Option ℕ) (id : ℕ) : Except Err (Option ℕ) :=
  match parent with
  | none => .ok none
  | some p =>
    match h.inner.lookup p with
    | none => .error .attributeError
    | some n =>
      match n.children.idxOf? (some id) with
      | none => .error .valueError
      | some i => .ok (some i)

/-- `DecisionNode.to_json` (trees.py 217-239); a child `None` has no `idx`. -/
def innerToJson (h : Heap D) (e : ℕ × Inner) : Except Err JInner :=
  match e.2.children.mapM (fun c => c) with
  | none => .error .attributeError
  | some cs => do
    let i ← childIdx h e.2.parent e.1
    return ⟨e.1, e.2.parent, e.2.splits, e.2.var, cs, e.2.samples, i⟩

/-- `Leaf.to_json` (trees.py 398-411). -/
def leafToJson (h : Heap D) (e : ℕ × Leaf D) : Except Err (JLeaf D) := do
  let i ← childIdx h e.2.parent e.1
  return ⟨e.1, e.2.dists, e.2.prior, e.2.samples, e.2.rows, e.2.parent, i⟩

/-- `JPT.to_json` (trees.py 838-856), nodes. -/
def toJson (h : Heap D) : Except Err (JTree D) := do
  let ls ← h.leaves.mapM (leafToJson h)
  let ns ← h.inner.mapM (innerToJson h)
  return ⟨ls, ns, h.root⟩

/-- `tree.innernodes.get(parent)` (trees.py 258, 424). -/
def getParent (h : Heap D) (parent : Option ℕ) : Option ℕ :=
  match parent with
  | none => none
  | some p => if (h.inner.lookup p).isSome then some p else none

/-- `if parent is not None: parent.set_child(child_idx, node)` (trees.py 260-261, 432-433). -/
def hang (h : Heap D) (parent : Option ℕ) (i : Option ℕ) (id : ℕ) : Except Err (Heap D × Path) :=
  match parent, i with
  | none, _ => .ok (h, [])
  | some _, none => .error .typeError
  | some p, some i => h.attach (some p) i id

/-- `DecisionNode.from_json` (trees.py 241-263). -/
def loadInner (h : Heap D) (j : JInner) : Except Err (Heap D) := do
  let r ← hang h (getParent h j.parent) j.childIdx j.idx
  return ⟨Dict.set r.1.inner j.idx
      ⟨j.var, j.splits, List.replicate j.splits.length none, getParent h j.parent, j.samples, r.2⟩,
    r.1.leaves, r.1.root⟩

/-- `Leaf.from_json` (trees.py 413-440). -/
def loadLeaf (o : DistOps D E) (h : Heap D) (j : JLeaf D) : Except Err (Heap D) := do
  let ds ← j.dists.mapM o.reload
  let r ← hang h (getParent h j.parent) j.childIdx j.idx
  return ⟨r.1.inner, Dict.set r.1.leaves j.idx
      ⟨getParent h j.parent, r.2, ds, j.prior, j.samples, j.rows⟩, r.1.root⟩

/-- `jpt.allnodes[root] if root is not None else None` (trees.py 912). -/
def loadRoot (h : Heap D) (root : Option ℕ) : Except Err (Heap D) :=
  match root with
  | none => .ok ⟨h.inner, h.leaves, none⟩
  | some r =>
    if (h.inner.lookup r).isSome ∨ (h.leaves.lookup r).isSome then .ok ⟨h.inner, h.leaves, some r⟩
    else .error .keyError

/-- `JPT.from_json` (trees.py 858-913), nodes. -/
def fromJson (o : DistOps D E) (j : JTree D) : Except Err (Heap D) := do
  let h ← j.inner.foldlM loadInner Heap.empty
  let h ← j.leaves.foldlM (loadLeaf o) h
  loadRoot h j.root

/-- `JPT.copy` (trees.py 2175-2182), nodes. -/
def copy (o : DistOps D E) (h : Heap D) : Except Err (Heap D) := do
  let j ← toJson h
  fromJson o j

/-- The priors of the variables (trees.py 854, 908-911): they are reloaded as well. -/
def copyPriors (o : DistOps D E) (ps : List (ℕ × D)) : Except Err (List (ℕ × D)) := mapVals o.reload ps

/-- `JPT.conditional_jpt` (trees.py 2184-2302). -/
def conditional (o : DistOps D E) (n : ℕ) (full : ℕ → Region) (h : Heap D) (priors : List (ℕ × D))
    (e : Query) : Except Err (Heap D × List (ℕ × D)) := do
  let h ← copy o h
  let priors ← copyPriors o priors
  conditionalOf o n full h priors e

/-- `JPT.mpe` (trees.py 1248-1295). -/
def mpe (o : DistOps D E) (n : ℕ) (full : ℕ → Region) (dists : ℕ → Option ℚ) (h : Heap D)
    (priors : List (ℕ × D)) (e : Query) : Except Err (List (List E) × ℚ) := do
  checkQuery n e
  let c ← conditional o n full h priors e
  mpeOf o dists c.1

end Verif.Trees
