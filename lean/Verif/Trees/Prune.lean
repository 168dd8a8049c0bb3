import Verif.Trees.Json

/-!
# Model of `JPT.prune` (trees.py 2584-2678)

With `approximate=None`.
-/

namespace Verif.Trees

variable {D E : Type}

/-- `np.mean` of similarities (trees.py 2630): `nan` if there are none or one is `nan`. -/
def meanSim (l : List (Option ℚ)) : Option ℚ :=
  if l = [] then none else (l.mapM (fun x => x)).map (fun q => q.sum / (l.length : ℚ))

/-- The similarity of two leaves in one variable (trees.py 2623-2628). -/
def simAt (o : DistOps D E) (l r : Leaf D) (v : ℕ) : Except Err (Option ℚ) := do
  let d ← l.dist v
  let e ← r.dist v
  o.similarity d e

/-- The mean similarity of two leaves over the variables other than that of the node (trees.py
2620-2630). -/
def leafSim (o : DistOps D E) (n v : ℕ) (l r : Leaf D) : Except Err (Option ℚ) := do
  let s ← ((List.range n).filter (fun u => decide (u ≠ v))).mapM (simAt o l r)
  return meanSim s

/-- `similarity < similarity_threshold or np.isnan(similarity)` (trees.py 2632). -/
def differ (θ : ℚ) : Option ℚ → Bool
  | none => true
  | some s => decide (s < θ)

/-- One merged distribution (trees.py 2653-2656). -/
def mergeAt (o : DistOps D E) (l r : Leaf D) (v : ℕ) : Except Err D := do
  let d ← l.dist v
  let e ← r.dist v
  let ws ← Ut.normValues false false 0 [l.prior, r.prior]
  o.merge [d, e] ws

/-- `max(jpt.allnodes) + 1` (trees.py 2647). -/
def Heap.newIdx (h : Heap D) : ℕ := (h.inner.map Prod.fst ++ h.leaves.map Prod.fst).foldr max 0 + 1

/-- The merged leaf without its path (trees.py 2645-2664). -/
def mergedLeaf (o : DistOps D E) (n : ℕ) (nd : Inner) (l r : Leaf D) : Except Err (Leaf D) := do
  let ds ← (List.range n).mapM (mergeAt o l r)
  return ⟨nd.parent, [], ds, l.prior + r.prior, l.samples + r.samples, []⟩

/-- The two leaves are replaced by the merged one, and their parent `id` is removed (trees.py 2666-2678).
The second result is what is appended to the queue. -/
def replace (h : Heap D) (id : ℕ) (nd : Inner) (il ir : ℕ) (m : Leaf D) : Except Err (Heap D × List ℕ) := do
  let ls ← Dict.del h.leaves il
  let ls ← Dict.del ls ir
  let is ← Dict.del h.inner id
  match nd.parent with
  | none => return (⟨is, Dict.set ls h.newIdx m, some h.newIdx⟩, [])
  | some p =>
    match is.lookup p with
    | none => .error .attributeError
    | some pn =>
      match pn.children.idxOf? (some id) with
      | none => .error .valueError
      | some i => do
        let r ← Heap.attach ⟨is, ls, h.root⟩ (some p) i h.newIdx
        return (⟨r.1.inner, Dict.set r.1.leaves h.newIdx { m with path := r.2 }, r.1.root⟩, [p])

/-- Merging two leaves with the parent `id`, if they are similar (trees.py 2620-2678). -/
def mergeStep (o : DistOps D E) (n : ℕ) (θ : ℚ) (h : Heap D) (id : ℕ) (nd : Inner) (il ir : ℕ) (l r : Leaf D) :
    Except Err (Heap D × List ℕ) := do
  let s ← leafSim o n nd.var l r
  if differ θ s then return (h, [])
  else
    let m ← mergedLeaf o n nd l r
    replace h id nd il ir m

/-- `isinstance(child, Leaf)`. -/
def leafChild (h : Heap D) : Option ℕ → Option (ℕ × Leaf D)
  | none => none
  | some c => (h.leaves.lookup c).map (fun l => (c, l))

/-- One round of the loop (trees.py 2609-2678).  A node that has been removed had two children. -/
def pruneStep (o : DistOps D E) (n : ℕ) (θ : ℚ) (h : Heap D) (id : ℕ) : Except Err (Heap D × List ℕ) :=
  match h.inner.lookup id with
  | none => .ok (h, [])
  | some nd =>
    match nd.children with
    | [a, b] =>
      match leafChild h a, leafChild h b with
      | some l, some r => mergeStep o n θ h id nd l.1 r.1 l.2 r.2
      | _, _ => .ok (h, [])
    | _ => .error .valueError

/-- The loop (trees.py 2608-2678). -/
def pruneLoop (o : DistOps D E) (n : ℕ) (θ : ℚ) : ℕ → Heap D → List ℕ → Except Err (Heap D)
  | _, h, [] => .ok h
  | 0, _, _ :: _ => .error .outOfFuel
  | k + 1, h, id :: queue => do
    let r ← pruneStep o n θ h id
    pruneLoop o n θ k r.1 (queue ++ r.2)

/-- `JPT.prune(similarity_threshold)` (trees.py 2584-2678).  Every round removes a node or shortens the
queue, so the fuel suffices. -/
def prune (o : DistOps D E) (n : ℕ) (θ : ℚ) (h : Heap D) : Except Err (Heap D) := do
  let c ← copy o h
  pruneLoop o n θ (2 * c.inner.length) c (c.inner.map Prod.fst)

end Verif.Trees
