import Verif.Trees.Path
import Verif.Utils.Model

/-!
# Model of the queries on a tree (`trees.py`)

`D` is the type of distributions and `E` that of the states `mpe` returns for one variable.  What the
tree needs of a distribution is listed in `DistOps`; `Verif/Trees/Discrete.lean` instantiates it with
the discrete distributions.  Queries and evidence are value assignments: the items of the
`VariableMap`, with intervals and sets of value indices (unions of intervals are not modelled).
Python iterates over the *set* of a query's variables; the products do not depend on the order, and
the model uses the order of the items.
-/

namespace Verif.Trees

/-- The operations of a distribution that trees use. -/
structure DistOps (D E : Type) where
  /-- `_p(value)`, the probability of an interval or set. -/
  p : D → Region → Except Err ℚ
  /-- `pdf(x)`. -/
  pdf : D → XQ → Except Err XQ
  /-- `_crop(value)`. -/
  crop : D → Region → Except Err D
  /-- `merge(distributions, weights)`. -/
  merge : List D → List ℚ → Except Err D
  /-- `mpe()`. -/
  mpe : D → Except Err (E × XQ)
  /-- `jaccard_similarity(d, e)`; `none` is `nan`. -/
  similarity : D → D → Except Err (Option ℚ)
  /-- `from_json(to_json(d))`. -/
  reload : D → Except Err D

/-- A value assignment: its items. -/
abbrev Query := List (ℕ × Region)

variable {D E : Type}

/-- `leaf.distributions[var]`. -/
def Leaf.dist (l : Leaf D) (v : ℕ) : Except Err D :=
  match l.dists[v]? with
  | none => .error .keyError
  | some d => .ok d

/-- `_check_variable_assignment` (trees.py 1466-1480) for a tree with `n` variables. -/
def checkQuery (n : ℕ) (q : Query) : Except Err Unit :=
  if ∀ e ∈ q, e.1 < n then .ok () else .error .valueError

/-! ## `apply` -/

/-- The condition for going down to a child (trees.py 1527-1528). -/
def passes (q : Query) (v : ℕ) (s : Region) : Bool :=
  match q.lookup v with
  | none => true
  | some r => !r.disjoint s

/-- The children that are visited, in the order of the splits (trees.py 1526-1529). -/
def Inner.visit (q : Query) (n : Inner) : List (Option ℕ) :=
  ((n.children.zip n.splits).filter (fun e => passes q n.var e.2)).map Prod.fst

/-- The loop of `apply` (trees.py 1515-1529): `popleft` and `appendleft`.  A child `None` has no
attributes. -/
def applyLoop (h : Heap D) (q : Query) : ℕ → List (Option ℕ) → Except Err (List (ℕ × Leaf D))
  | 0, fringe => if fringe = [] then .ok [] else .error .outOfFuel
  | _ + 1, [] => .ok []
  | _ + 1, none :: _ => .error .attributeError
  | k + 1, some id :: fringe =>
    match h.leaves.lookup id with
    | some l => do
      let rest ← applyLoop h q k fringe
      return (id, l) :: rest
    | none =>
      match h.inner.lookup id with
      | none => .error .attributeError
      | some n => applyLoop h q k ((n.visit q).reverse ++ fringe)

/-- `JPT.apply` (trees.py 1482-1529): the leaves in the order they are yielded.  No node is visited
twice, so the number of nodes bounds the loop. -/
def apply (n : ℕ) (h : Heap D) (q : Query) : Except Err (List (ℕ × Leaf D)) :=
  if ∀ e ∈ q, e.1 < n then
    match h.root with
    | none => .error .runtimeError
    | some r => applyLoop h q (h.inner.length + h.leaves.length + 1) [some r]
  else .error .typeError

/-- `Leaf.applies` (trees.py 361-374). -/
def Leaf.applies (full : ℕ → Region) (l : Leaf D) (q : Query) : Bool :=
  q.all (fun e =>
    match (pathMap full l.path).lookup e.1 with
    | none => true
    | some R => !R.disjoint e.2)

/-! ## `infer` -/

/-- `if var in leaf.path: val = val.intersection(leaf.path[var])` (trees.py 1063-1065, 1074-1076). -/
def Leaf.restrict (full : ℕ → Region) (l : Leaf D) (v : ℕ) (r : Region) : Region :=
  match (pathMap full l.path).lookup v with
  | none => r
  | some R => r.inter R

/-- The product over the items of a query or of the evidence (trees.py 1061-1066, 1073-1077), starting
with `init`. -/
def Leaf.mult (o : DistOps D E) (full : ℕ → Region) (l : Leaf D) (init : ℚ) (q : Query) :
    Except Err ℚ :=
  q.foldlM (fun p e => do
    let d ← l.dist e.1
    let x ← o.p d (l.restrict full e.1 e.2)
    return p * x) init

/-- The contribution of one leaf to `p_q` and `p_e` (trees.py 1059-1078). -/
def Leaf.infer (o : DistOps D E) (full : ℕ → Region) (l : Leaf D) (q e : Query) :
    Except Err (ℚ × ℚ) := do
  let pe ← l.mult o full 1 e
  let pm := pe * l.prior
  if l.applies full q then
    let pq ← l.mult o full pm q
    return (pq, pm)
  else return (0, pm)

/-- `JPT.infer` (trees.py 1011-1094); `none` is returned if the evidence is unsatisfiable and
`fail_on_unsatisfiability` is not set. -/
def infer (o : DistOps D E) (n : ℕ) (full : ℕ → Region) (h : Heap D) (q e : Query)
    (fail : Bool := true) : Except Err (Option ℚ) := do
  checkQuery n q
  checkQuery n e
  let ls ← apply n h e
  let ps ← ls.mapM (fun l => l.2.infer o full q e)
  let pq := (ps.map Prod.fst).sum
  let pe := (ps.map Prod.snd).sum
  if pe = 0 then (if fail then .error .valueError else .ok none)
  else return some (pq / pe)

/-! ## `posterior` -/

/-- `isinstance(v, ContinuousSet) and v.size() == 1` (trees.py 1143, 521): a single point. -/
def Region.point : Region → Option XQ
  | .num c => if c.lower = c.upper ∧ c.left = .inc ∧ c.right = .inc then some c.lower else none
  | .set _ => none

/-- A density with infinity replaced by one (trees.py 1144-1145, 533-534); a density below zero or
`-inf` does not occur. -/
def capOne : XQ → ℚ
  | .fin q => q
  | .pinf => 1
  | .ninf => 1

/-- The likelihood of the evidence on one variable (trees.py 1143-1147): the density at a single
point, the probability otherwise. -/
def lik (o : DistOps D E) (d : D) (r : Region) : Except Err ℚ :=
  match r.point with
  | some x => do
    let y ← o.pdf d x
    return capOne y
  | none => o.p d r

/-- One factor of the likelihood of the evidence (trees.py 1138-1155). -/
def Leaf.evidenceStep (o : DistOps D E) (full : ℕ → Region) (l : Leaf D) (acc : Option ℚ)
    (i : ℕ × Region) : Except Err (Option ℚ) :=
  match acc with
  | none => .ok none
  | some p => do
    let d ← l.dist i.1
    let x ← lik o d (l.restrict full i.1 i.2)
    return if x = 0 then none else some (p * x)

/-- The likelihood of the evidence in a leaf (trees.py 1138-1155); `none` if it is zero for some
variable. -/
def Leaf.evidence (o : DistOps D E) (full : ℕ → Region) (l : Leaf D) (e : Query) :
    Except Err (Option ℚ) :=
  e.foldlM (l.evidenceStep o full) (some 1)

/-- The distribution a leaf contributes for a variable (trees.py 1165-1171): it is cropped only if the
variable is restricted by the evidence *and* occurs in the path. -/
def Leaf.posterior (o : DistOps D E) (full : ℕ → Region) (l : Leaf D) (e : Query) (v : ℕ) :
    Except Err D := do
  let d ← l.dist v
  match e.lookup v with
  | none => return d
  | some r =>
    match (pathMap full l.path).lookup v with
    | none => return d
    | some R => o.crop d (r.inter R)

/-- What one leaf contributes (trees.py 1135-1171): its weight and the distributions of the asked
variables; `none` if it is left out. -/
def Leaf.contribution (o : DistOps D E) (full : ℕ → Region) (vs : List ℕ) (e : Query) (l : Leaf D) :
    Except Err (Option (ℚ × List D)) := do
  let x ← l.evidence o full e
  match x with
  | none => return none
  | some x => do
    let ds ← vs.mapM (l.posterior o full e)
    return some (x * l.prior, ds)

/-- `normalized(weights)` (trees.py 1174-1182), where `ValueError` becomes `Unsatisfiability`. -/
def weightsOf (ws : List ℚ) : Except Err (List ℚ) :=
  match Ut.normValues false false 0 ws with
  | .error .valueError => .error .unsatisfiable
  | r => r

/-- `JPT.posterior` (trees.py 1097-1197), with `fail_on_unsatisfiability`, which otherwise returns
`None`.  The asked variables are distinct. -/
def posterior (o : DistOps D E) (n : ℕ) (full : ℕ → Region) (h : Heap D) (vs : List ℕ) (e : Query) :
    Except Err (List (ℕ × D)) := do
  checkQuery n e
  let ls ← apply n h e
  let cs ← ls.mapM (fun l => l.2.contribution o full vs e)
  let cs := cs.filterMap id
  let ws ← weightsOf (cs.map Prod.fst)
  vs.zipIdx.mapM (fun vi => do
    let d ← o.merge (cs.filterMap (fun c => c.2[vi.2]?)) ws
    return (vi.1, d))

/-! ## `conditional_jpt` -/

/-- The factor of one variable in `Leaf.probability` (trees.py 489-545): an empty interval has
probability zero. -/
def factor (o : DistOps D E) (d : D) (r : Region) : Except Err ℚ :=
  match r with
  | .num c => if riEmpty c then .ok 0 else lik o d r
  | .set _ => o.p d r

/-- `Leaf.probability` (trees.py 465-548) without `min_distances`: the density at single points. -/
def Leaf.probability (o : DistOps D E) (l : Leaf D) (q : Query) : Except Err ℚ :=
  q.foldlM (fun p i => do
    let d ← l.dist i.1
    let x ← factor o d i.2
    return p * x) 1

/-- Remove the child `id` of a node together with its split (trees.py 2271-2273). -/
def Inner.dropChild (n : Inner) (id : ℕ) : Except Err Inner :=
  match n.children.idxOf? (some id) with
  | none => .error .valueError
  | some i => .ok { n with children := n.children.eraseIdx i, splits := n.splits.eraseIdx i }

/-- The state of the loop: the tree and the fringe. -/
structure CSt (D : Type) where
  heap : Heap D
  fringe : List ℕ

/-- What follows the removal of a node (trees.py 2264-2277): its parent is marked, and forgets it; an
empty tree has no root. -/
def removed (h : Heap D) (fringe : List ℕ) (id : ℕ) (parent : Option ℕ) : Except Err (CSt D) := do
  let root := if h.root = some id then none else h.root
  match parent with
  | none => return ⟨⟨h.inner, h.leaves, root⟩, fringe⟩
  | some p =>
    match h.inner.lookup p with
    | none => .error .attributeError
    | some n => do
      let n ← n.dropChild id
      return ⟨⟨Dict.set h.inner p n, h.leaves, root⟩, fringe ++ [p]⟩

/-- `leaf.prior *= probability` (trees.py 2257). -/
def Leaf.scale (l : Leaf D) (x : ℚ) : Leaf D := { l with prior := l.prior * x }

/-- One round of the loop (trees.py 2219-2277). -/
def condStep (o : DistOps D E) (e : Query) (h : Heap D) (fringe : List ℕ) (id : ℕ) :
    Except Err (CSt D) :=
  match h.leaves.lookup id with
  | some l => do
    let x ← l.probability o e
    if x > 0 then return ⟨⟨h.inner, Dict.set h.leaves id (l.scale x), h.root⟩, fringe⟩
    else removed ⟨h.inner, h.leaves.filter (fun a => decide (a.1 ≠ id)), h.root⟩ fringe id l.parent
  | none =>
    match h.inner.lookup id with
    | none => .ok ⟨h, fringe⟩
    | some n =>
      if n.children = [] then
        removed ⟨h.inner.filter (fun a => decide (a.1 ≠ id)), h.leaves, h.root⟩ fringe id n.parent
      else if n.children.length = 2 then
        match n.children.mapM (fun c => c) with
        | none => .error .attributeError
        | some cs => .ok ⟨h, cs.reverse ++ fringe⟩
      else .ok ⟨h, fringe⟩

/-- The loop (trees.py 2216-2277). -/
def condLoop (o : DistOps D E) (e : Query) : ℕ → CSt D → Except Err (Heap D)
  | 0, st => if st.fringe = [] then .ok st.heap else .error .outOfFuel
  | k + 1, st =>
    match st.fringe with
    | [] => .ok st.heap
    | id :: fringe => do condLoop o e k (← condStep o e st.heap fringe id)

/-- One `_crop` (trees.py 2293-2296). -/
def cropAt (o : DistOps D E) (ds : List D) (i : ℕ × Region) : Except Err (List D) :=
  match ds[i.1]? with
  | none => .error .keyError
  | some d => do
    let d' ← o.crop d i.2
    return ds.set i.1 d'

/-- The new prior of a leaf and its distributions cropped to the evidence (trees.py 2286-2296). -/
def Leaf.condition (o : DistOps D E) (e : Query) (mass : ℚ) (l : Leaf D) : Except Err (Leaf D) := do
  let ds ← e.foldlM (cropAt o) l.dists
  return { l with prior := l.prior / mass, dists := ds }

/-- `sum(leaf.prior for leaf in leaves.values())` (trees.py 2265-2267, 2323). -/
def Heap.priorSum (h : Heap D) : ℚ := (h.leaves.map (fun l => l.2.prior)).sum

/-- The items of a dictionary with changed values. -/
def mapVals {α β : Type} (f : α → Except Err β) (l : List (ℕ × α)) : Except Err (List (ℕ × β)) :=
  l.mapM (fun e => do
    let b ← f e.2
    return (e.1, b))

/-- `JPT.conditional_jpt` (trees.py 2184-2302) after `copy` (`Verif/Trees/Json.lean`), with
`fail_on_unsatisfiability`, which otherwise returns `None`.  The results are the nodes and the priors
of the new tree. -/
def conditionalOf (o : DistOps D E) (n : ℕ) (full : ℕ → Region) (h : Heap D) (priors : List (ℕ × D))
    (e : Query) : Except Err (Heap D × List (ℕ × D)) :=
  if e = [] then .ok (h, priors)
  else
    match h.root with
    | none => .error .attributeError
    | some r => do
      let h' ← condLoop o e (2 * (h.inner.length + h.leaves.length) + 1) ⟨h, [r]⟩
      let mass := if h'.root = none then 0 else h'.priorSum
      if mass = 0 then .error .unsatisfiable
      let ls ← mapVals (Leaf.condition o e mass) h'.leaves
      let h'' : Heap D := ⟨h'.inner, ls, h'.root⟩
      let ps ← posterior o n full h'' (List.range n) []
      return (h'', ps)

/-! ## Changing the priors -/

/-- `JPT.normalize` (trees.py 2318-2331). -/
def normalize (h : Heap D) : Except Err (Heap D) :=
  if h.priorSum = 0 then .error .unsatisfiable
  else .ok ⟨h.inner, h.leaves.map (fun l => (l.1, { l.2 with prior := l.2.prior / h.priorSum })), h.root⟩

/-- `self.leaves[idx].prior *= prior[idx]` (trees.py 2314). -/
def scaleBy (prior : List (ℕ × ℚ)) (l : ℕ × Leaf D) : Except Err (ℕ × Leaf D) :=
  match prior.lookup l.1 with
  | none => .error .keyError
  | some x => .ok (l.1, l.2.scale x)

/-- `JPT.multiply_by_leaf_prior` (trees.py 2304-2316), which changes the tree in place. -/
def multiplyPriors (h : Heap D) (prior : List (ℕ × ℚ)) : Except Err (Heap D) := do
  let ls ← h.leaves.mapM (scaleBy prior)
  normalize ⟨h.inner, ls, h.root⟩

/-! ## `mpe` -/

/-- Multiply a likelihood that may be infinite: it is then replaced by the minimal distance of the
variable (trees.py 652-657). -/
def capDist (dist : Option ℚ) : XQ → Except Err ℚ
  | .fin q => .ok q
  | .pinf => match dist with
    | none => .error .keyError
    | some d => .ok d
  | .ninf => .error .valueError

/-- `Leaf.mpe` (trees.py 636-665): the states of all variables and the likelihood. -/
def Leaf.mpe (o : DistOps D E) (dists : ℕ → Option ℚ) (l : Leaf D) : Except Err (List E × ℚ) :=
  l.dists.zipIdx.foldlM (fun acc d => do
    let m ← o.mpe d.1
    let x ← capDist (dists d.2) m.2
    return (acc.1 ++ [m.1], acc.2 * x)) ([], l.prior)

/-- The last part of `JPT.mpe` (trees.py 1278-1295): the states of all leaves that attain the
maximum; `max` of nothing fails. -/
def mpeOf (o : DistOps D E) (dists : ℕ → Option ℚ) (h : Heap D) : Except Err (List (List E) × ℚ) := do
  let ms ← h.leaves.mapM (fun l => l.2.mpe o dists)
  match (ms.map Prod.snd).max? with
  | none => .error .valueError
  | some m => return ((ms.filter (fun x => decide (x.2 = m))).map Prod.fst, m)

end Verif.Trees
