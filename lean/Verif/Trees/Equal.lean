import Verif.Trees.Learned2

/-!
# Model of `==` on trees

`JPT.__eq__`, `DecisionNode.__eq__` and `Leaf.__eq__` (`trees.py` 209-219, 439-445, 929-955).  The settings are compared in
`Verif/Trees/Settings.lean`.  Simplification: Python takes an object to be equal to itself without calling `__eq__` when it
compares the items of containers.
-/

namespace Verif.Trees

open Iv (FP CS Br NS)
open Fun (PF)

variable {α D L : Type}

/-- The items of two lists of the same length are compared until two differ. -/
def allEq (f : α → α → Except Err Bool) : List α → List α → Except Err Bool
  | a :: as, b :: bs => do
    if ← f a b then allEq f as bs else return false
  | _, _ => .ok true

/-- `==` of two lists; lists of different lengths are different. -/
def listEq (f : α → α → Except Err Bool) (a b : List α) : Except Err Bool :=
  if a.length = b.length then allEq f a b else .ok false

/-- The items of a dictionary are compared with those of another one until two differ. -/
def lookupEq (f : α → α → Except Err Bool) (b : List (ℕ × α)) : List (ℕ × α) → Except Err Bool
  | [] => .ok true
  | (k, x) :: as =>
    match b.lookup k with
    | none => .ok false
    | some y => do
      if ← f x y then lookupEq f b as else return false

/-- `==` of two dictionaries. -/
def itemsEq (f : α → α → Except Err Bool) (a b : List (ℕ × α)) : Except Err Bool :=
  if a.length = b.length then lookupEq f b a else .ok false

/-- `==` of two sets of values: `ContinuousSet.__eq__` (`intervals.pyx` 1213-1219), which asks the other object for `min` and
`max`, or `set.__eq__`, which leaves the comparison with an interval to `ContinuousSet.__eq__`. -/
def regionEq (idx : ℚ → ℤ) : Region → Region → Except Err Bool
  | .num a, .num b => .ok ((toCS idx a).eq (toCS idx b))
  | .set l, .set m => .ok (l.all (fun z => m.contains z) && m.all (fun z => l.contains z))
  | _, _ => .error .attributeError

/-- The numbers of the children (`trees.py` 215); `None` has no `idx`. -/
def Inner.kids (n : Inner) : Except Err (List ℕ) :=
  match n.children.mapM (fun c => c) with
  | none => .error .attributeError
  | some l => .ok l

/-- `DecisionNode.__eq__` (`trees.py` 209-219) of two nodes with the same number. -/
def innerEq (idx : ℚ → ℤ) (a b : Inner) : Except Err Bool :=
  if a.parent = b.parent then do
    let x ← a.kids
    let y ← b.kids
    if x = y then
      if ← listEq (regionEq idx) a.splits b.splits then return decide (a.var = b.var) && decide (a.samples = b.samples)
      else return false
    else return false
  else .ok false

/-- `==` of two items of a path: pairs of a variable and a set. -/
def stepEq (idx : ℚ → ℤ) (s t : ℕ × Region) : Except Err Bool :=
  if s.1 = t.1 then regionEq idx s.2 t.2 else .ok false

/-- `Leaf.__eq__` (`trees.py` 439-445) of two leaves with the same number; `deq` compares distributions. -/
def leafEq (idx : ℚ → ℤ) (deq : D → D → Except Err Bool) (a b : Leaf D) : Except Err Bool := do
  if ← listEq (stepEq idx) a.path b.path then
    if a.samples = b.samples then
      if ← listEq deq a.dists b.dists then return decide (a.prior = b.prior) else return false
    else return false
  else return false

/-- `JPT.__eq__` (`trees.py` 929-955) of two trees with equal settings: all comparisons are made. -/
def treeEq (idx : ℚ → ℤ) (deq : D → D → Except Err Bool) (h h' : Heap D) (priors priors' : List (ℕ × D)) :
    Except Err Bool := do
  let a ← itemsEq (innerEq idx) h.inner h'.inner
  let b ← itemsEq (leafEq idx deq) h.leaves h'.leaves
  let c ← itemsEq deq priors priors'
  return a && b && c

/-- `Multinomial.__eq__`, `Integer.__eq__` (multinomial.py 160-165, integer.py 412-416) of two distributions of the same
domain. -/
def discEq [DecidableEq L] (d e : DD L) : Except Err Bool :=
  if d.2.params.length = e.2.params.length then .ok (decide (d.2.params = e.2.params)) else .error .attributeError

/-- `==` of two distributions: `Numeric.__eq__` (numeric.py 67-76) fails if the other one is not numeric; it compares the cdfs
(`quantiles.pyx` 62-67; the tolerances are settings of the variable). -/
def mixEq [DecidableEq L] : MD L → MD L → Except Err Bool
  | .inl d, .inl e => PF.eq d e
  | .inl _, .inr _ => .error .typeError
  | .inr _, .inl _ => .ok false
  | .inr d, .inr e => discEq d e

/-- The priors of a learned tree (trees.py 1786-1793): the distributions of the variables, fitted to all rows. -/
def learnedPriors (n total : ℕ) (fit : List ℕ → ℕ → D) : List (ℕ × D) :=
  (List.range n).map (fun v : ℕ => (v, fit (List.range total) v))

end Verif.Trees
