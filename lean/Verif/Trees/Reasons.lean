import Verif.Trees.Report

/-!
# Model of the reasons for unsatisfiable evidence

The dictionary `inconsistencies` of `posterior` (trees.py 1134-1162) and `Unsatisfiability.reasons` (base/errors.py 12-18).
-/

namespace Verif.Trees

variable {D E : Type}

/-- The loop over the evidence in a leaf (trees.py 1138-1158): the conflicting part of the evidence, within the path of the
leaf, and the likelihood of the rest; without `report` the loop ends at the first conflict.  The conflicting part is kept in
internal values.  The code goes through the evidence in the order of a set, which is the same for all leaves: it is the order
of `e`. -/
def Leaf.conflicts (o : DistOps D E) (full : ℕ → Region) (l : Leaf D) (report : Bool) :
    Query → Query × ℚ → Except Err (Query × ℚ)
  | [], acc => .ok acc
  | i :: e, (c, p) => do
    let d ← l.dist i.1
    let r := l.restrict full i.1 i.2
    let x ← lik o d r
    if x = 0 then
      if report then l.conflicts o full report e (c ++ [(i.1, r)], p) else .ok (c ++ [(i.1, r)], p)
    else l.conflicts o full report e (c, p * x)

/-- `inconsistencies[a] = inconsistencies.get(a, 0) + likelihood` if there is a conflict, i.e. if `a` is not the empty
assignment `z` (trees.py 1160-1162).  The parts of the evidence are compared as lists, in the order of the evidence: the
elements of an intersection come in the order of the evidence, too; intervals are told apart by their bounds, as their hash
is (intervals.pyx 1299-1302).  Sorting the labels of a set for the hash (variables.py 635-644) is left out. -/
def addReason {K : Type} [DecidableEq K] (z : K) (rs : List (K × ℚ)) (c : K × ℚ) : List (K × ℚ) :=
  if c.1 = z then rs else Dict.set rs c.1 ((rs.lookup c.1).getD 0 + c.2)

/-- The dictionary `inconsistencies` after the loop over the leaves (trees.py 1134-1162). -/
def inconsistencies (o : DistOps D E) (n : ℕ) (full : ℕ → Region) (h : Heap D) (e : Query) (report : Bool) :
    Except Err (List (Query × ℚ)) := do
  checkQuery n e
  let ls ← apply n h e
  let cs ← ls.mapM (fun l => l.2.conflicts o full report e ([], 1))
  return cs.foldl (addReason []) []

/-- `Unsatisfiability.reasons` (base/errors.py 12-18): sorted by the likelihood, in descending order. -/
def reasons (rs : List (Query × ℚ)) : List (ℚ × Query) :=
  (rs.map fun r => (r.2, r.1)).insertionSort (fun a b => b.1 ≤ a.1)

end Verif.Trees
