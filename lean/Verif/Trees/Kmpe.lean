import Verif.Trees.Props2
import Verif.Mpe.Props
import Verif.Utils.Heap

/-!
# Model of `kmpe`

`JPT.kmpe` (trees.py 1297-1359) for symbolic and integer variables.  The results are assignments of sets
of values; the translation to labels is `LabelAssignment` (C30, C54).  The solvers are exhausted in
advance here, which only matters for when an exception appears.
-/

namespace Verif.Trees

open HQ (PQ)

variable {L : Type} [DecidableEq L] {K : Type} [LinearOrder K] [AddCommGroup K]

/-- A state: the values of each variable, and the likelihood. -/
abbrev MState := List (ℕ × List ℤ) × ℚ

/-- An entry of the heap (trees.py 1336-1339): a solution, and what its solver has still to yield. -/
abbrev Cand (S : Type) := (S × ℚ) × List (S × ℚ)

/-- `key=itemgetter(1)` (trees.py 1338). -/
def Cand.key {S : Type} (c : Cand S) : ℚ := c.1.2

/-- `next(solver)` for the first time (trees.py 1337); `StopIteration` inside a generator becomes
`RuntimeError`. -/
def firstOf {S : Type} : List (S × ℚ) → Except Err (Cand S)
  | [] => .error .runtimeError
  | x :: l => .ok (x, l)

/-- `mpe_candidates.push((*next(solver), solver))`, where `StopIteration` is ignored
(trees.py 1354-1357). -/
def pushNext {S : Type} [Inhabited S] (q : PQ ℚ (Cand S)) : List (S × ℚ) → PQ ℚ (Cand S)
  | [] => q
  | x :: l => q.push Cand.key 1 (x, l)

/-- The loop (trees.py 1341-1358).  The fuel is the number of solutions of all solvers. -/
def kmpeLoop {S : Type} [Inhabited S] (k : ℕ) : ℕ → ℕ → PQ ℚ (Cand S) → Except Err (List (S × ℚ))
  | 0, _, q => if q.n = 0 then .ok [] else .error .outOfFuel
  | f + 1, count, q =>
    if q.n = 0 ∨ (k ≠ 0 ∧ k ≤ count) then .ok []
    else do
      let r ← q.pop
      let rest ← kmpeLoop k f (count + 1) (pushNext r.2 r.1.2)
      return r.1.1 :: rest

/-- The heap and the loop for given solutions of the solvers (trees.py 1336-1358). -/
def mergeSolvers {S : Type} [Inhabited S] (k : ℕ) (ss : List (List (S × ℚ))) : Except Err (List (S × ℚ)) := do
  let cs ← ss.mapM firstOf
  kmpeLoop k (ss.map List.length).sum 0 (PQ.init Cand.key 1 cs)

/-- `MPESolver(distributions=leaf.distributions).solve()` (trees.py 1329-1334). -/
def Leaf.solutions (neglog : ℚ → Mpe.RawCost K) (l : Leaf (DD L)) : Except Err (List MState) :=
  Mpe.solveDiscrete neglog 0 (l.dists.zipIdx.map (fun d => (d.2, d.1.2)))

/-- `kmpe` after conditioning (trees.py 1320-1358); there are no numeric distributions, so that
`likelihood_divisor` is `None`. -/
def kmpeOf (neglog : ℚ → Mpe.RawCost K) (h : Heap (DD L)) (k : ℕ) : Except Err (List MState) := do
  let ss ← h.leaves.mapM (fun l => l.2.solutions neglog)
  mergeSolvers k ss

/-- `JPT.kmpe` (trees.py 1297-1359), with `fail_on_unsatisfiability`; otherwise nothing is yielded. -/
def kmpe (neglog : ℚ → Mpe.RawCost K) (n : ℕ) (full : ℕ → Region) (h : Heap (DD L)) (priors : List (ℕ × DD L))
    (e : Query) (k : ℕ) : Except Err (List MState) := do
  let c ← conditional (discOps L) n full h priors e
  kmpeOf neglog c.1 k

end Verif.Trees
