import Verif.Utils.Heap
import Verif.Discrete.Model
import Mathlib.Algebra.Order.Group.Defs
import Mathlib.Order.WithBot
import Mathlib.Data.List.Sort

/-!
# Model of the k-MPE branch-and-bound solver (`src/jpt/inference/mpe.py`)

Costs (`-log` of likelihoods) are elements of an arbitrary linearly ordered commutative group `K`;
floating point rounding of costs is not modelled.  `V` are the variables, `A` the values (sets of
states) a variable can be assigned.
-/

namespace Verif.Mpe

open Verif.HQ

variable {V A K : Type}

/-- A cost before node consistency has been established: `-inf`, a number, or `+inf`. -/
abbrev RawCost (K : Type) := WithBot (WithTop K)

/-- A variable with its unary constraint: the values with their costs. -/
abbrev Constr (V A K : Type) := V × List (A × K)

/-- Sorting the values by cost (mpe.py 133-149), then removing values of infinite cost and setting
`-inf` to zero (mpe.py 151-156). -/
def mkConstraint [LinearOrder K] [Zero K] (vals : List (A × RawCost K)) : List (A × K) :=
  (vals.insertionSort (fun x y => x.2 ≤ y.2)).filterMap fun x =>
    match x.2 with
    | none => some (x.1, 0)
    | some none => none
    | some (some c) => some (x.1, c)

/-- `variable_order()` without a state (mpe.py 201-204): the variables sorted by their number of
values. -/
def order (cs : List (Constr V A K)) : List (Constr V A K) :=
  cs.insertionSort (fun x y => x.2.length ≤ y.2.length)

/-- `min(constraints.values())`; `ValueError` for an empty dict. -/
def minCost [LinearOrder K] (c : Constr V A K) : Except Err K :=
  match (c.2.map Prod.snd).min? with
  | none => .error .valueError
  | some k => .ok k

/-- `np.cumsum`. -/
def cumsum [Add K] : K → List K → List K
  | _, [] => []
  | acc, x :: l => (acc + x) :: cumsum (acc + x) l

/-- A solver object: the constraints in variable order, and the local lower bounds. -/
structure Solver (V A K : Type) where
  vars : List (Constr V A K)
  lb : List (V × K)

/-- `MPESolver.__init__` (mpe.py 109-176) from the values and raw costs of each variable. -/
def mkSolver [LinearOrder K] [AddCommGroup K] (vals : List (V × List (A × RawCost K))) :
    Except Err (Solver V A K) := do
  let vars := order (vals.map fun v => (v.1, mkConstraint v.2))
  let ms ← vars.reverse.mapM minCost
  let lb := (vars.map Prod.fst).zip ((cumsum 0 ms).dropLast.reverse ++ [0])
  return ⟨vars, lb⟩

/-- A complete or partial assignment, in order of assignment. -/
abbrev Assign (V A : Type) := List (V × A)

/-- `BnBNode` (mpe.py 40-86).  `cur` is the current value followed by the values the iterator has
not yet produced; it is empty when the iterator is exhausted (`state is None`). -/
structure Node (V A K : Type) where
  old : Assign V A
  var : V
  cur : List (A × K)
  actual : K

/-- `BnBSolution` (mpe.py 89-93). -/
structure Sol (V A K : Type) where
  state : Assign V A
  cost : K

section
variable [LinearOrder K] [AddCommGroup K] [DecidableEq V]

/-- `first(variable_order(state))` (mpe.py 190-200). -/
def Solver.firstFree (s : Solver V A K) (st : Assign V A) : Option (Constr V A K) :=
  s.vars.find? fun c => decide (c.1 ∉ st.map Prod.fst)

/-- `BnBNode.__init__` (mpe.py 42-51).  `none`: there is no free variable, and the node's state is
`None`. -/
def Solver.mkNode (s : Solver V A K) (st : Assign V A) (actual : K) : Option (Node V A K) :=
  (s.firstFree st).map fun c => ⟨st, c.1, c.2, actual⟩

/-- `node.state` (mpe.py 53-60). -/
def Node.state (n : Node V A K) : Option (Assign V A) :=
  match n.cur with
  | [] => none
  | (a, _) :: _ => some (n.old ++ [(n.var, a)])

/-- `actual_cost + step_cost`. -/
def Node.stepped (n : Node V A K) : K :=
  match n.cur with
  | [] => n.actual
  | (_, c) :: _ => n.actual + c

/-- `node.cost` (mpe.py 79-81); `lb.get(variable, 0)`. -/
def Solver.cost (s : Solver V A K) (n : Node V A K) : K := n.stepped + (s.lb.lookup n.var).getD 0

/-- `node._generate_next()` as called by `pop` (mpe.py 70). -/
def Node.next (n : Node V A K) : Node V A K := { n with cur := n.cur.tail }

/-- `is_goal_state` (mpe.py 183-188), `not free_variables` (mpe.py 83-85). -/
def Solver.isGoal (s : Solver V A K) (st : Assign V A) : Bool :=
  s.vars.all fun c => decide (c.1 ∈ st.map Prod.fst)

end

/-- The local variables of `solve`: the fringe, the upper bound (`⊤` is `inf`), and the two heaps. -/
structure St (V A K : Type) where
  fringe : List (Node V A K)
  ub : WithTop K
  sols : PQ K (Sol V A K)
  pruned : PQ K (Node V A K)

section
variable [LinearOrder K] [AddCommGroup K] [DecidableEq V] [Inhabited V]

instance : Inhabited (Node V A K) := ⟨⟨[], default, [], 0⟩⟩
instance : Inhabited (Sol V A K) := ⟨⟨[], 0⟩⟩

/-- Put a node back if its iterator is not exhausted. -/
def putBack (n : Node V A K) (l : List (Node V A K)) : List (Node V A K) :=
  if n.cur.isEmpty then l else n :: l

/-- One pass through the body of the inner loop (mpe.py 230-250) for the node taken from the
fringe. -/
def Solver.stepNode (s : Solver V A K) (node : Node V A K) (rest : List (Node V A K))
    (t : St V A K) : Except Err (St V A K) :=
  match node.state with
  | none => .error .attributeError
  | some st =>
    let c := s.cost node
    if s.isGoal st then
      if (c : WithTop K) ≤ t.ub then
        .ok { t with ub := c, sols := t.sols.push Sol.cost 1 ⟨st, c⟩, fringe := putBack node.next rest }
      else .ok { t with pruned := t.pruned.push s.cost 1 node, fringe := rest }
    else if t.ub < (c : WithTop K) then
      .ok { t with pruned := t.pruned.push s.cost 1 node, fringe := rest }
    else
      match s.mkNode st node.stepped with
      | none => .error .attributeError
      | some new => .ok { t with fringe := new :: putBack node.next rest }

/-- The inner loop (mpe.py 229-250). -/
def Solver.inner (s : Solver V A K) : ℕ → St V A K → Except Err (St V A K)
  | 0, t => match t.fringe with
    | [] => .ok t
    | _ => .error .outOfFuel
  | f + 1, t => match t.fringe with
    | [] => .ok t
    | node :: rest => do s.inner f (← s.stepNode node rest t)

/-- `while solutions and solutions[0].cost == ub` (mpe.py 251-256).  Returns the solutions yielded,
the remaining heap, and whether the generator returned. -/
def Solver.yieldLoop (k : ℕ) (ub : WithTop K) :
    ℕ → ℕ → PQ K (Sol V A K) → Except Err (List (Sol V A K) × PQ K (Sol V A K) × Bool × ℕ)
  | 0, _, _ => .error .outOfFuel
  | f + 1, count, h =>
    if h.n = 0 then .ok ([], h, false, count)
    else do
      let top ← h.get 0
      if (top.cost : WithTop K) = ub then
        let (sol, h') ← h.pop
        if k ≠ 0 ∧ count + 1 ≥ k then .ok ([sol], h', true, count + 1)
        else
          let (sols, h'', stop, count') ← yieldLoop k ub f (count + 1) h'
          .ok (sol :: sols, h'', stop, count')
      else .ok ([], h, false, count)

/-- `while pruned: fringe.append(pruned.pop())` (mpe.py 259-260). -/
def drain : ℕ → PQ K (Node V A K) → Except Err (List (Node V A K) × PQ K (Node V A K))
  | 0, h => if h.n = 0 then .ok ([], h) else .error .outOfFuel
  | f + 1, h =>
    if h.n = 0 then .ok ([], h)
    else do
      let (x, h') ← h.pop
      let (xs, h'') ← drain f h'
      return (x :: xs, h'')

/-- `solutions[0].cost if solutions else inf` (mpe.py 257). -/
def topCost (h : PQ K (Sol V A K)) : WithTop K :=
  match h.get 0 with
  | .ok x => (x.cost : WithTop K)
  | .error _ => ⊤

/-- The outer loop (mpe.py 228-260); the result is the list of everything that is yielded.
`fi`: bound on the passes of the inner loop. -/
def Solver.outer (s : Solver V A K) (k fi : ℕ) : ℕ → ℕ → St V A K → Except Err (List (Sol V A K))
  | 0, _, _ => .error .outOfFuel
  | f + 1, count, t =>
    if t.fringe.isEmpty ∧ t.sols.n = 0 then .ok []
    else do
      let t1 ← s.inner fi t
      let (ys, sols, stop, count') ← Solver.yieldLoop k t1.ub (t1.sols.n + 1) count t1.sols
      if stop then return ys
      else
        let (fr, pruned) ← drain t1.pruned.n t1.pruned
        let more ← s.outer k fi f count'
          { fringe := t1.fringe ++ fr, ub := topCost sols, sols := sols, pruned := pruned }
        return ys ++ more

/-- Number of complete assignments, and the bound on the number of passes of the inner loop. -/
def sizes : List (Constr V A K) → ℕ × ℕ
  | [] => (1, 1)
  | c :: cs => let r := sizes cs; (c.2.length * r.1, 1 + c.2.length * r.2)

/-- `solve(k)` (mpe.py 206-260).  `k = 0`: all solutions. -/
def Solver.solve (s : Solver V A K) (k : ℕ) : Except Err (List (Sol V A K)) :=
  match s.mkNode [] 0 with
  | none => .error .attributeError
  | some n => s.outer k (sizes s.vars).2 ((sizes s.vars).1 + 1) 0
      { fringe := [n], ub := ⊤, sols := PQ.init Sol.cost 1 [], pruned := PQ.init s.cost 1 [] }

/-- `likelihood` (mpe.py 178-181): the product of the likelihoods recorded for the values. -/
def likelihood (lik : V → A → ℚ) (a : Assign V A) : ℚ := (a.map fun x => lik x.1 x.2).prod

/-- The values of a symbolic or integer variable with their raw costs (mpe.py 124-149): the states of
`_k_mpe()` and `-log` of the probability `_p` of the whole state. -/
def rawCosts {L : Type} [DecidableEq L] (neglog : ℚ → RawCost K) (d : Disc.Dist L) :
    Except Err (List (List ℤ × RawCost K)) :=
  (d.kMpeVal none).mapM fun g => do return (g.1, neglog (← d.pVal (.set g.1)))

/-- `self.domains[var][val]` (mpe.py 126-128): the likelihood reported by `_k_mpe()`. -/
def domainOf {L : Type} (dists : List (V × Disc.Dist L)) (v : V) (a : List ℤ) : ℚ :=
  match dists.lookup v with
  | none => 0
  | some d => ((d.kMpeVal none).lookup a).getD 0

/-- `MPESolver(distributions).solve(k)` for symbolic and integer variables: everything that is
yielded, assignments with likelihoods. -/
def solveDiscrete {L : Type} [DecidableEq L] (neglog : ℚ → RawCost K) (k : ℕ)
    (dists : List (V × Disc.Dist L)) : Except Err (List (Assign V (List ℤ) × ℚ)) := do
  let vals ← dists.mapM fun x => do return (x.1, ← rawCosts neglog x.2)
  let s ← mkSolver vals
  let sols ← s.solve k
  return sols.map fun x => (x.state, likelihood (domainOf dists) x.state)

end

end Verif.Mpe
