import Verif.Trees.Discrete
import Verif.Trees.Model

/-!
# Expectations and moments of trees over symbolic and integer variables

`num` gives the number that a label of an integer variable is.
-/

namespace Verif.Trees

open Disc

variable {L : Type} [DecidableEq L]

/-- `Integer.expectation` (integer.py 258-259): iterating over `values` gives the labels. -/
def meanOf (num : L → ℚ) (d : Dist L) : ℚ := (List.zipWith (fun p l => p * num l) d.params d.dom.labels).sum

/-- `Integer.moment` (integer.py 458-469). -/
def momentOf (num : L → ℚ) (d : Dist L) (order : ℕ) (center : ℚ) : ℚ :=
  (List.zipWith (fun l p => (num l - center) ^ order * p) d.dom.labels d.params).sum

/-- `expectation` of a distribution (integer.py 258-259, multinomial.py 295-309): a number, or the set of the most
probable labels. -/
def expectationOf (num : L → ℚ) (d : DD L) : Except Err (ℚ ⊕ Arg L) :=
  if d.1 then .ok (.inl (meanOf num d.2))
  else do
    let m ← d.2.mpe
    return .inr m.1

/-- The variables `JPT.expectation` computes (trees.py 1226-1229): `ifnone` replaces `None` by all variables, `ifnot` an
empty list by the variables without evidence. -/
def askedVars (n : ℕ) (vs : Option (List ℕ)) (e : Query) : List ℕ :=
  match vs.getD (List.range n) with
  | [] => (List.range n).filter (fun v => !(e.map Prod.fst).contains v)
  | l => l

/-- The result of `posterior` with the option `fail_on_unsatisfiability` (trees.py 1173-1182).  In trees over symbolic
and integer variables nothing else raises `Unsatisfiability`. -/
def posterior? (n : ℕ) (full : ℕ → Region) (h : Heap (DD L)) (vs : List ℕ) (e : Query) (fail : Bool) :
    Except Err (Option (List (ℕ × DD L))) :=
  match posterior (discOps L) n full h vs e with
  | .error .unsatisfiable => if fail then .error .unsatisfiable else .ok none
  | .error x => .error x
  | .ok ds => .ok (some ds)

/-- `JPT.expectation` (trees.py 1199-1246), for evidence that is a `ValueAssignment`. -/
def expectation (num : L → ℚ) (n : ℕ) (full : ℕ → Region) (h : Heap (DD L)) (vs : Option (List ℕ)) (e : Query)
    (fail : Bool) : Except Err (Option (List (ℕ × (ℚ ⊕ Arg L)))) := do
  let ds ← posterior? n full h (askedVars n vs e) e fail
  match ds with
  | none => return none
  | some ds => do
    let rs ← ds.mapM (fun b => do
      let x ← expectationOf num b.2
      return (b.1, x))
    return some rs

/-- The `center` of `moment`: a map to numbers, or a `LabelAssignment`. -/
inductive Center (L : Type)
  | numbers (m : List (ℕ × ℚ))
  | labels (m : List (ℕ × Arg L))

/-- An argument with numbers in place of values. -/
def Arg.toRat : Arg ℤ → Arg ℚ
  | .atom a => .atom a
  | .list l => .list (l.map (fun a => (a : ℚ)))
  | .tuple l => .tuple (l.map (fun a => (a : ℚ)))
  | .set l => .set (l.map (fun a => (a : ℚ)))

/-- `center.value_assignment()` (trees.py 2544-2546, variables.py 793-794): labels become values. -/
def Center.values (dom : ℕ → Dom L) : Center L → Except Err (List (ℕ × Arg ℚ))
  | .numbers m => .ok (m.map (fun i => (i.1, .atom i.2)))
  | .labels m => m.mapM (fun i => do
      let a ← (dom i.1).label2value i.2
      return (i.1, Arg.toRat a))

/-- The center of one variable (trees.py 2554-2558): 0 by default; a set cannot be subtracted (integer.py 468). -/
def centerAt (m : List (ℕ × Arg ℚ)) (v : ℕ) : Except Err ℚ :=
  match m.lookup v with
  | none => .ok 0
  | some (.atom c) => .ok c
  | some _ => .error .typeError

/-- `JPT.moment` (trees.py 2522-2562) in trees over symbolic and integer variables: `kind v` tells whether `v` is an
integer variable, and its domain. -/
def moment (num : L → ℚ) (kind : ℕ → Bool × Dom L) (n : ℕ) (full : ℕ → Region) (h : Heap (DD L)) (order : ℕ)
    (center : Center L) (e : Query) (fail : Bool) : Except Err (Option (List (ℕ × ℚ))) := do
  let ds ← posterior? n full h ((List.range n).filter (fun v => (kind v).1)) e fail
  let cs ← center.values (fun v => (kind v).2)
  match ds with
  | none => return none
  | some ds => do
    let rs ← ds.mapM (fun b => do
      let c ← centerAt cs b.1
      return (b.1, momentOf num b.2.2 order c))
    return some rs

end Verif.Trees
