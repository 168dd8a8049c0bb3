import Verif.Trees.Expect
import Verif.Trees.Learned2
import Verif.Numeric.Query

/-!
# Expectations and moments of trees with numeric variables

`lab v` gives the label of a value of the numeric variable `v`, `prev v` the float before a label.
-/

namespace Verif.Trees

open Disc

variable {L : Type} [DecidableEq L]

/-- `expectation` of a distribution (numeric.py 167-168, integer.py 258-259, multinomial.py 295-309). -/
def expectationMixOf (val : ℤ → ℚ) (lab prev : ℚ → ℚ) (num : L → ℚ) : MD L → Except Err (ℚ ⊕ Arg L)
  | .inl p => do return .inl (← Num.expectation val lab prev p)
  | .inr d => expectationOf num d

/-- The result of `posterior` with the option `fail_on_unsatisfiability` (trees.py 1173-1182).  Simplification: with
evidence on an asked numeric variable, cropping may raise an `Unsatisfiability` which this option does not concern. -/
def posteriorMix? (val : ℤ → ℚ) (idx rnd : ℚ → ℤ) (n : ℕ) (full : ℕ → Region) (h : Heap (MD L)) (vs : List ℕ) (e : Query)
    (fail : Bool) : Except Err (Option (List (ℕ × MD L))) :=
  match posterior (mixOps L val idx rnd) n full h vs e with
  | .error .unsatisfiable => if fail then .error .unsatisfiable else .ok none
  | .error x => .error x
  | .ok ds => .ok (some ds)

/-- `JPT.expectation` (trees.py 1199-1246), for evidence that is a `ValueAssignment`. -/
def expectationMix (val : ℤ → ℚ) (idx rnd : ℚ → ℤ) (lab prev : ℕ → ℚ → ℚ) (num : L → ℚ) (n : ℕ) (full : ℕ → Region)
    (h : Heap (MD L)) (vs : Option (List ℕ)) (e : Query) (fail : Bool) : Except Err (Option (List (ℕ × (ℚ ⊕ Arg L)))) := do
  let ds ← posteriorMix? val idx rnd n full h (askedVars n vs e) e fail
  match ds with
  | none => return none
  | some ds => do
    let rs ← ds.mapM (fun b => do
      let x ← expectationMixOf val (lab b.1) (prev b.1) num b.2
      return (b.1, x))
    return some rs

/-- `moment` of a distribution (numeric.py 525-576, integer.py 458-469). -/
def momentMixOf (val : ℤ → ℚ) (lab prev : ℚ → ℚ) (num : L → ℚ) (order : ℕ) (c : ℚ) : MD L → Except Err ℚ
  | .inl p => Num.moment val lab prev p order c
  | .inr d => .ok (momentOf num d.2 order c)

/-- `v.numeric or v.integer` (trees.py 2540). -/
def hasMoment : MK L → Bool
  | .inl _ => true
  | .inr k => k.1

/-- `JPT.moment` (trees.py 2522-2562), for centers that are numbers. -/
def momentMix (val : ℤ → ℚ) (idx rnd : ℚ → ℤ) (lab prev : ℕ → ℚ → ℚ) (num : L → ℚ) (kind : ℕ → MK L) (n : ℕ)
    (full : ℕ → Region) (h : Heap (MD L)) (order : ℕ) (center : List (ℕ × ℚ)) (e : Query) (fail : Bool) :
    Except Err (Option (List (ℕ × ℚ))) := do
  let ds ← posteriorMix? val idx rnd n full h ((List.range n).filter (fun v => hasMoment (kind v))) e fail
  match ds with
  | none => return none
  | some ds => do
    let rs ← ds.mapM (fun b => do
      let x ← momentMixOf val (lab b.1) (prev b.1) num order ((center.lookup b.1).getD 0) b.2
      return (b.1, x))
    return some rs

end Verif.Trees
