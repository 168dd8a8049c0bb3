import Verif.Trees.Likelihood
import Verif.Numeric.Query
import Verif.Utils.Model

/-!
# Sampling from a tree

The random numbers are parameters: for every row the number behind the choice of the leaf, and for every variable
the piece that is chosen and a number from 0 to 1.
-/

namespace Verif.Trees

open Disc

variable {L : Type} [DecidableEq L]

/-- `numpy.random.choice(range(len(ps)), p=ps)` for one number `u` from `[0, 1)`: the sums of the probabilities,
divided by the last one, and in it the place of `u` by `searchsorted(side='right')`.  The check of the probabilities is
`Num.choiceCheck`. -/
def choose (ps : List ℚ) (u : ℚ) : ℕ := (Ut.cumsumFrom 0 ps).countP (fun b => decide (b / ps.sum ≤ u))

/-- `sample(1)` of the distribution of a leaf (distribution.py 93-94, numeric.py 145-146, multinomial.py 281-287,
integer.py 217-231) for the piece `w.1` and the number `w.2`.  The number for the roulette wheel is
`random.uniform(0, 1)`: the probabilities sum to 1. -/
def sampleCell (val : ℤ → ℚ) (d : MD L) (w : ℕ × ℚ) : Except Err (Cell L) :=
  match d with
  | .inl cdf => do
    let out ← Num.sample' val cdf [w]
    match out with
    | [x] => .ok (.inl x)
    | _ => .error .valueError
  | .inr d => do
    let wheel ← Ut.mkWheel ((List.range d.2.dom.labels.length).map (fun i : ℕ => (i : ℤ))) d.2.params false
    let v ← wheel.get w.2
    match d.2.dom.labelOf v with
    | none => .error .valueError
    | some l => .ok (.inr l)

/-- `Leaf.sample` (trees.py 679-692), one row: a number or label for each variable. -/
def Leaf.sampleRow (val : ℤ → ℚ) (l : Leaf (MD L)) (w : ℕ → ℕ × ℚ) : Except Err (List (Cell L)) :=
  l.dists.zipIdx.mapM (fun d => sampleCell val d.1 (w d.2))

/-- `JPT.sample` (trees.py 2494-2520).  The code fills the table leaf by leaf and column by column, the model row by
row: if several distributions cannot be sampled, the model may report another of the errors. -/
def sampleTree (val : ℤ → ℚ) (h : Heap (MD L)) (draws : List (ℚ × (ℕ → ℕ × ℚ))) : Except Err (List (List (Cell L))) := do
  Num.choiceCheck (h.leaves.map (fun l => l.2.prior))
  draws.mapM (fun w =>
    match h.leaves[choose (h.leaves.map (fun l => l.2.prior)) w.1]? with
    | none => .error .indexError
    | some l => l.2.sampleRow val w.2)

end Verif.Trees
