import Verif.Vars.Bind
import Verif.Trees.Region
import Verif.Trees.Props9

/-!
# From assignments to queries

The trees of the model refer to variables by their positions and to what is asked about them as regions.
-/

namespace Verif.Trees

open Vars

/-- The region an internal value stands for.  Only sets of positions and intervals are modelled, as they come from `bind`
without `allow_singular_values` (trees.py 1403-1462). -/
def valRegion : Val → Except Err Region
  | .cs c => .ok (.num c)
  | .ev (.set l) => do return .set (← l.mapM (fun a => asInt (some a)))
  | _ => .error .notImplemented

/-- The query of a value assignment: its items in their order, with the positions of the variables in the tree. -/
def queryOf (vs : List (Var Domain)) (m : Asg) : Except Err Query := do
  let is ← VMap.items m
  is.mapM fun p => do
    if p.1 ∈ vs then return (vs.idxOf p.1, ← valRegion p.2) else .error .keyError

end Verif.Trees
