import Verif.Trees.BindQuery
import Verif.Vars.Text

/-!
# Model of the errors for unsatisfiable evidence

`infer` (trees.py 1011-1094) and `posterior` (trees.py 1097-1197) as they are called by the user, with the text of the error,
which is made of the evidence *before* it was translated to internal values (trees.py 1089, 1183).
-/

namespace Verif.Trees

open Vars

variable {D E : Type}

/-- `infer` on label assignments (trees.py 1011-1094): the assignments are translated, and if the evidence has probability
zero, its text is made before the `ValueError` is raised. -/
def inferLabels (o : DistOps D E) (vs : List (Var Domain)) (full : ℕ → Region) (h : Heap D) (q e : Asg)
    (fail : Bool := true) : Except Err (Option ℚ) := do
  let qs ← queryOf vs (← q.valueAssignment)
  let es ← queryOf vs (← e.valueAssignment)
  match ← infer o vs.length full h qs es false with
  | some x => return some x
  | none => if fail then do let _ ← formatPath e; .error .valueError else return none

/-- `posterior` on label assignments (trees.py 1097-1197): if the weights of the leaves cannot be normalised, the text of
the evidence is made before `Unsatisfiability` is raised.  `none` is returned if `fail_on_unsatisfiability` is not set. -/
def posteriorLabels (o : DistOps D E) (vs : List (Var Domain)) (full : ℕ → Region) (h : Heap D) (xs : List ℕ) (e : Asg)
    (fail : Bool := true) : Except Err (Option (List (ℕ × D))) := do
  let es ← queryOf vs (← e.valueAssignment)
  checkQuery vs.length es
  let ls ← apply vs.length h es
  let cs ← ls.mapM (fun l => l.2.contribution o full xs es)
  let cs := cs.filterMap id
  match Ut.normValues false false 0 (cs.map Prod.fst) with
  | .error .valueError => if fail then do let _ ← formatPath e; .error .unsatisfiable else return none
  | .error err => .error err
  | .ok ws => do
    let r ← xs.zipIdx.mapM (fun vi => do
      let d ← o.merge (cs.filterMap (fun c => c.2[vi.2]?)) ws
      return (vi.1, d))
    return some r

end Verif.Trees
