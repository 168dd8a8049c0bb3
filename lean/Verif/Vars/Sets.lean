import Verif.Vars.Model2

/-!
# Model of the conversion of scalars to sets

`assignment2set` (variables.py 190-202, 336-339, 375-378, 452-455) and `scalar2sets` (variables.py 737-741).
-/

namespace Verif.Vars

/-- `assignment2set` of the three classes of variables (variables.py 336-339, 375-378, 452-455).  An integral number is an
instance of `Integral`.  For a symbolic variable, lists, tuples and number sets, which no assignment to it contains, are
modelled as errors. -/
def assignment2set (d : Domain) (x : Val) : Except Err Val :=
  match d with
  | .numeric _ | .scaled _ _ _ => match x with
    | .ev (.atom (.num q)) => do return .cs (← RI.mk? q q .inc .inc)
    | x => .ok x
  | .integer _ _ _ => match x with
    | .ev (.atom (.num (.fin q))) => if q.den = 1 then .ok (.ev (.set [.num (.fin q)])) else .ok x
    | x => .ok x
  | .symbolic _ _ => match x with
    | .ev (.set l) => .ok (.ev (.set l))
    | .ev (.atom a) => .ok (.ev (.set [a]))
    | _ => .error .typeError

/-- `scalar2sets` (variables.py 737-741): a copy (variables.py 685-688), in which the items are replaced one after the
other. -/
def Asg.scalar2sets (check : Domain → Val → Except Err Unit) (m : Asg) : Except Err Asg := do
  let is ← VMap.items m
  let c ← Asg.mk? check (is.map fun p => (Key.var p.1, p.2)) (m.vars.map Prod.snd)
  let cs ← VMap.items c
  cs.foldlM (fun c p => do Asg.set check c (.var p.1) (← assignment2set p.1.info p.2)) c

end Verif.Vars
