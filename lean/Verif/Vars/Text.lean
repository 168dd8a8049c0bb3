import Verif.Vars.BindSpec

/-!
# Model of the printed form of assignments

`Variable.str` (variables.py 274-334, 360-372, 436-450) with `fmt='logic'` and `format_path` (base/utils.py 174-182).
A text is modelled by its parts: the disjuncts between `' v '`, and the conjuncts between `' ^ '`.  Numbers are not rounded
to the printed number of decimals.
-/

namespace Verif.Vars

/-- One disjunct of a printed assignment. -/
inductive Part
  /-- `name = a`. -/
  | equal (name : String) (a : Atom)
  /-- `lo < name < hi` or `lo ≤ name ≤ hi`; a bound may be left out. -/
  | range (name : String) (lo hi : Option (XQ × Iv.Br))
  deriving DecidableEq

/-- The text for an interval (variables.py 312-331): a point if it has one element, otherwise the finite bounds.  As in
`Verif/Trees/Region.lean`, numbers are exact. -/
def partOf (d : Domain) (name : String) (c : RI) : Part :=
  if c.lower = c.upper ∧ c.left = .inc ∧ c.right = .inc then .equal name (.num (d.toLabel c.lower))
  else .range name (if c.lower ≠ .ninf then some (d.toLabel c.lower, c.left) else none)
    (if c.upper ≠ .pinf then some (d.toLabel c.upper, c.right) else none)

/-- `NumericVariable.str` (variables.py 274-334) with `fmt='logic'`.  Lists and sets of numbers, which no assignment
contains, are not modelled. -/
def strNum (d : Domain) (name : String) : Val → Except Err (List Part)
  | .cs c => .ok [partOf d name c]
  | .rs l => .ok (l.map (partOf d name))
  | .ev (.atom (.num x)) => .ok [.equal name (.num (d.toLabel x))]
  | .ev (.atom (.str _)) => .error .attributeError
  | .ev _ => .error .notImplemented

/-- `IntegerVariable.str` and `SymbolicVariable.str` (variables.py 360-372, 436-450) for a scalar: a number is looked up
among the values, `KeyError` if it is none; everything else is printed as it is. -/
def strAtom (d : Domain) (name : String) : Atom → Except Err Part
  | .num x => match d.labelOf (.num x) with
    | none => .error .keyError
    | some b => .ok (.equal name b)
  | .str s => .ok (.equal name (.str s))

/-- `IntegerVariable.str` and `SymbolicVariable.str` (variables.py 360-372, 436-450) with `fmt='logic'`.  Lists, tuples and
intervals, which `bind` does not assign, are not modelled. -/
def strSym (d : Domain) (name : String) : Val → Except Err (List Part)
  | .ev (.set [a]) => do return [← strAtom d name a]
  | .ev (.set l) => l.mapM (strAtom d name)
  | .ev (.atom a) => do return [← strAtom d name a]
  | _ => .error .notImplemented

/-- `Variable.str(assignment, fmt='logic')`. -/
def strVar (d : Domain) (name : String) : Val → Except Err (List Part) :=
  match d with
  | .numeric _ | .scaled _ _ _ => strNum d name
  | .symbolic _ _ | .integer _ _ _ => strSym d name

/-- `format_path` (base/utils.py 174-182). -/
def formatPath (m : Asg) : Except Err (List (List Part)) := do
  let is ← VMap.items m
  is.mapM fun p => strVar p.1.info p.1.name p.2

end Verif.Vars
