import Verif.Dict

/-!
# Model of `VariableMap` (`src/jpt/variables.py` 552-716)

A variable is its name and everything else (`P`).  Python's two dictionaries `_variables` and `_map`
are lists of items in insertion order.
-/

namespace Verif.Vars

/-- `Variable` (variables.py 33-202): the name, and type, domain and settings as `info`. -/
structure Var (P : Type) where
  name : String
  info : P
  deriving DecidableEq

/-- What is passed as a key: a string, a variable, or anything else. -/
inductive Key (P : Type)
  | name (n : String)
  | var (v : Var P)
  | other

/-- A `VariableMap` object. -/
structure VMap (P A : Type) where
  vars : List (String × Var P)
  map : List (String × A)
  deriving DecidableEq

variable {P A : Type}

namespace VMap

/-- The constructor's `{v.name: v for v in variables}` (variables.py 566-567). -/
def empty (vs : List (Var P)) : VMap P A :=
  ⟨vs.foldl (fun d v => Dict.set d v.name v) [], []⟩

/-- `__getitem__` (variables.py 589-592). -/
def get (m : VMap P A) : Key P → Except Err A
  | .name n => Dict.get m.map n
  | .var v => Dict.get m.map v.name
  | .other => .error .keyError

/-- Storing under a variable object (variables.py 602-607). -/
def setVar (m : VMap P A) (v : Var P) (a : A) : VMap P A :=
  ⟨if v.name ∈ m.vars.map Prod.fst then m.vars else Dict.set m.vars v.name v, Dict.set m.map v.name a⟩

/-- `__setitem__` (variables.py 594-607). -/
def set (m : VMap P A) (k : Key P) (a : A) : Except Err (VMap P A) :=
  match k with
  | .name n => match m.vars.lookup n with
    | none => .error .valueError
    | some v => .ok (m.setVar v a)
  | .var v => .ok (m.setVar v a)
  | .other => .error .valueError

/-- Deleting a name (variables.py 613-614): the value first, then the variable. -/
def delName (m : VMap P A) (n : String) : Except Err (VMap P A) := do
  let mp ← Dict.del m.map n
  let vs ← Dict.del m.vars n
  return ⟨vs, mp⟩

/-- `__delitem__` (variables.py 609-614). -/
def del (m : VMap P A) : Key P → Except Err (VMap P A)
  | .name n => m.delName n
  | .var v => m.delName v.name
  | .other => .error .keyError

/-- `__contains__` (variables.py 616-619). -/
def contains (m : VMap P A) : Key P → Bool
  | .name n => decide (n ∈ m.map.map Prod.fst)
  | .var v => decide (v.name ∈ m.map.map Prod.fst)
  | .other => false

/-- `get(key, default)` (variables.py 666-669). -/
def getD (m : VMap P A) (k : Key P) (default : A) : Except Err A :=
  if m.contains k then m.get k else .ok default

/-- `__len__` (variables.py 624-625). -/
def len (m : VMap P A) : ℕ := m.map.length

/-- `items()` (variables.py 677-678); `KeyError` if a name has no variable. -/
def items (m : VMap P A) : Except Err (List (Var P × A)) :=
  m.map.mapM fun p => do return (← Dict.get m.vars p.1, p.2)

/-- `keys()` and `__iter__` (variables.py 621-622, 671-672). -/
def keys (m : VMap P A) : Except Err (List (Var P)) := m.map.mapM fun p => Dict.get m.vars p.1

/-- `values()` (variables.py 674-675). -/
def values (m : VMap P A) : List A := m.map.map Prod.snd

/-- `update` (variables.py 683-686). -/
def update (m o : VMap P A) : VMap P A := ⟨Dict.update m.vars o.vars, Dict.update m.map o.map⟩

/-- `__iadd__` (variables.py 659-664); the operand is another object. -/
def iadd (m o : VMap P A) : Except Err (VMap P A) := do
  let is ← o.items
  is.foldlM (fun m p => m.set (.var p.1) p.2) m

/-- `__isub__` with another map (variables.py 649-654). -/
def isub (m o : VMap P A) : Except Err (VMap P A) := do
  let ks ← o.keys
  ks.foldlM (fun m v => if m.contains (.var v) then m.del (.var v) else .ok m) m

/-- The constructor with data (variables.py 566-575). -/
def mk? (data : List (Key P × A)) (vs : List (Var P)) : Except Err (VMap P A) :=
  data.foldlM (fun m p => m.set p.1 p.2) (empty vs)

/-- `copy()` (variables.py 688-691). -/
def copy (m : VMap P A) : Except Err (VMap P A) := do
  let is ← m.items
  mk? (is.map fun p => (.var p.1, p.2)) (m.vars.map Prod.snd)

/-- How `copy(deep=True)` treats a value: numbers and strings are kept, sets, lists and number sets
are copied, tuples have no method `copy`, everything else is skipped. -/
inductive Kind
  | scalar | container | tuple | other
  deriving DecidableEq

/-- `copy(deep=True)` (variables.py 693-699). -/
def deepcopy (kind : A → Kind) (m : VMap P A) : Except Err (VMap P A) := do
  let is ← m.items
  is.foldlM (fun c p => match kind p.2 with
    | .scalar => c.set (.var p.1) p.2
    | .container => c.set (.var p.1) p.2
    | .tuple => .error .attributeError
    | .other => .ok c) (empty (m.vars.map Prod.snd))

/-- `__eq__` (variables.py 630-635) of two objects of the same class: `_map` compared as
dictionaries, the variables as sets. -/
def eq [DecidableEq P] [DecidableEq A] (m o : VMap P A) : Bool :=
  (decide (m.map.length = o.map.length) && m.map.all fun p => decide (o.map.lookup p.1 = some p.2)) &&
    (m.vars.all (fun p => decide (p.2 ∈ o.vars.map Prod.snd)) &&
      o.vars.all fun p => decide (p.2 ∈ m.vars.map Prod.snd))

/-- `to_json` (variables.py 680-681), the values being serialised by `f`. -/
def toJson {J : Type} (f : A → J) (m : VMap P A) : Except Err (List (String × J)) := do
  let is ← m.items
  return is.foldl (fun d p => Dict.set d p.1.name (f p.2)) []

/-- `from_json` (variables.py 701-716); `KeyError` for unknown names. -/
def fromJson {J : Type} (g : J → Except Err A) (vs : List (Var P)) (d : List (String × J)) :
    Except Err (VMap P A) :=
  d.foldlM (fun m p => do
    let v ← Dict.get (vs.foldl (fun d v => Dict.set d v.name v) []) p.1
    m.set (.var v) (← g p.2)) (empty [])

end VMap

end Verif.Vars
