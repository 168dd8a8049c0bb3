import Verif.Vars.Model2
import Verif.Utils.Model

/-!
# Model of `JPT.bind`

`src/jpt/trees.py` 1361-1464 (`_preprocess_query`) and 2457-2492 (`bind`).
-/

namespace Verif.Vars

/-- What a user passes for a variable: `None`, a number or string, a list, the elements of which may be `None` (or
`...`, which means the same), a tuple, a set, a `ContinuousSet` or a `RealSet`. -/
inductive UArg
  | none
  | atom (a : Atom)
  | list (l : List (Option Atom))
  | tuple (l : List Atom)
  | set (l : List Atom)
  | cs (c : RI)
  | rs (l : List RI)
  deriving DecidableEq

/-- A bound of `list2interval` (utils.py 274-278): `None` is the infinity.  `numpy.float64` of a string is modelled
as an error, although it accepts numerals. -/
def boundOf (inf : XQ) : Option Atom → Except Err XQ
  | Option.none => .ok inf
  | some (.num x) => .ok x
  | some (.str _) => .error .valueError

/-- `list2interval` (utils.py 270-278): two bounds, `ValueError` for other lengths and for bounds in the wrong order. -/
def list2interval : List (Option Atom) → Except Err RI
  | [a, b] => do RI.mk? (← boundOf .ninf a) (← boundOf .pinf b) .inc .inc
  | _ => .error .valueError

/-- An integer among the arguments of `range`: `TypeError` for everything else. -/
def asInt : Option Atom → Except Err ℤ
  | some (.num (.fin q)) => if q.den = 1 then .ok q.num else .error .typeError
  | _ => .error .typeError

/-- `list2intset` (utils.py 288-303). -/
def list2intset (l : List (Option Atom)) : Except Err (List Atom) := do
  if l.length ≠ 2 then .error .valueError
  let ints ← l.mapM asInt
  return (← Ut.list2intset ints).map Atom.int

/-- The options of `bind` (trees.py 2474-2477); `labels` is `space == 'labels'`. -/
structure BindOpts where
  singular : Bool
  labels : Bool
  deriving DecidableEq

/-- What is assigned to a numeric variable (trees.py 1403-1443); `blur` is the interval around a number if the variable
has a `blur`, which needs the prior distribution. -/
def prepareNum (singular : Bool) (blur : Option (XQ → Except Err RI)) : UArg → Except Err Val
  | .list l => do return .cs (← list2interval l)
  | .atom (.num x) =>
    if singular then .ok (.ev (.atom (.num x)))
    else match blur with
      | some f => do return .cs (← f x)
      | Option.none => do return .cs (← RI.mk? x x .inc .inc)
  | .cs c => .ok (.cs c)
  | .rs l => do return .rs (← l.mapM (fun c => RI.mk? c.lower c.upper c.left c.right))
  | _ => .error .typeError

/-- What is assigned to a symbolic or integer variable (trees.py 1444-1462).  A list with `None` gives a set with
`None`, which is no label: the `TypeError` of the assignment is raised at once.  So is the `ValueError` for an
interval as a label of an integer variable, which the code raises when the assignment is used. -/
def prepareSym (integer : Bool) : UArg → Except Err Val
  | .list l =>
    if integer then do return .ev (.set (← list2intset l))
    else match l.mapM id with
      | Option.none => .error .typeError
      | some l => .ok (.ev (.set l.dedup))
  | .atom a => .ok (.ev (.set [a]))
  | .set l => .ok (.ev (.set l))
  | .cs _ | .rs _ => if integer then .error .valueError else .error .typeError
  | _ => .error .typeError

/-- The value for a variable with the given domain. -/
def prepare (singular : Bool) (blur : Option (XQ → Except Err RI)) (d : Domain) : UArg → Except Err Val :=
  match d with
  | .numeric _ | .scaled _ _ _ => prepareNum singular blur
  | .symbolic _ _ => prepareSym false
  | .integer _ _ _ => prepareSym true

/-- `key if isinstance(key, Variable) else self.varnames.get(key)` (trees.py 1395, 728). -/
def resolve (vs : List (Var Domain)) : Key Domain → Option (Var Domain)
  | .var v => some v
  | .name s => (vs.foldl (fun d v => Dict.set d v.name v) []).lookup s
  | .other => Option.none

/-- One step of the loop of `_preprocess_query` (trees.py 1391-1462).  The `Exception` for unknown variables is
modelled as `runtimeError`. -/
def prepareStep (vs : List (Var Domain)) (blur : Var Domain → Option (XQ → Except Err RI)) (skip : Bool) (o : BindOpts)
    (m : Asg) (p : Key Domain × UArg) : Except Err Asg :=
  if p.2 = .none then .ok m
  else match resolve vs p.1 with
    | Option.none => if skip then .ok m else .error .runtimeError
    | some v => do
      let x ← prepare o.singular (blur v) v.info p.2
      if o.labels then m.setLabel (.var v) x else m.setValue (.var v) x

/-- `_preprocess_query` (trees.py 1361-1464) with `remove_none=True`. -/
def preprocessQuery (vs : List (Var Domain)) (blur : Var Domain → Option (XQ → Except Err RI)) (skip : Bool) (o : BindOpts)
    (q : List (Key Domain × UArg)) : Except Err Asg :=
  q.foldlM (prepareStep vs blur skip o) (VMap.empty vs)

/-- A positional argument: a dictionary, `None` or something else. -/
inductive PArg
  | dict (q : List (Key Domain × UArg))
  | none
  | other

/-- The truth value of an option. -/
def UArg.truth : UArg → Bool
  | .none => false
  | .atom (.num x) => decide (x ≠ .fin 0)
  | .atom (.str s) => decide (s ≠ "")
  | .list l => decide (l ≠ [])
  | .tuple l => decide (l ≠ [])
  | .set l => decide (l ≠ [])
  | _ => true

/-- The names of the options. -/
def bindOptions : List String := ["allow_singular_values", "space"]

/-- The options after `options.update(kwargs)` (trees.py 2474-2489); another `space` is a `ValueError` of
`_preprocess_query` (trees.py 1381-1388). -/
def optsOf (kwargs : List (String × UArg)) : Except Err BindOpts := do
  let singular := match kwargs.lookup "allow_singular_values" with
    | Option.none => false
    | some a => a.truth
  match kwargs.lookup "space" with
  | Option.none => return ⟨singular, true⟩
  | some a =>
    if a = .atom (.str "labels") then return ⟨singular, true⟩
    else if a = .atom (.str "values") then return ⟨singular, false⟩
    else .error .valueError

/-- `bind` (trees.py 2457-2492). -/
def bindQuery (vs : List (Var Domain)) (blur : Var Domain → Option (XQ → Except Err RI)) (args : List PArg)
    (kwargs : List (String × UArg)) : Except Err Asg :=
  match args with
  | [] => preprocessQuery vs blur false ⟨false, true⟩ (kwargs.map (fun p => (.name p.1, p.2)))
  | [.other] => .error .valueError
  | [.dict q] =>
    if ∃ p ∈ kwargs, p.1 ∉ bindOptions then .error .valueError
    else do preprocessQuery vs blur false (← optsOf kwargs) q
  | [.none] =>
    if ∃ p ∈ kwargs, p.1 ∉ bindOptions then .error .valueError
    else do preprocessQuery vs blur false (← optsOf kwargs) []
  | _ :: _ :: _ => .error .valueError

end Verif.Vars
