import Verif.Vars.Model
import Verif.Json
import Verif.XQ
import Verif.Discrete.Model
import Verif.Intervals.Model

/-!
# Model of variables, their serialisation, and of label and value assignments

`src/jpt/variables.py` 33-455 and 721-826, with the type conversions of the domains in
`src/jpt/distributions/univariate/{numeric,multinomial,integer}.py` and
`src/jpt/distributions/utils.py`.
-/

namespace Verif.Vars

/-! ## Values -/

/-- A number or a string. -/
inductive Atom
  | num (x : XQ)
  | str (s : String)
  deriving DecidableEq

/-- An integer as a number. -/
def Atom.int (z : ℤ) : Atom := .num (.fin z)

/-- A `ContinuousSet`, with the bound flags. -/
structure RI where
  lower : XQ
  upper : XQ
  left : Iv.Br
  right : Iv.Br
  deriving DecidableEq

/-- The constructor of `ContinuousSet` (intervals.pyx 588-603). -/
def RI.mk? (lower upper : XQ) (left right : Iv.Br) : Except Err RI :=
  if lower.le upper then .ok ⟨lower, upper, left, right⟩ else .error .valueError

/-- What is assigned to a variable: a scalar or a collection of scalars, or a number set. -/
inductive Val
  | ev (e : Disc.Arg Atom)
  | cs (c : RI)
  | rs (l : List RI)
  deriving DecidableEq

/-! ## Domains -/

/-- A domain class: `Numeric`, a `ScaledNumeric` with its scaler's mean and scale, a symbolic type
with its labels, or an integer type with its limits.  A domain's name is its class name. -/
inductive Domain
  | numeric (name : String)
  | scaled (name : String) (mean scale : ℚ)
  | symbolic (name : String) (labels : List Atom)
  | integer (name : String) (lmin lmax : ℤ)
  deriving DecidableEq

namespace Domain

/-- The labels of a symbolic or integer domain, in the order of their values
(multinomial.py 645-654, integer.py 571-581). -/
def labels : Domain → List Atom
  | symbolic _ ls => ls
  | integer _ lmin lmax => (Disc.intLabels lmin lmax).map Atom.int
  | _ => []

/-- `cls.values[label]` of a symbolic or integer domain. -/
def valueOf (d : Domain) (a : Atom) : Option Atom := (d.labels.idxOf? a).map fun i : ℕ => Atom.int i

/-- `cls.labels[value]` of a symbolic or integer domain. -/
def labelOf (d : Domain) : Atom → Option Atom
  | .num (.fin q) => if q.den = 1 ∧ 0 ≤ q then d.labels[q.num.toNat]? else none
  | _ => none

/-- `cls.values[x]` of a numeric domain: `Identity` or `DataScalerProxy` (utils.py 73-129). -/
def toValue : Domain → XQ → XQ
  | scaled _ mean scale => XQ.map fun x => (x - mean) / scale
  | _ => id

/-- `cls.labels[x]` of a numeric domain. -/
def toLabel : Domain → XQ → XQ
  | scaled _ mean scale => XQ.map fun x => x * scale + mean
  | _ => id

/-- The conversion of an interval (numeric.py 85-91, 107-113). -/
def convRI (f : XQ → XQ) (c : RI) : Except Err RI := RI.mk? (f c.lower) (f c.upper) c.left c.right

/-- The conversion of a numeric assignment (numeric.py 80-122). -/
def convNum (f : XQ → XQ) : Val → Except Err Val
  | .cs c => do return .cs (← convRI f c)
  | .rs l => do return .rs (← l.mapM (convRI f))
  | .ev (.atom (.num x)) => .ok (.ev (.atom (.num (f x))))
  | _ => .error .typeError

/-- The conversion of a symbolic or integer assignment (multinomial.py 51-96, integer.py 170-215):
`KeyError`s become `ValueError`s; a number set is looked up like a scalar and not found. -/
def convSym (f : Atom → Option Atom) : Val → Except Err Val
  | .ev e => do return .ev (← Disc.convert f e)
  | _ => .error .valueError

/-- `label2value`. -/
def label2value (d : Domain) : Val → Except Err Val :=
  match d with
  | numeric _ | scaled _ _ _ => convNum d.toValue
  | symbolic _ _ | integer _ _ _ => convSym d.valueOf

/-- `value2label`. -/
def value2label (d : Domain) : Val → Except Err Val :=
  match d with
  | numeric _ | scaled _ _ _ => convNum d.toLabel
  | symbolic _ _ | integer _ _ _ => convSym d.labelOf

end Domain

/-! ## Assignments -/

/-- A number or a number set. -/
def Val.isNumeric : Val → Bool
  | .ev (.atom (.num _)) => true
  | .ev _ => false
  | .cs _ => true
  | .rs _ => true

/-- The elements of a set, or the value itself as the only element; `none` stands for objects that
are neither numbers nor strings and therefore equal to no label or value. -/
def Val.asSet : Val → List (Option Atom)
  | .ev (.atom a) => [some a]
  | .ev (.set l) => l.map some
  | _ => [none]

/-- The checks of `LabelAssignment.__setitem__` for a variable object (variables.py 780-790). -/
def checkLabel (d : Domain) (x : Val) : Except Err Unit :=
  match d with
  | .numeric _ | .scaled _ _ _ => if x.isNumeric then .ok () else .error .typeError
  | .symbolic _ ls => if ∀ a ∈ x.asSet, a ∈ ls.map some then .ok () else .error .typeError
  | .integer _ _ _ => .ok ()

/-- The checks of `ValueAssignment.__setitem__` for a variable object (variables.py 815-824): a set is
not checked. -/
def checkValue (d : Domain) (x : Val) : Except Err Unit :=
  match d with
  | .numeric _ | .scaled _ _ _ => if x.isNumeric then .ok () else .error .typeError
  | .symbolic _ ls => match x with
    | .ev (.set _) => .ok ()
    | _ => if ∀ a ∈ x.asSet, a ∈ (List.range ls.length).map (fun i : ℕ => some (Atom.int i)) then .ok ()
      else .error .typeError
  | .integer _ _ _ => .ok ()

/-- A label or value assignment. -/
abbrev Asg := VMap Domain Val

/-- `__setitem__` with a check: it applies to variable objects only, since a name is no instance of
`NumericVariable` or `SymbolicVariable`. -/
def Asg.set (check : Domain → Val → Except Err Unit) (m : Asg) (k : Key Domain) (x : Val) : Except Err Asg :=
  match k with
  | .var v => do check v.info x; VMap.set m (.var v) x
  | k => VMap.set m k x

/-- `LabelAssignment.__setitem__` (variables.py 773-790). -/
def Asg.setLabel : Asg → Key Domain → Val → Except Err Asg := Asg.set checkLabel

/-- `ValueAssignment.__setitem__` (variables.py 815-824). -/
def Asg.setValue : Asg → Key Domain → Val → Except Err Asg := Asg.set checkValue

/-- The constructors of assignments with a list of items. -/
def Asg.mk? (check : Domain → Val → Except Err Unit) (data : List (Key Domain × Val))
    (vs : List (Var Domain)) : Except Err Asg :=
  data.foldlM (fun m p => Asg.set check m p.1 p.2) (VMap.empty vs)

/-- `LabelAssignment.value_assignment` (variables.py 792-793). -/
def Asg.valueAssignment (m : Asg) : Except Err Asg := do
  let is ← VMap.items m
  let data ← is.mapM fun p => do return (Key.var p.1, ← p.1.info.label2value p.2)
  Asg.mk? checkValue data []

/-- `ValueAssignment.label_assignment` (variables.py 826-827). -/
def Asg.labelAssignment (m : Asg) : Except Err Asg := do
  let is ← VMap.items m
  let data ← is.mapM fun p => do return (Key.var p.1, ← p.1.info.value2label p.2)
  Asg.mk? checkLabel data []

/-! ## Serialisation of variables -/

/-- A setting's value. -/
inductive SVal
  | num (q : ℚ)
  | bool (b : Bool)
  deriving DecidableEq

/-- A setting in JSON. -/
def SVal.toJson : SVal → J
  | num q => .num q
  | bool b => .bool b

/-- An argument of the constructor read from JSON: `None` means "not given". -/
def SVal.ofJson : J → Except Err (Option SVal)
  | .null => .ok none
  | .num q => .ok (some (num q))
  | .bool b => .ok (some (bool b))
  | _ => .error .typeError

/-- The three classes of variables. -/
inductive VKind
  | numeric | integer | symbolic
  deriving DecidableEq

/-- The class attributes `SETTINGS` (variables.py 40-42, 218-222, 406-408). -/
def VKind.settings : VKind → List (String × SVal)
  | .numeric => [("min_impurity_improvement", .num 0), ("blur", .num 0), ("max_std_lbl", .num 0),
      ("precision", .num (1 / 100))]
  | .integer => [("min_impurity_improvement", .num 0)]
  | .symbolic => [("min_impurity_improvement", .num 0), ("invert_impurity", .bool false)]

/-- A variable object. -/
structure Variable where
  kind : VKind
  name : String
  domain : Option Domain
  settings : List (String × SVal)
  deriving DecidableEq

/-- `Variable.__init__` (variables.py 44-87). -/
def Variable.mk? (kind : VKind) (name : String) (domain : Option Domain)
    (settings : List (String × Option SVal)) : Except Err Variable := do
  let s ← settings.foldlM (fun s p =>
    if p.1 ∈ s.map Prod.fst then match p.2 with
      | none => .ok s
      | some v => .ok (Dict.set s p.1 v)
    else .error .attributeError) kind.settings
  return ⟨kind, name, domain, s⟩

/-- `NumericVariable.__init__` (variables.py 224-243). -/
def numericVariable (name : String) (domain : Option Domain) (mii blur maxStd precision : Option SVal) :
    Except Err Variable :=
  Variable.mk? .numeric name domain
    [("min_impurity_improvement", mii), ("blur", blur), ("max_std_lbl", maxStd), ("precision", precision)]

/-- `IntegerVariable.__init__` (variables.py 349-358). -/
def integerVariable (name : String) (domain : Option Domain) (mii : Option SVal) : Except Err Variable :=
  Variable.mk? .integer name domain [("min_impurity_improvement", mii)]

/-- `SymbolicVariable.__init__` (variables.py 410-422). -/
def symbolicVariable (name : String) (domain : Option Domain) (mii inv : Option SVal) : Except Err Variable :=
  Variable.mk? .symbolic name domain [("min_impurity_improvement", mii), ("invert_impurity", inv)]

/-- A label in JSON; labels that are infinite are left out of the model. -/
def Atom.toJson : Atom → J
  | .num (.fin q) => .num q
  | .num .ninf => .null
  | .num .pinf => .null
  | .str s => .str s

/-- A label read from JSON. -/
def Atom.ofJson : J → Except Err Atom
  | .num q => .ok (.num (.fin q))
  | .str s => .ok (.str s)
  | _ => .error .typeError

/-- `type_to_json` of the domains (numeric.py 405-410, 728-734, multinomial.py 482-488,
integer.py 127-137). -/
def Domain.toJson : Domain → J
  | .numeric name => .obj [("type", .str "numeric"), ("class", .str name)]
  | .scaled name mean scale => .obj [("type", .str "scaled-numeric"), ("class", .str name),
      ("scaler", .obj [("mean_", .arr [.num mean]), ("scale_", .arr [.num scale])])]
  | .symbolic name labels => .obj [("type", .str "symbolic"), ("class", .str name),
      ("labels", .arr (labels.map Atom.toJson))]
  | .integer name lmin lmax => .obj [("type", .str "integer"), ("class", .str name),
      ("labels", .arr ((Disc.intLabels lmin lmax).map fun l => .num l)), ("vmin", .num 0),
      ("vmax", .num (lmax - lmin : ℤ)), ("lmin", .num lmin), ("lmax", .num lmax)]

/-- `Distribution.from_json` for domain classes (distribution.py 182-200): dispatch on the type;
`Numeric` itself (numeric.py 431-433), `NumericType` (numeric.py 738-744), `SymbolicType`
(multinomial.py 500-502, 645-654), `IntegerType` (integer.py 148-150, 571-581). -/
def Domain.ofJson (j : J) : Except Err Domain := do
  let t ← (← j.key "type").asStr
  if t = "numeric" then return .numeric "Numeric"
  else if t = "scaled-numeric" then
    let name ← (← j.key "class").asStr
    let s ← j.key "scaler"
    let mean ← (← (← s.key "mean_").idx 0).asNum
    let scale ← (← (← s.key "scale_").idx 0).asNum
    return .scaled name mean scale
  else if t = "symbolic" then
    let name ← (← j.key "class").asStr
    let labels ← (← (← j.key "labels").asArr).mapM Atom.ofJson
    let d ← Disc.symbolicType name labels
    return .symbolic d.name d.labels
  else if t = "integer" then
    let name ← (← j.key "class").asStr
    let lmin ← (← j.key "lmin").asNum
    let lmax ← (← j.key "lmax").asNum
    let _ ← Disc.integerType name lmin.num lmax.num
    return .integer name lmin.num lmax.num
  else .error .typeError

/-- The `type` entry of a variable's document. -/
def VKind.tag : VKind → String
  | .numeric => "numeric"
  | .integer => "integer"
  | .symbolic => "symbolic"

/-- `to_json` (variables.py 163-168, 245-248, 389-392, 431-434). -/
def Variable.toJson (v : Variable) : J :=
  .obj [("name", .str v.name), ("domain", match v.domain with | none => .null | some d => d.toJson),
    ("settings", .obj (v.settings.map fun p => (p.1, p.2.toJson))), ("type", .str v.kind.tag)]

/-- A constructor argument `data.get(key)`. -/
def getSetting (j : J) (k : String) : Except Err (Option SVal) := do SVal.ofJson (← j.getKey k)

/-- `Variable.from_json` (variables.py 170-179) with `NumericVariable.from_json` (250-260),
`SymbolicVariable.from_json` (424-429) and `IntegerVariable.from_json` (380-387). -/
def Variable.ofJson (j : J) : Except Err Variable := do
  let t ← (← j.key "type").asStr
  if t = "numeric" then
    let d ← Domain.ofJson (← j.key "domain")
    numericVariable (← (← j.key "name").asStr) (some d) (← getSetting j "min_impurity_improvement")
      (← getSetting j "blur") (← getSetting j "max_std_lbl") (← getSetting j "precision")
  else if t = "symbolic" then
    let name ← (← j.key "name").asStr
    let d ← Domain.ofJson (← j.key "domain")
    symbolicVariable name (some d) none none
  else if t = "integer" then
    let d ← Domain.ofJson (← j.key "domain")
    integerVariable (← (← j.key "name").asStr) (some d) (← getSetting j "min_impurity_improvement")
  else .error .typeError

/-- `Variable.copy` (variables.py 187-188). -/
def Variable.copy (v : Variable) : Except Err Variable := Variable.ofJson v.toJson

end Verif.Vars
