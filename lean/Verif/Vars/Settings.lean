import Verif.Dict

/-!
# Model of the settings of variables and distributions

`Variable.__init__`, `__getattr__`, `distribution` (variables.py 44-119) and `Distribution.__init__`, `__getattr__`
(univariate/distribution.py 31-68).  `K` is the type of names; a value is `none` for `None`.
-/

namespace Verif.Opts

/-- A class: the dictionary `SETTINGS`, the names that an object has as attributes when `__init__` looks for them (those of the class
and those that were set before), and among them the properties without a setter. -/
structure Cls (K V : Type) where
  defaults : List (K × Option V)
  taken : K → Bool
  readonly : K → Bool

/-- An object: its class, the attributes that were assigned after `__init__`, and the dictionary `settings`. -/
structure Obj (K V : Type) where
  cls : Cls K V
  attrs : List (K × Option V)
  settings : List (K × Option V)

/-- What reading an attribute gives: an attribute that the object has independently of its settings, or a value. -/
inductive Read (V : Type)
  | fixed
  | val (v : Option V)
  deriving DecidableEq

variable {K V : Type} [DecidableEq K]

/-- The loop over the given settings (variables.py 78-87, distribution.py 49-58).  `keep` says that `None` is kept as a value, which
is so for distributions. -/
def setAll (keep : Bool) (d : List (K × Option V)) : List (K × Option V) → Except Err (List (K × Option V))
  | [] => .ok d
  | (k, v) :: given =>
    if k ∈ d.map Prod.fst then
      setAll keep (if keep || v.isSome then Dict.set d k v else d) given
    else .error .attributeError

/-- `__init__` (variables.py 64-87, distribution.py 35-58). -/
def create (keep : Bool) (c : Cls K V) (given : List (K × Option V)) : Except Err (Obj K V) :=
  if c.defaults.any (fun p => c.taken p.1) then .error .attributeError
  else do
    let s ← setAll keep c.defaults given
    return ⟨c, [], s⟩

/-- Reading an attribute (variables.py 89-96, distribution.py 60-67): the usual lookup, and the settings if it fails. -/
def Obj.read (o : Obj K V) (k : K) : Except Err (Read V) :=
  match o.attrs.lookup k with
  | some v => .ok (.val v)
  | none =>
    if o.cls.taken k then .ok .fixed
    else if k ∈ o.cls.defaults.map Prod.fst then do
      let v ← Dict.get o.settings k
      return .val v
    else .error .attributeError

/-- Assigning an attribute: there is no `__setattr__`, so it is set on the object, except if it is a property without a setter. -/
def Obj.assign (o : Obj K V) (k : K) (v : Option V) : Except Err (Obj K V) :=
  if o.cls.readonly k then .error .attributeError else .ok { o with attrs := Dict.set o.attrs k v }

/-- `Variable.distribution` (variables.py 110-119), where `dom` is the domain. -/
def Obj.distribution (o : Obj K V) (dom : Cls K V) : Except Err (Obj K V) :=
  create true dom (dom.defaults.filterMap (fun p => (o.settings.lookup p.1).map (fun v => (p.1, v))))

end Verif.Opts
