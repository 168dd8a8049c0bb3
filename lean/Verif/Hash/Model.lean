import Verif.Dict
import Verif.Functions.Model
import Verif.Vars.Model
import Mathlib.Data.List.Sort

/-!
# Model of equality and hashing of domains, variables and functions

A hash is modelled by the tuple that is handed to `hash`: equal tuples have equal hashes.  Numbers are rationals; NaN is
`none`, and not equal to itself.
-/

namespace Verif.Hash

/-- `a == b` for floats. -/
def feq (a b : Option ℚ) : Bool := match a, b with
  | some x, some y => decide (x = y)
  | _, _ => false

/-- `DataScaler` (`distributions/utils.py` 17-70). -/
structure Scaler where
  mean : Option ℚ
  scale : Option ℚ
  deriving DecidableEq

/-- `DataScaler.__eq__` (`distributions/utils.py` 60-61). -/
def Scaler.eq (s t : Scaler) : Bool := feq s.mean t.mean && feq s.scale t.scale

/-- What a domain uses to translate between labels and values: `Identity` (`distributions/utils.py` 74-91),
`DataScalerProxy` (94-104), whose `mean` and `scale` are copied when it is made, or `OrderedDictProxy` (158-200), as the
list of its items. -/
inductive Trans (L : Type)
  | ident
  | proxy (scaler : Scaler) (inverse : Bool) (mean scale : Option ℚ)
  | dict (items : List (L × L))

variable {L : Type} [DecidableEq L]

/-- The constructor of `DataScalerProxy` (`distributions/utils.py` 96-100). -/
def Trans.ofScaler (s : Scaler) (inverse : Bool) : Trans L := .proxy s inverse s.mean s.scale

/-- The loop of `OrderedDictProxy.__eq__` (`distributions/utils.py` 207-210): `zip` stops at the end of the shorter one. -/
def zipEq : List (L × L) → List (L × L) → Bool
  | a :: as, b :: bs => decide (a.1 = b.1) && decide (a.2 = b.2) && zipEq as bs
  | _, _ => true

/-- `__eq__` of these (`distributions/utils.py` 87-88, 108-111, 204-210). -/
def Trans.eq : Trans L → Trans L → Bool
  | .ident, .ident => true
  | .proxy s i _ _, .proxy t j _ _ => s.eq t && i == j
  | .dict a, .dict b => zipEq a b
  | _, _ => false

/-- What is hashed (`distributions/utils.py` 90-91, 102-103, 151-155, 195-199). -/
inductive TransKey (L : Type)
  | ident
  | proxy (inverse : Bool) (mean scale : Option ℚ)
  | dict (items : List (L × L))
  deriving DecidableEq

/-- `__hash__` of these (`distributions/utils.py` 90-91, 102-103, 151-155, 195-199). -/
def Trans.key : Trans L → TransKey L
  | .ident => .ident
  | .proxy _ i m s => .proxy i m s
  | .dict a => .dict a

/-- The class of distributions of which a domain is a subclass. -/
inductive Kind
  | numeric | symbolic | integer
  deriving DecidableEq

/-- A domain, i.e. a class made by `NumericType`, `SymbolicType` or `IntegerType`, or `Numeric` itself.  `limits` are
`lmin`, `lmax`, `vmin` and `vmax` of an integer domain. -/
structure Domain (L : Type) where
  kind : Kind
  name : String
  qualname : String
  values : Trans L
  labels : Trans L
  limits : List ℤ

/-- `NumericType(name, values)` (`numeric.py` 758-767) with the scaler that is fitted to the values. -/
def numericType (name : String) (s : Scaler) : Domain L := ⟨.numeric, name, name, .ofScaler s false, .ofScaler s true, []⟩

/-- `SymbolicType(name, labels)` (`multinomial.py` 645-654); the index of a label is a label here, too, so that both
dictionaries have the same type: `inj` maps indices to `L`. -/
def symbolicType (inj : ℤ → L) (name : String) (labels : List L) : Except Err (Domain L) :=
  if labels.length < 1 then .error .valueError
  else if ¬ labels.Nodup then .error .valueError
  else .ok ⟨.symbolic, name, name, .dict (labels.zipIdx.map (fun p => (p.1, inj (p.2 : ℕ)))),
    .dict (labels.zipIdx.map (fun p => (inj (p.2 : ℕ), p.1))), []⟩

/-- `IntegerType(name, lmin, lmax)` (`integer.py` 571-581). -/
def integerType (inj : ℤ → L) (name : String) (lmin lmax : ℤ) : Except Err (Domain L) :=
  if lmin > lmax then .error .valueError
  else
    let ps := (List.range (lmax - lmin + 1).toNat).map (fun i : ℕ => (lmin + (i : ℤ), (i : ℤ)))
    .ok ⟨.integer, name, name, .dict (ps.map (fun p => (inj p.1, inj p.2))), .dict (ps.map (fun p => (inj p.2, inj p.1))),
      [lmin, lmax, 0, lmax - lmin]⟩

/-- `equiv` (`numeric.py` 125-131, `multinomial.py` 136-139, `integer.py` 114-125). -/
def Domain.equiv (a b : Domain L) : Bool :=
  decide (a.kind = b.kind) && decide (a.name = b.name) && a.labels.eq b.labels && a.values.eq b.values &&
    (decide (a.kind ≠ .integer) || decide (a.limits = b.limits))

/-- What is hashed by the classmethod `hash` (`numeric.py` 51-59, `multinomial.py` 40-48, `integer.py` 58-68): the
qualified name, then the two translations, or the limits of an integer domain.  The settings of the class are the same for
all domains of a kind, so that the kind stands for them. -/
structure DomainKey (L : Type) where
  qualname : String
  trans : List (TransKey L)
  limits : List ℤ
  settings : Kind
  deriving DecidableEq

/-- The classmethod `hash` (`numeric.py` 51-59, `multinomial.py` 40-48, `integer.py` 58-68). -/
def Domain.key (d : Domain L) : DomainKey L :=
  match d.kind with
  | .integer => ⟨d.qualname, [], d.limits, d.kind⟩
  | k => ⟨d.qualname, [d.values.key, d.labels.key], [], k⟩

/-- A variable (`variables.py` 33-87): its class, name, domain and settings.  Simplification: the settings are numbers, and
the domain is not `None`. -/
structure Variable (L : Type) where
  cls : String
  name : String
  domain : Domain L
  settings : List (String × ℚ)

/-- Equality of two dictionaries. -/
def dictEq (s t : List (String × ℚ)) : Bool :=
  decide (s.length = t.length) && s.all (fun p => decide (t.lookup p.1 = some p.2))

/-- `Variable.__eq__` (`variables.py` 126-132). -/
def Variable.eq (v w : Variable L) : Bool :=
  decide (v.cls = w.cls) && decide (v.name = w.name) && v.domain.equiv w.domain && dictEq v.settings w.settings

/-- What is hashed by `Variable.__hash__` (`variables.py` 134-147). -/
structure VarKey (L : Type) where
  cls : String
  digest : String
  settings : List (String × ℚ)
  domain : DomainKey L
  deriving DecidableEq

/-- `Variable.__hash__` (`variables.py` 134-147); `md5` is the digest of the name.  The keys of a dictionary differ, so that
sorting its items compares keys only. -/
def Variable.key (md5 : String → String) (v : Variable L) : VarKey L :=
  ⟨v.cls, md5 v.name, v.settings.insertionSort (fun a b => a.1 ≤ b.1), v.domain.key⟩

/-- What is hashed for a function (`functions.pyx` 171-172, 314-315, 465-466). -/
inductive FnKey
  | undefined
  | linear (m c : ℚ)
  deriving DecidableEq

/-- `__hash__` of functions (`functions.pyx` 171-172, 314-315, 465-466).  `QuadraticFunction` defines `__eq__` without
`__hash__` (751-752), so that its objects cannot be hashed. -/
def fnKey : Fun.Fn → Except Err FnKey
  | .undef => .ok .undefined
  | .const v => .ok (.linear 0 v)
  | .lin m c => .ok (.linear m c)
  | .quad _ _ _ => .error .typeError

/-- `PiecewiseFunction.__hash__` (`functions.pyx` 922-923): a generator object is hashed, whose hash is its address, not its
elements.  `addr` is the address at which it happens to be allocated. -/
def pfKey (_p : Fun.PF) (addr : ℕ) : ℕ := addr

/-- A `QuantileDistribution` (`quantiles.pyx` 40-53). -/
structure Quant where
  epsilon : ℚ
  verbose : Bool
  minSamples : ℕ
  cdf : Fun.PF

/-- `QuantileDistribution.__eq__` (`quantiles.pyx` 62-67). -/
def Quant.eq (a b : Quant) : Except Err Bool :=
  if a.epsilon = b.epsilon ∧ a.minSamples = b.minSamples then Fun.PF.eq a.cdf b.cdf else .ok false

/-- `QuantileDistribution.__hash__` (`quantiles.pyx` 55-60). -/
def Quant.key (a : Quant) (addr : ℕ) : ℚ × Bool × ℕ × ℕ := (a.epsilon, a.verbose, a.minSamples, pfKey a.cdf addr)

/-- What is hashed by `VariableMap.__hash__` (`variables.py` 635-644): the pairs of variable and value, sorted by the name
of the variable; `hk` is the hash of a value, which fails for values that cannot be hashed. -/
def mapKey {P A K : Type} (hk : A → Except Err K) (m : Vars.VMap P A) : Except Err (List (Vars.Var P × K)) := do
  let is ← m.items
  (is.insertionSort (fun a b => a.1.name ≤ b.1.name)).mapM (fun p => do return (p.1, ← hk p.2))

end Verif.Hash
