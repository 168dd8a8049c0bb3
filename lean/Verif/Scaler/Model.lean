import Mathlib.Analysis.Real.Sqrt

/-!
# Model of `DataScaler` and `DataScalerProxy` (`distributions/utils.py`) and of the numeric type that uses
them (`distributions/univariate/numeric.py`)

Numbers are exact reals, together with the two infinities and NaN.
-/

namespace Verif.Sca

/-- A `float`: NaN, `-inf`, a number or `inf`. -/
inductive V where
  | nan
  | ninf
  | num (r : ℝ)
  | pinf

namespace V

/-- The number, if it is one. -/
def real? : V → Option ℝ
  | num r => some r
  | _ => none

/-- `x + r` for a number or NaN `r`. -/
noncomputable def add : V → V → V
  | num x, num r => num (x + r)
  | ninf, num _ => ninf
  | pinf, num _ => pinf
  | _, _ => nan

/-- `x - r` for a number or NaN `r`. -/
noncomputable def sub : V → V → V
  | num x, num r => num (x - r)
  | ninf, num _ => ninf
  | pinf, num _ => pinf
  | _, _ => nan

/-- `x * s` for a positive number `s`. -/
noncomputable def mulPos : V → ℝ → V
  | num x, s => num (x * s)
  | v, _ => v

/-- `x / s` for a positive number `s`. -/
noncomputable def divPos : V → ℝ → V
  | num x, s => num (x / s)
  | v, _ => v

end V

/-- `DataScaler` (`utils.py` 17-70); `mean` is NaN for empty data. -/
structure Scaler where
  mean : V
  scale : ℝ

/-- `numpy.mean` of finite numbers, NaN for no numbers. -/
noncomputable def npMean (data : List ℝ) : V :=
  if data = [] then .nan else .num (data.sum / data.length)

/-- `numpy.std` of finite numbers: the square root of the mean squared deviation, NaN for no numbers. -/
noncomputable def npStd (data : List ℝ) : V :=
  match npMean data with
  | .num m => .num (Real.sqrt ((data.map (fun x => (x - m) ^ 2)).sum / data.length))
  | _ => .nan

open Classical in
/-- `fit` (`utils.py` 31-34); `ifnot(s, 1)` is 1 for `s == 0`. -/
noncomputable def fit (data : List ℝ) : Scaler :=
  { mean := npMean data
    scale := match npStd data with
      | .num s => if s = 0 then 1 else s
      | _ => 1 }

/-- `transform` (`utils.py` 44-50). -/
noncomputable def Scaler.transform (s : Scaler) (x : V) : V := (x.sub s.mean).divPos s.scale

/-- `inverse_transform` (`utils.py` 36-42). -/
noncomputable def Scaler.inverse (s : Scaler) (x : V) : V := (x.mulPos s.scale).add s.mean

/-- `DataScaler.__getitem__` (`utils.py` 52-55). -/
noncomputable def Scaler.getItem (s : Scaler) : V → V
  | .ninf => .ninf
  | .pinf => .pinf
  | x => s.inverse x

/-- `to_json` (`utils.py` 57-59): the two entries of the dictionary, lists of one element. -/
def Scaler.toJson (s : Scaler) : List V × List ℝ := ([s.mean], [s.scale])

/-- `from_json` (`utils.py` 64-69); `none` is an `IndexError`. -/
def fromJson (j : List V × List ℝ) : Option Scaler := do
  let m ← j.1[0]?
  let s ← j.2[0]?
  some ⟨m, s⟩

/-- `DataScalerProxy` (`utils.py` 96-138). -/
structure Proxy where
  scaler : Scaler
  inverse : Bool

/-- `DataScalerProxy.__getitem__` (`utils.py` 119-126); `none` is `None`. -/
noncomputable def Proxy.getItem (p : Proxy) : Option V → V
  | some .ninf => .ninf
  | some .pinf => .pinf
  | none => .num 0
  | some .nan => .num 0
  | some x => if p.inverse then p.scaler.inverse x else p.scaler.transform x

/-- The class attributes `scaler`, `values` and `labels` of a scaled numeric type. -/
structure NType where
  scaler : Scaler
  values : Proxy
  labels : Proxy

open Classical in
/-- `NumericType` (`numeric.py` 758-767) for given values; `none` is a `ValueError`. -/
noncomputable def numericType (values : List V) : Option NType :=
  if ∀ v ∈ values, ∃ r, v = .num r then
    let s := fit (values.filterMap V.real?)
    some ⟨s, ⟨s, false⟩, ⟨s, true⟩⟩
  else none

/-- An interval, or the flags of its ends (`ContinuousSet`). -/
structure Interval where
  lower : V
  upper : V
  leftInc : Bool
  rightInc : Bool

/-- The argument of `value2label` and `label2value`: a number, a `ContinuousSet` or a `RealSet`. -/
inductive Arg where
  | number (v : V)
  | interval (i : Interval)
  | set (is : List Interval)

/-- An interval with its bounds mapped (`numeric.py` 86-91, 110-115). -/
noncomputable def mapInterval (p : Proxy) (i : Interval) : Interval :=
  { i with lower := p.getItem (some i.lower), upper := p.getItem (some i.upper) }

/-- The common part of `value2label` and `label2value` (`numeric.py` 81-100, 104-125).  Simplification:
the constructor of `ContinuousSet` rejects an upper bound below the lower one; bounds stay ordered here
(`C39_order`). -/
noncomputable def mapArg (p : Proxy) : Arg → Arg
  | .number v => .number (p.getItem (some v))
  | .interval i => .interval (mapInterval p i)
  | .set is => .set (is.map (mapInterval p))

/-- `value2label` (`numeric.py` 81-100). -/
noncomputable def NType.value2label (t : NType) (a : Arg) : Arg := mapArg t.labels a

/-- `label2value` (`numeric.py` 104-125). -/
noncomputable def NType.label2value (t : NType) (a : Arg) : Arg := mapArg t.values a

/-- `ScaledNumeric.type_from_json(type_to_json(t))` (`numeric.py` 729-745). -/
def NType.jsonRoundTrip (t : NType) : Option NType := do
  let s ← fromJson t.scaler.toJson
  some ⟨s, ⟨s, false⟩, ⟨s, true⟩⟩

end Verif.Sca
