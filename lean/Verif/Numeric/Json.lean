import Verif.Numeric.Quantile

/-!
# Model of the JSON documents of numeric distributions

`base/functions.pyx` (`to_json`, `from_json`), `distributions/quantile/quantiles.pyx` 594-605 and
`distributions/univariate/numeric.py` 412-437.  Numbers pass through JSON unchanged (`json` writes the shortest
decimal that reads back as the same float, and `Infinity` for the infinities).
-/

namespace Verif.Num

open Iv Iv.FP Fun

/-- The document of a function: its keys, with strings on the left and numbers on the right. -/
abbrev FnDoc := List (String × (String ⊕ ℚ))

/-- `to_json` of a function (`functions.pyx` 429, 683-686, 827-828).  `Undefined` (159-196) has no such method. -/
def fnToJson : Fn → Except Err FnDoc
  | .undef => .error .attributeError
  | .const v => .ok [("type", .inl "constant"), ("value", .inr v)]
  | .lin m c => .ok [("type", .inl "linear"), ("slope", .inr m), ("intercept", .inr c)]
  | .quad a b c => .ok [("a", .inr a), ("b", .inr b), ("c", .inr c)]

/-- `data[k]` where a number is needed. -/
def docNum (d : FnDoc) (k : String) : Except Err ℚ :=
  match d.lookup k with
  | some (.inr q) => .ok q
  | some (.inl _) => .error .typeError
  | none => .error .keyError

/-- `LinearFunction.from_json` (`functions.pyx` 688-695). -/
def fnFromJson (d : FnDoc) : Except Err Fn :=
  match d.lookup "type" with
  | none => .error .keyError
  | some (.inl "linear") => do
    let m ← docNum d "slope"
    let c ← docNum d "intercept"
    .ok (.lin m c)
  | some (.inl "constant") => do
    let v ← docNum d "value"
    .ok (.const v)
  | some _ => .error .typeError

/-- The document of a piecewise function: `intervals` and `functions`. -/
structure PFDoc where
  intervals : List (List (String × (FP ⊕ Br)))
  functions : List FnDoc

/-- `PiecewiseFunction.to_json` (`functions.pyx` 1487-1491). -/
def pfToJson (p : PF) : Except Err PFDoc := do
  let fs ← p.mapM (fun s => fnToJson s.2)
  .ok ⟨p.map (fun s => s.1.toJson), fs⟩

/-- `PiecewiseFunction.from_json` (`functions.pyx` 1493-1498).  Simplification: the lists are paired, so that
surplus elements of the longer list, which the code keeps, are lost. -/
def pfFromJson (d : PFDoc) : Except Err PF := do
  let is ← d.intervals.mapM CS.fromJson
  let fs ← d.functions.mapM fnFromJson
  .ok (is.zip fs)

/-- A `QuantileDistribution` (`quantiles.pyx` 38-57): its settings and its cdf, if it was fitted. -/
structure QD where
  epsilon : ℚ
  minSamples : ℤ
  cdf : Option PF

/-- The document of a `QuantileDistribution`. -/
structure QDDoc where
  epsilon : ℚ
  minSamples : ℤ
  cdf : PFDoc

/-- `QuantileDistribution.to_json` (`quantiles.pyx` 594-597). -/
def qdToJson (q : QD) : Except Err QDDoc :=
  match q.cdf with
  | none => .error .attributeError
  | some p => do
    let d ← pfToJson p
    .ok ⟨q.epsilon, q.minSamples, d⟩

/-- `QuantileDistribution.from_json` (`quantiles.pyx` 599-605). -/
def qdFromJson (d : QDDoc) : Except Err QD := do
  let p ← pfFromJson d.cdf
  .ok ⟨d.epsilon, d.minSamples, some p⟩

/-- A `Numeric` (`numeric.py` 35-48): its settings and its quantile distribution, if there is one. -/
structure NumDist where
  settings : List (String × ℚ)
  quantile : Option QD

/-- The document of a `Numeric`; `none` stands for `None`. -/
structure NumDoc where
  settings : List (String × ℚ)
  quantile : Option QDDoc

/-- `Numeric.inst_to_json` (`numeric.py` 412-417). -/
def numToJson (d : NumDist) : Except Err NumDoc :=
  match d.quantile with
  | none => .ok ⟨d.settings, none⟩
  | some q => do
    let j ← qdToJson q
    .ok ⟨d.settings, some j⟩

/-- `Numeric.from_json` (`numeric.py` 421-429).  `QuantileDistribution.from_json(None)` raises `TypeError`. -/
def numFromJson (d : NumDoc) : Except Err NumDist :=
  match d.quantile with
  | none => .error .typeError
  | some j => do
    let q ← qdFromJson j
    .ok ⟨d.settings, some q⟩

/-- The cdf that is read back. -/
def reload (p : PF) : Except Err PF := do
  let d ← pfToJson p
  pfFromJson d

end Verif.Num
