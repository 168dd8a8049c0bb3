import Verif.Common
import Verif.Py
import Verif.Utils.Model
import Mathlib.Data.List.Dedup
import Mathlib.Data.List.Sort

/-!
# Model of symbolic and integer distributions

`src/jpt/distributions/univariate/multinomial.py` and `.../integer.py`.  Probabilities are exact
rationals.  A numpy parameter vector is a list; `copy()` makes a new vector, so there is no sharing
to be modelled.
-/

namespace Verif.Disc

/-! ## Domains -/

/-- A symbolic or integer domain: the labels in order.  `values` maps the `i`-th label to `i`,
`labels` maps `i` to the `i`-th label. -/
structure Dom (L : Type) where
  name : String
  labels : List L
  deriving DecidableEq

/-- `SymbolicType` (multinomial.py 645-654). -/
def symbolicType {L : Type} [DecidableEq L] (name : String) (labels : List L) :
    Except Err (Dom L) :=
  if labels.length < 1 then .error .valueError
  else if labels.dedup.length ≠ labels.length then .error .valueError
  else .ok ⟨name, labels⟩

/-- The labels `lmin, …, lmax`. -/
def intLabels (lmin lmax : ℤ) : List ℤ :=
  (List.range (lmax - lmin + 1).toNat).map fun i : ℕ => lmin + (i : ℤ)

/-- `IntegerType` (integer.py 571-581). -/
def integerType (name : String) (lmin lmax : ℤ) : Except Err (Dom ℤ) :=
  if lmin > lmax then .error .valueError else .ok ⟨name, intLabels lmin lmax⟩

/-- An event as it is passed by the caller: a single label or value, or a collection. -/
inductive Arg (A : Type)
  | atom (a : A)
  | list (l : List A)
  | tuple (l : List A)
  | set (l : List A)
  deriving DecidableEq

/-- The elements of an event. -/
def Arg.elems {A : Type} : Arg A → List A
  | .atom a => [a]
  | .list l => l
  | .tuple l => l
  | .set l => l

/-- `cls.values[label]`. -/
def Dom.valueOf {L : Type} [DecidableEq L] (d : Dom L) (l : L) : Option ℤ :=
  (d.labels.idxOf? l).map fun i : ℕ => (i : ℤ)

/-- `cls.values[label]` as called by `fit` and `Integer.crop` (utils.py `OrderedDictProxy._mapvalue`):
`ValueError` for a label outside the domain. -/
def Dom.valueOrErr {L : Type} [DecidableEq L] (d : Dom L) (l : L) : Except Err ℤ :=
  match d.valueOf l with
  | none => .error .valueError
  | some v => .ok v

/-- `cls.labels[value]`. -/
def Dom.labelOf {L : Type} (d : Dom L) (v : ℤ) : Option L :=
  if 0 ≤ v then d.labels[v.toNat]? else none

/-- Look up all elements; `ValueError` if one is missing.  The type of the collection is kept, a
set is rebuilt from the images. -/
def convert {A B : Type} [DecidableEq B] (f : A → Option B) : Arg A → Except Err (Arg B)
  | .atom a => match f a with | none => .error .valueError | some b => .ok (.atom b)
  | .list l => match l.mapM f with | none => .error .valueError | some r => .ok (.list r)
  | .tuple l => match l.mapM f with | none => .error .valueError | some r => .ok (.tuple r)
  | .set l => match l.mapM f with | none => .error .valueError | some r => .ok (.set r.dedup)

/-- `value2label` (multinomial.py 51-72, integer.py 170-191). -/
def Dom.value2label {L : Type} [DecidableEq L] (d : Dom L) : Arg ℤ → Except Err (Arg L) :=
  convert d.labelOf

/-- `label2value` (multinomial.py 75-96, integer.py 194-215). -/
def Dom.label2value {L : Type} [DecidableEq L] (d : Dom L) : Arg L → Except Err (Arg ℤ) :=
  convert d.valueOf

/-! ## Distributions -/

/-- A distribution object over a domain, with its parameter vector. -/
structure Dist (L : Type) where
  dom : Dom L
  params : List ℚ
  deriving DecidableEq

section
variable {L : Type} [DecidableEq L]

/-- `set(params)` (multinomial.py 416-423, integer.py 404-410). -/
def Dist.mk? (dom : Dom L) (params : List ℚ) : Except Err (Dist L) :=
  if dom.labels.length ≠ params.length then .error .valueError else .ok ⟨dom, params⟩

/-- `Multinomial._p` (multinomial.py 237-260): the sum over the set of indices. -/
def Dist.pVal (d : Dist L) (e : Arg ℤ) : Except Err ℚ := do
  let ps ← e.elems.dedup.mapM (pyGet d.params)
  return ps.sum

/-- `Multinomial.p` (multinomial.py 214-235). -/
def Dist.p (d : Dist L) (e : Arg L) : Except Err ℚ := do
  let v ← d.dom.label2value e
  d.pVal v

/-- `Integer._p` (integer.py 245-256): values outside the domain raise `ValueError`. -/
def Dist.intPVal (d : Dist L) (e : Arg ℤ) : Except Err ℚ :=
  if ¬ (∀ v ∈ e.elems, 0 ≤ v ∧ v ≤ (d.dom.labels.length : ℤ) - 1) then .error .valueError
  else d.pVal e

/-- `Integer.p` (integer.py 242-243). -/
def Dist.intP (d : Dist L) (e : Arg L) : Except Err ℚ := do
  let v ← d.dom.label2value e
  d.intPVal v

/-- `create_dirac_impulse` (multinomial.py 262-280). -/
def Dist.dirac (d : Dist L) (v : ℤ) : Except Err (Dist L) :=
  match pyIdx d.dom.labels.length v with
  | none => .error .indexError
  | some j => .ok { d with params := (List.replicate d.dom.labels.length 0).set j 1 }

/-- The parameters with everything outside `r` set to zero. -/
def restrict (params : List ℚ) (r : List ℤ) : List ℚ :=
  params.zipIdx.map fun q => if (q.2 : ℤ) ∈ r then q.1 else 0

/-- `Multinomial._crop` (multinomial.py 368-386). -/
def Dist.cropVal (d : Dist L) (r : Arg ℤ) : Except Err (Dist L) :=
  match r with
  | .atom v => d.dirac v
  | r =>
    let ps := restrict d.params r.elems
    if ps.sum = 0 then .error .unsatisfiable
    else .ok { d with params := ps.map (· / ps.sum) }

/-- `Multinomial.crop` (multinomial.py 388-400). -/
def Dist.crop (d : Dist L) (r : Arg L) : Except Err (Dist L) := do
  let v ← d.dom.label2value r
  d.cropVal v

/-- `Integer._crop` (integer.py 316-330). -/
def Dist.intCropVal (d : Dist L) (r : Arg ℤ) : Except Err (Dist L) :=
  match Ut.normValues false false 0 (restrict d.params r.elems) with
  | .error .valueError => .error .unsatisfiable
  | .error e => .error e
  | .ok ps => Dist.mk? d.dom ps

/-- `Integer.crop` (integer.py 311-314). -/
def Dist.intCrop (d : Dist L) (r : Arg L) : Except Err (Dist L) := do
  let vs ← r.elems.mapM d.dom.valueOrErr
  d.intCropVal (.list vs)

/-- The set of distinct non-zero probabilities in descending order (multinomial.py 316-320). -/
def likelihoods (params : List ℚ) : List ℚ :=
  ((params.filter (fun p => decide (p ≠ 0))).dedup).insertionSort (· ≥ ·)

/-- `_k_mpe` (multinomial.py 315-331, integer.py 272-293): `k = none` means all. -/
def Dist.kMpeVal (d : Dist L) (k : Option ℕ) : List (List ℤ × ℚ) :=
  let ls := likelihoods d.params
  (ls.take (k.getD ls.length)).map fun q =>
    ((d.params.zipIdx.filter (fun x => x.1 = q)).map (fun x => (x.2 : ℤ)), q)

/-- `k_mpe` (multinomial.py 333-339, integer.py 295-298). -/
def Dist.kMpe (d : Dist L) (k : Option ℕ) : Except Err (List (Arg L × ℚ)) :=
  (d.kMpeVal k).mapM fun s => do
    let st ← d.dom.value2label (.set s.1)
    return (st, s.2)

/-- `mpe` (multinomial.py 302-313, integer.py 300-306); `TypeError` stands for unpacking `None`. -/
def Dist.mpe (d : Dist L) : Except Err (Arg L × ℚ) :=
  match d.kMpeVal (some 1) with
  | [] => .error .typeError
  | s :: _ => do
    let st ← d.dom.value2label (.set s.1)
    return (st, s.2)

/-- `params[i] += x`. -/
def addAt (params : List ℚ) (i : ℤ) (x : ℚ) : Except Err (List ℚ) :=
  match pyIdx params.length i with
  | none => .error .indexError
  | some j => .ok (params.modify j (· + x))

/-- `_fit` (multinomial.py 402-414, integer.py 387-402) on the column of values of the selected
rows. -/
def Dist.fitVal (dom : Dom L) (data : List ℤ) : Except Err (Dist L) := do
  let ps ← data.foldlM (fun ps v => addAt ps v (1 / (data.length : ℚ)))
    (List.replicate dom.labels.length 0)
  return ⟨dom, ps⟩

/-- `Integer.fit` (integer.py 368-385) on the column of labels of the selected rows. -/
def Dist.fit (dom : Dom L) (data : List L) : Except Err (Dist L) := do
  let vs ← data.mapM dom.valueOrErr
  Dist.fitVal dom vs

/-- `OrderedDictProxy.__eq__` (utils.py 189-195) on the label dicts: `zip` stops at the shorter. -/
def dictEq (a b : List L) : Bool := (a.zip b).all fun q => q.1 == q.2

/-- `Multinomial.equiv` (multinomial.py 135-139). -/
def Dom.equiv (a b : Dom L) : Bool := a.name == b.name && dictEq a.labels b.labels

/-- `params += ps * w` with numpy's broadcasting. -/
def addScaled (acc ps : List ℚ) (w : ℚ) : Except Err (List ℚ) :=
  if ps.length = acc.length then .ok (List.zipWith (fun a p => a + p * w) acc ps)
  else
    match ps with
    | [p] => .ok (acc.map (· + p * w))
    | _ => .error .valueError

/-- `merge` (multinomial.py 450-482).  `zip` stops at the shorter of the two lists.  No
distributions: the weights are checked first, then `distributions[0]` raises `IndexError`. -/
def Dist.merge (ds : List (Dist L)) (ws : List ℚ) : Except Err (Dist L) :=
  match ds with
  | [] => if |1 - ws.sum| > 1 / 10000000000 then .error .valueError else .error .indexError
  | d0 :: _ =>
    if ¬ (∀ d ∈ ds, d0.dom.equiv d.dom = true) then .error .typeError
    else if |1 - ws.sum| > 1 / 10000000000 then .error .valueError
    else do
      let ps ← (ds.zip ws).foldlM (fun acc q => addScaled acc q.1.params q.2)
        (List.replicate d0.dom.labels.length 0)
      if |ps.sum| < 1 / 10000000000 then .error .unsatisfiable
      else Dist.mk? d0.dom ps

/-- `update` (multinomial.py 425-448, integer.py 353-366). -/
def Dist.update (d o : Dist L) (w : ℚ) : Except Err (Dist L) :=
  if ¬ (0 ≤ w ∧ w ≤ 1) then .error .valueError
  else do
    let ps ← addScaled (d.params.map (· * (1 - w))) o.params w
    return { d with params := ps }

/-- `jaccard_similarity` (multinomial.py 142-154, integer.py 472-480); `none`: division by zero
(NaN). -/
def jaccard (d e : Dist L) : Option ℚ :=
  let i := (List.zipWith min d.params e.params).sum
  let u := (List.zipWith max d.params e.params).sum
  if u = 0 then none else some (i / u)

/-- The loop of `kl_divergence` (multinomial.py 352-366, integer.py 440-449), on equal types. -/
def klDivergence (d e : Dist L) : ℚ :=
  (List.zipWith (fun p q => p * |p - q|) d.params e.params).sum

end

/-! ## Integer distributions -/

/-- `expectation` (integer.py 258-259). -/
def expectation (d : Dist ℤ) : ℚ := (List.zipWith (fun p (l : ℤ) => p * (l : ℚ)) d.params d.dom.labels).sum

/-- `variance` (integer.py 264-266). -/
def variance (d : Dist ℤ) : ℚ :=
  (List.zipWith (fun (l : ℤ) p => ((l : ℚ) - expectation d) ^ 2 * p) d.dom.labels d.params).sum

/-- `moment` (integer.py 458-469). -/
def moment (d : Dist ℤ) (order : ℕ) (center : ℚ) : ℚ :=
  (List.zipWith (fun (l : ℤ) p => ((l : ℚ) - center) ^ order * p) d.dom.labels d.params).sum

/-- An integer distribution object: its bounds and parameters. -/
structure IDist where
  name : String
  lmin : ℤ
  lmax : ℤ
  params : List ℚ

/-- The domain of an integer distribution. -/
def IDist.toDist (d : IDist) : Dist ℤ := ⟨⟨d.name, intLabels d.lmin d.lmax⟩, d.params⟩

/-- `add` (integer.py 93-111). -/
def IDist.add (d e : IDist) : Except Err IDist := do
  let dom ← integerType (d.name ++ "+" ++ e.name) (d.lmin + e.lmin) (d.lmax + e.lmax)
  let dist ← dom.labels.mapM fun z => do
    let ts ← (intLabels d.lmin d.lmax).mapM fun k => do
      let p1 ← d.toDist.intP (.atom k)
      let p2 ← if e.lmin ≤ z - k ∧ z - k ≤ e.lmax then e.toDist.intP (.atom (z - k))
        else Except.ok 0
      return p1 * p2
    return ts.sum
  let r ← Dist.mk? dom dist
  return ⟨dom.name, d.lmin + e.lmin, d.lmax + e.lmax, r.params⟩

/-- `Integer.cdf` (integer.py 77-91): the value of the returned piecewise function at the integer
`x`; `none`: undefined. -/
def IDist.cdfAt (d : IDist) (x : ℤ) : Option ℚ :=
  if 0 ≤ x then d.params[x.toNat]? else none

end Verif.Disc
