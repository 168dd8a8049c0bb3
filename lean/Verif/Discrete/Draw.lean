import Verif.Discrete.Model
import Verif.Utils.Model

/-!
# Model of drawing elements in proportion to weights

The stream `u` holds the numbers from `[0, 1)` that `random.random()` returns.
-/

namespace Verif.Disc

open Verif.Ut

/-- `self._upperbounds[-1]` in `random.uniform(0, self._upperbounds[-1])` (sampling.py 42, 49), and
`uniform(0, b) = 0 + (b - 0) * random()`.  The bounds of wheels that are not normalised are never NaN. -/
def spin {β : Type} (w : Wheel β) (r : ℚ) : Except Err ℚ :=
  match w.bounds with
  | none => .error .indexError
  | some bs =>
    match bs.getLast? with
    | none => .error .indexError
    | some b => .ok (0 + (b - 0) * r)

/-- `RouletteWheelSampler.sample` (sampling.py 35-42); `range(n)` is empty for a negative `n`. -/
def wheelSample {β : Type} (w : Wheel β) (n : ℤ) (u : ℕ → ℚ) : Except Err (List β) :=
  if n = 0 then .ok []
  else (List.range n.toNat).mapM fun j : ℕ => do
    let x ← spin w (u j)
    w.get x

/-- `RouletteWheelSampler.samplei` (sampling.py 44-50). -/
def wheelSampleI {β : Type} (w : Wheel β) (n : ℤ) (u : ℕ → ℚ) : Except Err (List (β × ℕ)) := do
  let idx ← (List.range n.toNat).mapM fun j : ℕ => do
    let x ← spin w (u j)
    w.index x
  idx.mapM fun i =>
    match i with
    | none => .error .typeError
    | some i =>
      match w.elements[i]? with
      | none => .error .indexError
      | some e => .ok (e, i)

/-- `wsample` (sampling.py 69-80). -/
def wsample {β : Type} (population : List β) (weights : List ℚ) (k : ℤ) (u : ℕ → ℚ) : Except Err (List β) := do
  let w ← mkWheel population weights false
  wheelSample w k u

/-- `wsamplei` (sampling.py 83-90). -/
def wsampleI {β : Type} (population : List β) (weights : List ℚ) (k : ℤ) (u : ℕ → ℚ) : Except Err (List (β × ℕ)) := do
  let w ← mkWheel population weights false
  wheelSampleI w k u

/-- `wchoice` (sampling.py 53-55); `first` of an empty list is `None`. -/
def wchoice {β : Type} (population : List β) (weights : List ℚ) (u : ℕ → ℚ) : Except Err (Option β) := do
  let l ← wsample population weights 1 u
  return l.head?

/-- `wchoicei` (sampling.py 64-66).  It returns the element together with its index. -/
def wchoiceI {β : Type} (population : List β) (weights : List ℚ) (u : ℕ → ℚ) : Except Err (Option (β × ℕ)) := do
  let l ← wsampleI population weights 1 u
  return l.head?

/-- `wchoiced` (sampling.py 58-61); a dict is the list of its items. -/
def wchoiceD {β : Type} (dist : List (β × ℚ)) (u : ℕ → ℚ) : Except Err (Option β) :=
  wchoice (dist.map Prod.fst) (dist.map Prod.snd) u

section
variable {L : Type} [DecidableEq L]

/-- `values.values()`: the numbers `0, 1, …`. -/
def Dom.valueList (d : Dom L) : List ℤ := (List.range d.labels.length).map fun i : ℕ => (i : ℤ)

/-- `sample` (distribution.py 93-94, integer.py 230-231) with `_sample` (multinomial.py 281-287, integer.py 217-222). -/
def Dist.sampleN (d : Dist L) (n : ℤ) (u : ℕ → ℚ) : Except Err (List (Arg L)) := do
  let vs ← wsample d.dom.valueList d.params n u
  vs.mapM fun v => d.dom.value2label (.atom v)

/-- `sample_one` (distribution.py 96-97, integer.py 233-234) with `_sample_one` (multinomial.py 289-294,
integer.py 224-228). -/
def Dist.sampleOne (d : Dist L) (u : ℕ → ℚ) : Except Err (Arg L) := do
  let v ← wchoice d.dom.valueList d.params u
  match v with
  | none => .error .typeError
  | some v => d.dom.value2label (.atom v)

end

end Verif.Disc
