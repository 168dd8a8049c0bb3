import Verif.Discrete.Model
import Mathlib.Data.List.Sort

/-!
# Model of listing and changing symbolic and integer distributions
-/

namespace Verif.Disc

variable {L : Type}

/-- `Multinomial.items` (multinomial.py 200-205). -/
def Dist.items (d : Dist L) : List (ℚ × L) := d.params.zip d.dom.labels

/-- `_items` (multinomial.py 193-198, integer.py 436-438): `values.values()` are `0, 1, …`. -/
def Dist.itemsVal (d : Dist L) : List (ℚ × ℤ) :=
  d.params.zip ((List.range d.dom.labels.length).map fun i : ℕ => (i : ℤ))

/-- `Integer.items` (integer.py 440-442). -/
def Dist.intItems [DecidableEq L] (d : Dist L) : Except Err (List (ℚ × Arg L)) :=
  d.itemsVal.mapM fun q => do
    let l ← d.dom.value2label (.atom q.2)
    return (q.1, l)

/-- `sorted` (multinomial.py 181-191, integer.py 429-434).  Python's sort is stable, also with `reverse=True`. -/
def Dist.sorted (d : Dist L) : List (ℚ × L) := d.items.insertionSort (fun a b => b.1 ≤ a.1)

/-- `__getitem__` (multinomial.py 154-155). -/
def Dist.getItem [DecidableEq L] (d : Dist L) (l : L) : Except Err ℚ := d.p (.list [l])

/-- `a[i] = xs` for a numpy array of floats: a number, or an array, which must have one element. -/
def npSet (a : List ℚ) (i : ℕ) : ℚ ⊕ List ℚ → Except Err (List ℚ)
  | .inl x => if i < a.length then .ok (a.set i x) else .error .indexError
  | .inr [x] => if i < a.length then .ok (a.set i x) else .error .indexError
  | .inr _ => if i < a.length then .error .valueError else .error .indexError

/-- `Multinomial.__setitem__` (multinomial.py 157-158); `OrderedDictProxy.__getitem__` raises `KeyError`. -/
def Dist.setItem [DecidableEq L] (d : Dist L) (l : L) (p : ℚ ⊕ List ℚ) : Except Err (Dist L) :=
  match d.dom.labels.idxOf? l with
  | none => .error .keyError
  | some i => do
    let ps ← npSet d.params i p
    return ⟨d.dom, ps⟩

/-- `Bool` (multinomial.py 620-621). -/
def boolDom : Dom Bool := ⟨"Bool", [false, true]⟩

/-- `Bool.set` (multinomial.py 626-630) with a number. -/
def boolSet (p : ℚ) : Except Err (Dist Bool) := Dist.mk? boolDom [1 - p, p]

/-- `Bool.__setitem__` (multinomial.py 637-640) with a number. -/
def boolSetItem (d : Dist Bool) (v : Bool) (p : ℚ) : Except Err (Dist Bool) := d.setItem v (.inr [p, 1 - p])

/-- What `__str__` prints (multinomial.py 167-175, integer.py 418-424): `none` stands for `n/a`, otherwise the labels with
their probabilities.  `params` is `None` before fitting.  The test `self._p is None` asks whether the method `_p` is `None`,
so `zip` gets `None`. -/
def describe (dom : Dom L) (params : Option (List ℚ)) : Except Err (Option (List (L × ℚ))) :=
  match params with
  | none => .error .typeError
  | some ps => .ok (some (dom.labels.zip ps))

end Verif.Disc
