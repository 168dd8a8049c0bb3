import Verif.Common
import Mathlib.Data.List.Sort
import Mathlib.Algebra.BigOperators.Group.Finset.Basic
import Mathlib.Algebra.Order.Field.Rat

/-!
# Model of conditioning a multivariate Gaussian

`MultiVariateGaussian.conditional` (distributions/multivariate.py 73-117).  Numbers are rational.  The module itself cannot be
imported at the moment, since it asks for a module `base/quantiles` that has been moved (multivariate.py 15, 22).
-/

namespace Verif.Mvg

/-- A matrix with its shape. -/
structure Mat where
  rows : ℕ
  cols : ℕ
  el : ℕ → ℕ → ℚ

/-- A vector with its length. -/
structure Vec where
  len : ℕ
  el : ℕ → ℚ

/-- `a.dot(b)` for matrices: `ValueError` unless the shapes fit. -/
def Mat.dot (a b : Mat) : Except Err Mat :=
  if a.cols = b.rows then .ok ⟨a.rows, b.cols, fun i j => ∑ t ∈ Finset.range a.cols, a.el i t * b.el t j⟩
  else .error .valueError

/-- `a.dot(v)` for a matrix and a vector. -/
def Mat.dotVec (a : Mat) (v : Vec) : Except Err Vec :=
  if a.cols = v.len then .ok ⟨a.rows, fun i => ∑ t ∈ Finset.range a.cols, a.el i t * v.el t⟩ else .error .valueError

/-- `u + v`, without the broadcasting of vectors of length one. -/
def Vec.add (u v : Vec) : Except Err Vec :=
  if u.len = v.len then .ok ⟨u.len, fun i => u.el i + v.el i⟩ else .error .valueError

/-- `a - b`, without broadcasting. -/
def Mat.sub (a b : Mat) : Except Err Mat :=
  if a.rows = b.rows ∧ a.cols = b.cols then .ok ⟨a.rows, a.cols, fun i j => a.el i j - b.el i j⟩ else .error .valueError

/-- `order` (multivariate.py 98): the other variables, then those of the evidence. -/
def order (dim : ℕ) (idx : List ℕ) : List ℕ := (List.range dim).filter (fun i => decide (i ∉ idx)) ++ idx

/-- `m[r0:r0 + rows, c0:c0 + cols]`. -/
def Mat.block (m : Mat) (r0 rows c0 cols : ℕ) : Mat := ⟨rows, cols, fun i j => m.el (r0 + i) (c0 + j)⟩

/-- `conditional` (multivariate.py 94-117).  `inv` is `numpy.linalg.inv`.  The keys of the evidence are different natural
numbers; a key that is no index is an `IndexError`. -/
def conditional (inv : Mat → Except Err Mat) (dim : ℕ) (mean : ℕ → ℚ) (cov : ℕ → ℕ → ℚ) (ev : List (ℕ × ℚ)) :
    Except Err (Vec × Mat) := do
  let ev := ev.insertionSort (fun a b => a.1 ≤ b.1)
  let idx := ev.map Prod.fst
  let k := dim - idx.length
  let m := idx.length
  let a : Vec := ⟨m, fun i => (ev.map Prod.snd).getD i 0⟩
  let ord := order dim idx
  if ord.any (fun i => decide (dim ≤ i)) then .error .indexError else
  let sigma : Mat := ⟨ord.length, ord.length, fun i j => cov (ord.getD i 0) (ord.getD j 0)⟩
  let mu1 : Vec := ⟨k, fun i => mean (ord.getD i 0)⟩
  let mu2 : Vec := ⟨m, fun i => mean (ord.getD (k + i) 0)⟩
  let sigma11 := sigma.block 0 k 0 k
  let sigma12 := sigma.block k m 0 k
  let sigma21 := sigma.block 0 k k m
  let sigma22 := sigma.block k m k m
  let sigma22inv ← inv sigma22
  let w ← sigma12.dot sigma22inv
  let s ← w.dotVec ⟨m, fun i => a.el i - mu2.el i⟩
  let mu ← mu1.add s
  let t ← w.dot sigma21
  let cov' ← sigma11.sub t
  return (mu, cov')

end Verif.Mvg
