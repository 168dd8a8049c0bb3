import Verif.Gauss.Model

/-!
# Model of changing a `Gaussian` in place, and of sums of several

`gaussian.py` 79-115.  An operand is a number or a Gaussian of the same dimension.
-/

namespace Verif.Gau

/-- `__imul__` with a number (`gaussian.py` 110-114): mean and covariance of `self * alpha` replace those of `self`; the sums of weights and
the number of samples stay.  An empty distribution has no coordinates to iterate over: `TypeError`. -/
def G.imul {d : ℕ} (g : G d) (a : ℚ) : Except Err (G d) :=
  if g.shaped = false then .error .typeError
  else
    let r := g.scale a
    .ok { g with mean := r.mean, cov := r.cov, shaped := r.shaped, asList := r.asList }

/-- `__iadd__` of a number (`gaussian.py` 93-97). -/
def G.iaddNum {d : ℕ} (g : G d) (a : ℚ) : Except Err (G d) :=
  if g.shaped = false then .error .typeError
  else
    let r := g.shift a
    .ok { g with mean := r.mean, cov := r.cov, shaped := r.shaped, asList := r.asList }

/-- `__iadd__` of a Gaussian with the same dimension (`gaussian.py` 93-97). Simplification: the dimension of an empty Gaussian is not
defined, which is an error here whichever it is (`IndexError` in the code). -/
def G.iaddG {d : ℕ} (g h : G d) : Except Err (G d) :=
  if g.shaped = false ∨ h.shaped = false then .error .typeError
  else
    let r := g.add h
    .ok { g with mean := r.mean, cov := r.cov, shaped := r.shaped, asList := r.asList }

/-- `g + h` (`gaussian.py` 79-84) with the same check. -/
def G.plus {d : ℕ} (g h : G d) : Except Err (G d) :=
  if g.shaped = false ∨ h.shaped = false then .error .typeError else .ok (g.add h)

/-- `0 + g`, which is `g.__radd__(0)` (`gaussian.py` 90-91). -/
def G.radd {d : ℕ} (g : G d) (a : ℚ) : Except Err (G d) :=
  if g.shaped = false then .error .typeError else .ok (g.shift a)

/-- `sum(gs)` of Python: starts with the number 0, which is the result if there is nothing to sum up (`none`). -/
def sumG {d : ℕ} : List (G d) → Except Err (Option (G d))
  | [] => .ok none
  | g :: r => do
    let s ← g.radd 0
    let t ← r.foldlM (fun s h => s.plus h) s
    return some t

end Verif.Gau
