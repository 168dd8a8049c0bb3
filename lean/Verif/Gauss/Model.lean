import Mathlib.Algebra.Order.Ring.Rat
import Mathlib.Algebra.Order.Group.Abs
import Mathlib.Data.Fin.Basic
import Mathlib.Data.Fintype.Pi

/-!
# Model of `Gaussian` (`distributions/univariate/gaussian.py`)

Simplifications: numbers are rational, NaN and rounding do not occur; all points have the same dimension
`d` (others are refused by an assertion).  The attributes `samples` and `numsamples` of the base class
`dnutils.stats.Gaussian`, which is not part of the repository, are taken to be the number of points.
-/

namespace Verif.Gau

inductive Err
  | zeroDivision | attributeError | valueError | typeError
deriving DecidableEq, Repr

/-- A Gaussian (`gaussian.py` 25-47).  `shaped`: mean and covariance are arrays with a shape, not the NaN
or `None` of an empty distribution; `asList`: the covariance is a nested list instead of an array (which
`retract` makes of it). -/
structure G (d : ℕ) where
  shaped : Bool
  mean : Fin d → ℚ
  cov : Fin d → Fin d → ℚ
  asList : Bool
  sumW : ℚ
  sumWsq : ℚ
  samples : ℕ
deriving DecidableEq

/-- `Gaussian()` (`gaussian.py` 25-47). -/
def G.empty (d : ℕ) : G d := ⟨false, fun _ => 0, fun _ _ => 0, false, 0, 0, 0⟩

/-- `Gaussian(mean, cov)` (`gaussian.py` 25-47). -/
def G.of {d : ℕ} (mean : Fin d → ℚ) (cov : Fin d → Fin d → ℚ) : G d := ⟨true, mean, cov, false, 0, 0, 0⟩

/-- `PRECISION` (`gaussian.py` 23). -/
def prec : ℚ := 1 / 1000000000000000

/-- The lower bound loop over the diagonal (`gaussian.py` 217-224): a row and a column whose diagonal entry is
below `PRECISION` become zero. -/
def clip {d : ℕ} (c : Fin d → Fin d → ℚ) : Fin d → Fin d → ℚ :=
  fun j k => if c j j < prec ∨ c k k < prec then 0 else c j k

/-- `update` (`gaussian.py` 185-225).  The entries of the covariance are computed for `k ≤ j` and copied.
Simplification: if an exception is raised, the object is left as it was (the code may already have
replaced mean and covariance of an empty distribution by zeros). -/
def G.update {d : ℕ} (g : G d) (x : Fin d → ℚ) (w : ℚ) : Except Err (G d) :=
  if g.shaped ∧ g.asList then .error .attributeError
  else
    let oldmean : Fin d → ℚ := if g.shaped then g.mean else fun _ => 0
    let oldcov : Fin d → Fin d → ℚ := if g.shaped then g.cov else fun _ _ => 0
    let sw := g.sumW
    let sw' := g.sumW + w
    if sw' = 0 then .error .zeroDivision
    else
      let q := g.sumWsq
      let q' := (sw ^ 2 * q + w ^ 2) / sw' ^ 2
      let moved : Fin d → Bool := fun i => |x i - oldmean i| > prec
      let mean : Fin d → ℚ := fun i => if moved i then (sw * oldmean i + w * x i) / sw' else oldmean i
      let entry : Fin d → Fin d → ℚ := fun j k =>
        if moved k || moved j then
          (oldcov j k * sw * (1 - q) + sw * oldmean j * oldmean k - sw' * mean j * mean k +
            w * (if moved j then x j else oldmean j) * (if moved k then x k else oldmean k)) / (sw' * (1 - q'))
        else oldcov j k * sw * (1 - q) / (sw' * (1 - q'))
      let cov : Fin d → Fin d → ℚ :=
        if q' ≠ 1 then clip (fun j k => if k ≤ j then entry j k else entry k j) else oldcov
      .ok ⟨true, mean, cov, false, sw', q', g.samples + 1⟩

/-- `update_all` (`gaussian.py` 171-178) for points with their weights. -/
def G.updateAll {d : ℕ} (g : G d) (ps : List ((Fin d → ℚ) × ℚ)) : Except Err (G d) :=
  ps.foldlM (fun g p => g.update p.1 p.2) g

/-- `update_all` (`gaussian.py` 171-178): the weights are 1 by default and must be as many as the points. -/
def G.updateAll' {d : ℕ} (g : G d) (xs : List (Fin d → ℚ)) (ws : Option (List ℚ)) : Except Err (G d) :=
  let ws := ws.getD (xs.map (fun _ => 1))
  if xs.length ≠ ws.length then .error .valueError else g.updateAll (xs.zip ws)

/-- `retract` (`gaussian.py` 227-270) of a distribution that does not keep its samples (line 38).  The number
of samples is not changed. -/
def G.retract {d : ℕ} (g : G d) (x : Fin d → ℚ) (w : ℚ) : Except Err (G d) :=
  if g.shaped = false ∨ g.samples = 0 then .error .valueError
  else
    let sw := g.sumW
    let sw' := g.sumW - w
    if sw' = 0 then .error .zeroDivision
    else
      let q := g.sumWsq
      let q' := (sw ^ 2 * q - w ^ 2) / sw' ^ 2
      let mean : Fin d → ℚ := fun i => (sw * g.mean i - w * x i) / sw'
      if q' < 1 then
        .ok { g with mean := mean, cov := fun j k =>
                (g.cov j k * sw * (1 - q) + sw * g.mean j * g.mean k - w * x j * x k -
                  sw' * mean j * mean k) / (sw' * (1 - q')), sumW := sw', sumWsq := q' }
      else .ok { g with mean := mean, cov := fun _ _ => 0, asList := true, sumW := sw', sumWsq := q' }

/-- `__add__` of two Gaussians of the same dimension (`gaussian.py` 79-84). -/
def G.add {d : ℕ} (g h : G d) : G d := .of (fun i => g.mean i + h.mean i) (fun j k => g.cov j k + h.cov j k)

/-- `__add__` of a number (`gaussian.py` 85-86). -/
def G.shift {d : ℕ} (g : G d) (a : ℚ) : G d := .of (fun i => a + g.mean i) g.cov

/-- `__mul__` with a number (`gaussian.py` 99-103). -/
def G.scale {d : ℕ} (g : G d) (a : ℚ) : G d := .of (fun i => a * g.mean i) (fun j k => a ^ 2 * g.cov j k)

/-- The result of `linreg`. -/
structure Line where
  m : ℚ
  b : ℚ
  rss : ℚ
  r2 : ℚ
deriving DecidableEq

/-- `linreg` (`gaussian.py` 142-169) of a two-dimensional Gaussian.  Simplification: the square of `rho` is
computed without the square root.  A zero variance in the divisor of `m` is an error here (NumPy would give
NaN). -/
def G.linreg (g : G 2) : Except Err Line :=
  if g.samples < 2 then .error .valueError
  else if g.asList then .error .typeError
  else
    let v0 := g.cov 0 0
    let v1 := g.cov 1 1
    let rho2 := if |v0| > 1 / 10 ^ 8 ∧ |v1| > 1 / 10 ^ 8 then g.cov 0 1 ^ 2 / (v0 * v1) else 1
    if v0 = 0 then .error .zeroDivision
    else
      let m := g.cov 0 1 / v0
      let rss := v1 * (1 - rho2)
      .ok ⟨m, g.mean 1 - m * g.mean 0, rss, if v1 ≠ 0 then (v1 - rss) / v1 else 0⟩

end Verif.Gau
