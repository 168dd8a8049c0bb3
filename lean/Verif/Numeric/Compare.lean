import Verif.Numeric.Query

/-!
# Model of the comparison of numeric distributions

`Numeric.jaccard_similarity` and `Numeric.kl_divergence` (`distributions/univariate/numeric.py` 601-623, 291-317),
`PiecewiseFunction.boundaries` (`base/functions.pyx` 1673-1692).
-/

namespace Verif.Num

open Iv Iv.FP Fun

/-- The points between neighbouring pieces (`functions.pyx` 1675-1679). -/
def joints : List CS → List FP
  | i :: j :: r => (if i.contiguous j then [j.lowermost] else [i.uppermost, j.lowermost]) ++ joints (j :: r)
  | _ => []

/-- The finite bounds of the pieces (`functions.pyx` 1674-1690), before they are sorted.  Without a piece, `fst` and
`last` give `None`, and `isfinite(None)` raises. -/
def bounds (l : List CS) : Except Err (List ℤ) :=
  match l.head?, l.getLast? with
  | some i, some j =>
    .ok ((i.lower :: joints l ++ [j.upper]).filterMap (fun x => match x with | fin n => some n | _ => none))
  | _, _ => .error .typeError

/-- `sorted(set(...))` (`functions.pyx` 1681-1692, `numeric.py` 607-611). -/
def sortedSet (l : List ℤ) : List ℤ := l.dedup.insertionSort (· ≤ ·)

/-- `pdf.eval(x)` (`functions.pyx` 1029-1030, 1055-1078). -/
def densAt (d : Dens) (x : FP) : Except Err XQ :=
  match (d.find? (fun s => PF.hit x s.1)).map (·.2) with
  | some v => .ok v
  | none => .error .attributeError

/-- `a + b`; `-inf` does not occur. -/
def xadd : XQ → XQ → XQ
  | .fin a, .fin b => .fin (a + b)
  | .ninf, y => y
  | x, .ninf => x
  | _, _ => .pinf

/-- `v * (p2 - p1)`, for a positive width. -/
def xscale (w : ℚ) : XQ → XQ := XQ.map (fun v => v * w)

/-- `min(a, b)`. -/
def xmin (a b : XQ) : XQ := if a.le b then a else b

/-- `max(a, b)`. -/
def xmax (a b : XQ) : XQ := if a.le b then b else a

/-- The loop of `jaccard_similarity` (`numeric.py` 614-622): `intersection` and `union`.  `rnd` is the float for the
middle of an interval (`intervals.pyx` 761-775). -/
def areas (val : ℤ → ℚ) (rnd : ℚ → ℤ) (d e : Dens) : List ℤ → Except Err (XQ × XQ)
  | p :: q :: r => do
    let m := fin (rnd ((val p + val q) / 2))
    let v ← densAt d m
    let w ← densAt e m
    let (i, u) ← areas val rnd d e (q :: r)
    .ok (xadd (xscale (val q - val p) (xmin v w)) i, xadd (xscale (val q - val p) (xmax v w)) u)
  | _ => .ok (.fin 0, .fin 0)

/-- `intersection / union` of numpy floats; `none` is `nan`, also for the quotients that cannot occur. -/
def xratio : XQ → XQ → Option ℚ
  | .fin a, .fin b => if b = 0 then none else some (a / b)
  | .fin _, .pinf => some 0
  | _, _ => none

/-- `jaccard_similarity` (`numeric.py` 601-623); `eq` says whether the distributions are equal (605).  The points are
numpy floats, so the quotient is `nan` instead of an error, unless there is no interval at all. -/
def jaccard (val : ℤ → ℚ) (rnd : ℚ → ℤ) (eq : Bool) (d e : Dens) : Except Err (Option ℚ) :=
  if eq then .ok (some 1)
  else do
    let a ← bounds (d.map Prod.fst)
    let b ← bounds (e.map Prod.fst)
    let ps := sortedSet (a ++ b)
    if ps.length < 2 then .error .zeroDivision
    else do
      let (i, u) ← areas val rnd d e ps
      .ok (xratio i u)

/-- The sorted lower bounds of the pieces of both densities (`numeric.py` 297-309), without repetitions.  The
densities in the queue have no effect on the result. -/
def lowers (d e : Dens) : List FP :=
  ((d.map (fun s => s.1.lower) ++ e.map (fun s => s.1.lower)).dedup).insertionSort (fun a b => a ≤ b)

/-- The loop of `kl_divergence` (`numeric.py` 310-316). -/
def klLoop (val : ℤ → ℚ) (c₁ c₂ : PF) : List FP → Except Err ℚ
  | x :: y :: r => do
    let p ← pInterval val c₁ ⟨x, y, .inc, .inc⟩
    let q ← pInterval val c₂ ⟨x, y, .inc, .inc⟩
    let s ← klLoop val c₁ c₂ (y :: r)
    .ok (p * |p - q| + s)
  | _ => .ok 0

/-- `kl_divergence` (`numeric.py` 291-317). -/
def klDivergence (val : ℤ → ℚ) (c₁ c₂ : PF) : Except Err ℚ := do
  let d ← pdf c₁
  let e ← pdf c₂
  klLoop val c₁ c₂ (lowers d e)

end Verif.Num
