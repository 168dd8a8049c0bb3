import Verif.Numeric.Quantile
import Verif.Py

/-!
# Model of `blur`

The branch of `JPT._preprocess_query` (`trees.py` 1411-1436) that turns a single number into an interval around it.
-/

namespace Verif.Num

open Iv Iv.FP Fun

/-- `idx_at` of a cdf (`functions.pyx` 1066-1078) at a float. -/
def cdfIdx (p : PF) (n : ℤ) : ℤ := match p.findIdx? (fun s => s.1.containsValue (fin n)) with
  | some i => i
  | none => -1

/-- `idx_at` of a quantile function (`functions.pyx` 1066-1078); NaN is in no interval. -/
def ppfIdx (Q : List PPiece) (y : Option ℚ) : ℤ :=
  match y with
  | none => -1
  | some y => match Q.findIdx? (fun s => s.lower.le (.fin y) && !s.upper.le (.fin y)) with
    | some i => i
    | none => -1

/-- The interval for the number `v` (`trees.py` 1411-1436), as its two bounds; both brackets are closed.  `t` is
`label2value` of the domain, `pos` the position of a float in the list of all floats; `none` is NaN.  Simplification: the
arithmetic is exact. -/
def blurQuery (t : ℚ → ℚ) (pos : ℚ → ℤ) (cdf : PF) (ppf : List PPiece) (v blur : ℚ) :
    Except Err (Option ℚ × Option ℚ) := do
  let f ← pyGet (cdf.map Prod.snd) (max 1 (min (cdf.length - 2) (cdfIdx cdf (pos (t v)))))
  let quantile := f.eval v
  let lower := quantile.map (fun q => t (q - blur / 2))
  let upper := quantile.map (fun q => t (q + blur / 2))
  let g ← pyGet (ppf.map PPiece.f) (max 1 (min (cdf.length - 2) (ppfIdx ppf lower)))
  let h ← pyGet (ppf.map PPiece.f) (min (ppf.length - 2) (max 1 (ppfIdx ppf upper)))
  let l := (lower.bind g.eval).map t
  let u := (upper.bind h.eval).map t
  match l, u with
  | some a, some b => if b < a then .error .valueError else .ok (some a, some b)
  | _, _ => .ok (l, u)

end Verif.Num
