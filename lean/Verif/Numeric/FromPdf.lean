import Verif.Numeric.Query
import Verif.Numeric.Merge

/-!
# Model of `QuantileDistribution.from_pdf` and of closing convex gaps

`quantiles.pyx` 82-155 (`from_pdf`, `pdf_to_cdf`), `numeric.py` 435-490 (`insert_convex_fragments`) and the step of
`trees.py` 2401-2448 (`postprocess_leaves`) for one numeric variable of one leaf.
-/

namespace Verif.Num

open Iv Iv.FP Fun

/-! ## `pdf_to_cdf` -/

/-- The variables of the loop in `pdf_to_cdf` (`quantiles.pyx` 100-128).  `dirac` is the last item of
`dirac_offsets`: its index and whether its weight is the number 1; the weight of a second impulse is the tuple of the
first one (`quantiles.pyx` 111-114), which is removed from the list. -/
structure Integral where
  cdf : PF
  head : ℚ
  dirac : Option (ℕ × Bool)
  last : Option CS

/-- `last_int.union(i)` of contiguous intervals (`intervals.pyx` 1028-1032). -/
def join (s o : CS) : CS where
  lower := if s.lower ≤ o.lower then s.lower else o.lower
  upper := if o.upper ≤ s.upper then s.upper else o.upper
  left := if s.lower = o.lower then (if s.left = .inc then .inc else o.left)
    else if s.lower < o.lower then s.left else o.left
  right := if s.upper = o.upper then (if s.right = .inc then .inc else o.right)
    else if s.upper > o.upper then s.right else o.right

/-- The end of one round (`quantiles.pyx` 123-128). -/
def Integral.push (s : Integral) (i : CS) (f : Fn) (head : ℚ) : Integral :=
  match s.last with
  | some l =>
    if l.contiguous i then ⟨s.cdf ++ [(join l i, f)], head, s.dirac, none⟩
    else ⟨s.cdf ++ [(i, f)], head, s.dirac, s.last⟩
  | none => ⟨s.cdf ++ [(i, f)], head, s.dirac, none⟩

/-- One round of the loop (`quantiles.pyx` 107-128).  `rectify` leaves constant pieces as they are.  Simplification:
a density other than 0 on an infinite interval, which gives infinite or NaN parameters, is an error here. -/
def integrate (val : ℤ → ℚ) (s : Integral) (p : CS × XQ) : Except Err Integral :=
  match p.2 with
  | .fin v =>
    if v = 0 then .ok (s.push p.1 (.const s.head) s.head)
    else match p.1.lower, p.1.upper with
      | fin a, fin b =>
        .ok (s.push p.1 (.lin v (s.head - v * val a)) (v * val b + (s.head - v * val a)))
      | _, _ => .error .valueError
  | _ => .ok { s with dirac := some (s.cdf.length, s.dirac.isNone), last := some p.1 }

/-- `cdf.eval(cdf.intervals[-1].any_point())` (`quantiles.pyx` 131, 152).  `pick` is `any_point`
(`intervals.pyx` 761-775).  The value NaN of an undefined piece is an error here; there is none. -/
def lastValue (val : ℤ → ℚ) (pick : CS → ℤ) (cdf : PF) : Except Err ℚ :=
  match cdf.getLast? with
  | none => .error .indexError
  | some s => do
    match ← cdf.eval val (pick s.1) with
    | some y => .ok y
    | none => .error .valueError

/-- `f += offset` (`functions.pyx` 124-125, 602-603). -/
def lift (o : ℚ) : Fn → Fn
  | .const c => .const (c + o)
  | .lin m c => .lin m (c + o)
  | f => f

/-- The offsets (`quantiles.pyx` 133-148), `residual` is `r`. -/
def offsets (r : ℚ) (s : Integral) : Except Err PF :=
  match s.dirac with
  | none => .ok s.cdf
  | some (i, true) =>
    .ok (s.cdf.take i ++ (s.cdf.drop i).map (fun p => (p.1, lift (if r > 0 then r else 1) p.2)))
  | some (i, false) => if r > 0 ∨ i < s.cdf.length then .error .typeError else .ok s.cdf

/-- `pdf_to_cdf` (`quantiles.pyx` 94-155), without `dirac_weights`, which are not used. -/
def pdfToCdf (val : ℤ → ℚ) (pick : CS → ℤ) (d : Dens) : Except Err PF := do
  let s ← d.foldlM (integrate val) ⟨[], 0, none, none⟩
  let r := 1 - (← lastValue val pick s.cdf)
  if r < -tol then .error .valueError
  else do
    let cdf ← offsets r s
    let y ← lastValue val pick cdf
    if y = 0 then .error .zeroDivision
    else .ok (cdf.stretch (1 / y))

/-! ## `insert_convex_fragments` -/

/-- The truth value of an optional interval (`numeric.py` 453, 456; `intervals.pyx` 1296-1297). -/
def present : Option CS → Bool
  | none => false
  | some c => !c.isempty

/-- `points` (`numeric.py` 451-459). -/
def fragmentPoints (left right : Option CS) : List FP :=
  [ninf] ++ (match left with
    | some c => if present left then [c.lower, c.upper] else []
    | none => []) ++ (match right with
    | some c => if present right then [c.lower, c.upper] else []
    | none => []) ++ [pinf]

/-- The loop over the intervals (`numeric.py` 467-478), given the last function.  `args` is `valid_arguments`.
Simplification: an infinite bound, at which the functions are not evaluated, is an error here. -/
def fragmentLoop (val : ℤ → ℚ) (args : List CS) (f : Fn) : List CS → Except Err PF
  | [] => .ok []
  | i :: r => match i.lower with
    | fin a => match f.eval (val a) with
      | some y => do
        let g ← (if args.any (fun e => e.eq i) then
            match i.upper with
            | fin b => Fn.fromPoints (val a, y) (val b, y + 1 / args.length)
            | _ => .error .valueError
          else .ok (.const y))
        let rest ← fragmentLoop val args g r
        .ok ((i, g) :: rest)
      | none => .error .valueError
    | _ => .error .valueError

/-- The cdf of the fragments (`numeric.py` 451-482). -/
def fragments (val : ℤ → ℚ) (left right : Option CS) : Except Err PF := do
  let pts := fragmentPoints left right
  let is ← (pts.zip pts.tail).mapM (fun p => CS.mk? p.1 p.2 .inc .inc)
  match is with
  | [] => .error .indexError
  | i :: r => do
    let rest ← fragmentLoop val ([left, right].filterMap id) (.const 0) r
    .ok ((i, .const 0) :: rest)

/-- `insert_convex_fragments` (`numeric.py` 435-490): the new cdf. -/
def insertFragments (val : ℤ → ℚ) (rnd : ℚ → ℤ) (cdf : PF) (left right : Option CS) (n : ℕ) : Except Err PF := do
  let g ← fragments val left right
  if n = 0 then .error .zeroDivision
  else merge val rnd [cdf, g] (some [some (1 - 1 / (2 * n)), some (1 / (2 * n))])

/-! ## `postprocess_leaves` -/

/-- `intervals[-2].upper` (`trees.py` 2426, 2429). -/
def lastKnot (cdf : PF) : Except Err FP :=
  match cdf.reverse with
  | _ :: s :: _ => .ok s.1.upper
  | _ => .error .indexError

/-- `left` (`trees.py` 2415-2423). -/
def leftGap (path : CS) (k : FP) : Option CS :=
  if ninf < path.lower ∧ path.lower < k then some ⟨path.lower, k, .inc, .inc⟩ else none

/-- `right` (`trees.py` 2425-2431). -/
def rightGap (path : CS) (k : FP) : Option CS :=
  if pinf > path.upper ∧ path.upper > k then some ⟨k, path.upper, .inc, .inc⟩ else none

/-- The new cdf of a Dirac impulse (`trees.py` 2434-2445): the density `1 / interval.width` on the interval, 0
elsewhere.  `overwrite` is that of `functions.pyx` 1184-1227.  Simplification: bounds that are not finite, for which
the width is infinite, are an error here; there are none. -/
def spread (val : ℤ → ℚ) (pick : CS → ℤ) (a b : FP) : Except Err PF := do
  let i ← CS.mk? a b .inc .exc
  match i.lowermost, i.uppermost with
  | fin lo, fin hi =>
    if val hi - val lo = 0 then .error .zeroDivision
    else do
      let d ← PF.overwriteAt [(CS.allnumbers, .const 0)] i (.const (1 / (val hi - val lo)))
      pdfToCdf val pick (d.map (fun s => (s.1, match s.2 with
        | .const v => XQ.fin v
        | _ => .fin 0)))
  | _, _ => .error .valueError

/-- One round of the inner loop of `postprocess_leaves` (`trees.py` 2410-2448) for a numeric variable with the range
`path` in the leaf's path and the cdf `cdf`; `n` is the number of samples of the tree. -/
def closeGaps (val : ℤ → ℚ) (rnd : ℚ → ℤ) (pick : CS → ℤ) (path : CS) (n : ℕ) (cdf : PF) : Except Err PF :=
  match cdf with
  | [] => .error .indexError
  | s :: _ => do
    let z ← lastKnot cdf
    let left := leftGap path s.1.upper
    let right := rightGap path z
    match cdf with
    | [s, t] =>
      spread val pick (match left with
        | some c => c.lower
        | none => s.1.upper) (match right with
        | some c => c.upper
        | none => t.1.lower)
    | _ => insertFragments val rnd cdf left right n

end Verif.Num
