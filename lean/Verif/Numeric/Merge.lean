import Verif.Numeric.Quantile

/-!
# Model of `QuantileDistribution.merge` (`distributions/quantile/quantiles.pyx` 444-556) and of
`PiecewiseFunction.ensure_right` (`base/functions.pyx` 1321-1337)
-/

namespace Verif.Num

open Iv Iv.FP Fun

/-- An entry of the lists `lower` and `upper`: the bound, the function (`none` is a `Jump`) and the
weight. -/
structure Entry where
  pos : FP
  f : Option Fn
  w : ℚ
deriving DecidableEq

/-- `1e-8`. -/
def tol : ℚ := 1 / 100000000

/-- `first(l, first, np.PINF)`: the bound of the first entry. -/
def firstPos : List Entry → FP
  | [] => pinf
  | e :: _ => e.pos

/-- The inner loop over `lower` (`quantiles.pyx` 507-516); `fu` is the first bound in `upper`.  The
remaining entries, `pivot`, `m_` and `offset`. -/
def takeLower (fu : FP) : List Entry → Option FP → ℚ → ℚ → List Entry × Option FP × ℚ × ℚ
  | [], p, m, o => ([], p, m, o)
  | e :: r, p, m, o =>
    if (p = none ∧ e.pos ≤ fu) ∨ p = some e.pos then
      if e.pos = ninf then takeLower fu r p m o
      else match e.f with
        | none => takeLower fu r (some e.pos) m (o + e.w)
        | some (.const _) => takeLower fu r p m o
        | some (.lin a _) =>
          if a = 0 then takeLower fu r p m o else takeLower fu r (some e.pos) (m + a * e.w) o
        | some _ => takeLower fu r (some e.pos) m o
    else (e :: r, p, m, o)

/-- The inner loop over `upper` (`quantiles.pyx` 519-525); `fl` is the first bound in `lower`.  The
remaining entries, `pivot` and `m_`. -/
def takeUpper (fl : FP) : List Entry → Option FP → ℚ → Except Err (List Entry × Option FP × ℚ)
  | [], p, m => .ok ([], p, m)
  | e :: r, p, m =>
    if (p = none ∧ e.pos ≤ fl) ∨ p = some e.pos then
      if e.pos = pinf then takeUpper fl r p m
      else match e.f with
        | none => takeUpper fl r p m
        | some (.const _) => takeUpper fl r p m
        | some (.lin a _) =>
          if a = 0 then takeUpper fl r p m else takeUpper fl r (some e.pos) (m - a * e.w)
        | some _ => .error .attributeError
    else .ok (e :: r, p, m)

/-- `f.m` and `f.c` of a constant or linear function (`functions.pyx` 392-398, 452-454); the functions in
the list `functions` are of no other kind. -/
def coeffs : Fn → ℚ × ℚ
  | .const v => (0, v)
  | .lin m c => (m, c)
  | _ => (0, 0)

/-- The new function (`quantiles.pyx` 539). -/
def newFn (m c : ℚ) : Fn := if |m| > tol then .lin m c else .const c

/-- The interval list after the pivot `k` and, if the function changes, the new piece (`quantiles.pyx`
534-539). -/
def extend (acc : PF) (k : ℤ) (m c : ℚ) : Except Err PF := do
  let f ← lastFn acc
  if (c ≠ 0 ∨ m ≠ 0) ∧ (m ≠ (coeffs f).1 ∨ c ≠ (coeffs f).2) then
    .ok (setUpper (fin k) acc ++ [(⟨fin k, pinf, .inc, .exc⟩, newFn m c)])
  else .ok (setUpper (fin k) acc)

/-- The loop over `lower` and `upper` (`quantiles.pyx` 500-539) with `fuel`, which suffices if it is the
number of entries, since every round removes one.  Simplification: an infinite pivot, which occurs only
for a function whose piece is a single infinity, is an error. -/
def sweep (val : ℤ → ℚ) : ℕ → List Entry → List Entry → ℚ → ℚ → PF → Except Err PF
  | _, [], [], _, _, acc => .ok acc
  | 0, _, _, _, _, _ => .error .outOfFuel
  | fuel + 1, lo, up, m, c, acc => do
    let (lo', p, m1, off) := takeLower (firstPos up) lo none m 0
    let (up', p, m1) ← takeUpper (firstPos lo') up p m1
    match p with
    | none => sweep val fuel lo' up' m c acc
    | some (fin k) =>
      let y := m * val k + c
      let m' := if |m1| > tol then m1 else 0
      let c' := y - m' * val k + off
      let acc ← extend acc k m' c'
      sweep val fuel lo' up' m' c' acc
    | some _ => .error .valueError

/-- The removal of nearly constant functions at the end (`quantiles.pyx` 543-545), on the reversed list. -/
def dropTiny : PF → PF
  | s :: t :: r =>
    if |(coeffs s.2).1| ≤ tol ∧ (coeffs s.2).1 ≠ 0 then dropTiny (t :: r) else s :: t :: r
  | l => l

/-- The pieces after appending `f` from `x` on (`functions.pyx` 1326-1329, 1331-1337); `del` tells whether
an empty piece before it is removed. -/
def appendAt (p : PF) (f : Fn) (x : FP) (del : Bool) : Except Err PF :=
  match p.getLast? with
  | none => .error .indexError
  | some (i, g) =>
    let i' : CS := { i with upper := x, left := .inc }
    .ok (p.dropLast ++ (if del && i'.isempty then [] else [(i', g)]) ++ [(⟨x, pinf, .inc, .exc⟩, f)])

/-- `ensure_right(ConstantFunction(v), x)` (`functions.pyx` 1321-1337, with `intersection` 415-428,
542-570); `rnd` is the float for a crossing point. -/
def ensureRight (rnd : ℚ → ℤ) (p : PF) (v : ℚ) (x : FP) : Except Err PF :=
  match p.getLast? with
  | none => .error .indexError
  | some (i, f) => match f with
    | .const c => if c = v then .ok p else appendAt p (.const v) x true
    | .lin m c =>
      if m = 0 then
        if c = v then .ok p else appendAt p (.const v) x true
      else
        let q := fin (rnd ((c - v) / -m))
        if q > i.lower ∧ q ≤ x then appendAt p (.const v) q false else appendAt p (.const v) x true
    | _ => .error .typeError

/-- `jumps[k].weight += w` (`quantiles.pyx` 469-470). -/
def addJump (k : FP) (w : ℚ) : List (FP × ℚ) → List (FP × ℚ)
  | [] => [(k, w)]
  | (k', w') :: r => if k' = k then (k', w' + w) :: r else (k', w') :: addJump k w r

/-- `jumps` (`quantiles.pyx` 467-470). -/
def jumpsOf (dw : List (PF × ℚ)) : List (FP × ℚ) :=
  dw.foldl (fun js d => match d.1 with
    | [s, _] => addJump s.1.upper d.2 js
    | _ => js) []

/-- The pieces of the cdfs that are not constant, with their weights (`quantiles.pyx` 476-479, 487-490). -/
def slopes (dw : List (PF × ℚ)) : List (CS × Fn × ℚ) :=
  dw.flatMap (fun d => d.1.filterMap (fun s => match s.2 with
    | .const _ => none
    | f => if d.2 > 0 then some (s.1, f, d.2) else none))

/-- `sorted(…, key=itemgetter(0))`. -/
def sortEntries (l : List Entry) : List Entry := l.insertionSort (fun a b => a.pos ≤ b.pos)

/-- `lower` (`quantiles.pyx` 474-484). -/
def lowerOf (dw : List (PF × ℚ)) : List Entry :=
  sortEntries ((slopes dw).map (fun s => ⟨s.1.lower, some s.2.1, s.2.2⟩) ++
    ((jumpsOf dw).filter (fun j => j.2 > 0)).map (fun j => ⟨j.1, none, j.2⟩))

/-- `upper` (`quantiles.pyx` 485-493). -/
def upperOf (dw : List (PF × ℚ)) : List Entry :=
  sortEntries ((slopes dw).map (fun s => ⟨s.1.upper, some s.2.1, s.2.2⟩))

/-- The body of `merge` for weights that were checked (`quantiles.pyx` 467-551). -/
def mergeWeighted (val : ℤ → ℚ) (rnd : ℚ → ℤ) (dw : List (PF × ℚ)) : Except Err PF := do
  let lo := lowerOf dw
  let up := upperOf dw
  let p ← sweep val (lo.length + up.length) lo up 0 0 [(CS.allnumbers, .const 0)]
  let p := (dropTiny p.reverse).reverse
  match p.getLast? with
  | none => .error .indexError
  | some s => ensureRight rnd p 1 s.1.lower

/-- The weights, equal ones by default (`quantiles.pyx` 450-451). -/
def weightsOf (ds : List PF) : Option (List (Option ℚ)) → Except Err (List (Option ℚ))
  | some ws => .ok ws
  | none =>
    if ds = [] then .error .zeroDivision
    else .ok (List.replicate ds.length (some (1 / (ds.length : ℚ))))

/-- `merge` (`quantiles.pyx` 444-556): the cdf.  The weight `none` is NaN; surplus weights or distributions
are ignored by `zip`. -/
def merge (val : ℤ → ℚ) (rnd : ℚ → ℤ) (ds : List PF) (weights : Option (List (Option ℚ))) : Except Err PF := do
  let ws ← weightsOf ds weights
  match ws.mapM id with
  | none => .error .valueError
  | some ws =>
    if |ws.sum - 1| > tol then .error .valueError
    else mergeWeighted val rnd (ds.zip ws)

end Verif.Num
