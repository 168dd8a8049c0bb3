import Verif.Common
import Mathlib.Data.Rat.Defs
import Mathlib.Algebra.Order.Field.Rat

/-!
# Model of `distributions/quantile/cdfreg.pyx`

The data is a sequence of points `(x i, y i)`, `i < n`, with exact rational coordinates.  Indices are
natural numbers; the local variable `pos` of `_backward`, which may drop to -1, occurs only as the
upper end of a range.  Divisions (`cdivision=True`) are exact; for abscissae that are not distinct a
denominator may be zero, which gives an infinity or NaN in the code and 0 here, so theorems are about
strictly increasing abscissae only.
-/

namespace Verif.Num

/-- `data`: a `2 × n` array. -/
structure Pts where
  n : ℕ
  x : ℕ → ℚ
  y : ℕ → ℚ

namespace Reg

/-- The state of the loop over `split` in `_forward` (`cdfreg.pyx` 76-134). -/
structure Scan where
  sxyL : ℚ
  syyL : ℚ
  sxxL : ℚ
  sxyR : ℚ
  syyR : ℚ
  sxxR : ℚ
  mseMin : ℚ
  best : Option ℕ
  mse1 : ℚ
  mse2 : ℚ

/-- One round of the loop over `split` (`cdfreg.pyx` 103-139). -/
def scanStep (d : Pts) (start stop : ℕ) (s : Scan) (split : ℕ) : Scan :=
  let xl := d.x split - d.x start
  let yl := d.y split - d.y start
  let xr := d.x split - d.x stop
  let yr := d.y split - d.y stop
  let xStart := d.x start - d.x start
  let yStart := d.y start - d.y start
  let xEnd := d.x stop - d.x stop
  let yEnd := d.y stop - d.y stop
  let m1 := (yl - yStart) / (xl - xStart)
  let m2 := (yEnd - yr) / (xEnd - xr)
  let nL : ℚ := (split : ℚ) - start
  let nR : ℚ := (stop : ℚ) - split
  let n : ℚ := (stop : ℚ) - start
  let syyL := s.syyL + yl * yl
  let sxxL := s.sxxL + xl * xl
  let sxyL := s.sxyL + xl * yl
  let errL := (syyL - 2 * sxyL * m1 + sxxL * m1 * m1) / nL
  let syyR := s.syyR - yr * yr
  let sxxR := s.sxxR - xr * xr
  let sxyR := s.sxyR - xr * yr
  let errR := (syyR - 2 * sxyR * m2 + sxxR * m2 * m2) / nR
  let mse := nL / n * errL + nR / n * errR
  let s' : Scan := { s with
    sxyL := sxyL, syyL := syyL, sxxL := sxxL, sxyR := sxyR, syyR := syyR, sxxR := sxxR }
  if s.mseMin < 0 ∨ mse < s.mseMin then
    { s' with best := some split, mseMin := mse, mse1 := errL, mse2 := errR }
  else s'

/-- The sums over the inner points relative to the last point, before the loop over `split`
(`cdfreg.pyx` 86-91). -/
def scanInit (d : Pts) (start stop : ℕ) (mse : ℚ) : Scan :=
  (List.range' (start + 1) (stop - (start + 1))).foldl (fun s i =>
    let x := d.x i - d.x stop
    let y := d.y i - d.y stop
    { s with sxxR := s.sxxR + x * x, syyR := s.syyR + y * y, sxyR := s.sxyR + x * y })
    { sxyL := 0, syyL := 0, sxxL := 0, sxyR := 0, syyR := 0, sxxR := 0,
      mseMin := mse, best := none, mse1 := 0, mse2 := 0 }

/-- The loop over `split` (`cdfreg.pyx` 102-139). -/
def scan (d : Pts) (start stop : ℕ) (mse : ℚ) : Scan :=
  (List.range' (start + 1) (stop - (start + 1))).foldl (scanStep d start stop)
    (scanInit d start stop mse)

/-- An entry of `_queue`: `start`, `end`, `mse`, `depth`. -/
structure Job where
  start : ℕ
  stop : ℕ
  mse : ℚ
  depth : ℕ

/-- `_forward` (`cdfreg.pyx` 63-150): the split that is pushed onto `_points`, if there is one, and the
new entries of `_queue`.  `maxSplits = none` is -1 (or any other number below 1). -/
def forward (d : Pts) (eps : ℚ) (maxSplits : Option ℕ) (j : Job) : Option ℕ × List Job :=
  if j.stop - j.start < 2 ∨ (∃ m ∈ maxSplits, 0 < m ∧ m ≤ j.depth) then (none, [])
  else
    let s := scan d j.start j.stop j.mse
    match s.best with
    | none => (none, [])
    | some b =>
      (some b,
        (if s.mse1 ≥ eps then [⟨j.start, b, s.mse1, j.depth + 1⟩] else []) ++
        (if s.mse2 ≥ eps then [⟨b, j.stop, s.mse2, j.depth + 1⟩] else []))

/-- `_points.push`: the priority queue as a list in descending order. -/
def push (p : ℕ) : List ℕ → List ℕ
  | [] => [p]
  | q :: r => if p ≥ q then p :: q :: r else q :: push p r

/-- The loop over `_queue` (`cdfreg.pyx` 46-54) with `fuel`; `none` if the fuel runs out. -/
def loop (d : Pts) (eps : ℚ) (maxSplits : Option ℕ) :
    ℕ → List Job → List ℕ → Option (List ℕ)
  | _, [], heap => some heap
  | 0, _ :: _, _ => none
  | fuel + 1, j :: queue, heap =>
    let (split, jobs) := forward d eps maxSplits j
    loop d eps maxSplits fuel (queue ++ jobs)
      (match split with | some b => push b heap | none => heap)

/-- The inner loop of `_backward` (`cdfreg.pyx` 175-178): the sum over `pos, pos-1, …, top`. -/
def sqErr (d : Pts) (m c : ℚ) (top pos : ℕ) : ℚ :=
  ((List.range' top (pos + 1 - top)).map (fun i => (m * d.x i + c - d.y i) ^ 2)).sum

/-- The loop of `_backward` (`cdfreg.pyx` 161-184) and the final push (185-186): `heap` is `_points`
(descending), `front :: pts` is `points`. -/
def backLoop (d : Pts) (eps : ℚ) : List ℕ → ℕ → ℕ → List ℕ → List ℕ
  | p :: top :: heap, pos, front, pts =>
    let m := (d.y front - d.y top) / (d.x front - d.x top)
    let c := d.y top - m * d.x top
    let err := sqErr d m c top pos
    if err / ((pos : ℚ) - top + 1) ≥ eps then backLoop d eps (top :: heap) p p (front :: pts)
    else backLoop d eps (top :: heap) pos front pts
  | [p], _, front, pts => p :: front :: pts
  | [], _, front, pts => front :: pts

/-- `_backward` (`cdfreg.pyx` 152-186).  With fewer than two points the code reads the top of an empty
priority queue; that is `none`. -/
def backward (d : Pts) (eps : ℚ) : List ℕ → Option (List ℕ)
  | last :: p :: heap => some (backLoop d eps (p :: heap) p last [])
  | _ => none

/-- `CDFRegressor(eps, max_splits).fit` (`cdfreg.pyx` 19-22, 28-55) and `points`: the indices of the
support points.  The parameter `eps` of the constructor is squared (20). -/
def fit (d : Pts) (eps : ℚ) (maxSplits : Option ℕ) : Option (List ℕ) := do
  let heap ← if d.n > 1 then
      loop d (eps * eps) maxSplits (2 * d.n) [⟨0, d.n - 1, -1, 0⟩] (push (d.n - 1) (push 0 []))
    else some [0]
  backward d (eps * eps) heap

end Reg

end Verif.Num
