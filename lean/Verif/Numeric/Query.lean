import Verif.Numeric.Merge

/-!
# Model of the queries of a numeric distribution

`distributions/univariate/numeric.py` (`_p`, `_k_mpe`, `_moment`, `_crop`), the density of
`distributions/quantile/quantiles.pyx` (342-361) and its `sample` (558-592), and `PiecewiseFunction.gt`
(`base/functions.pyx` 1413-1437).

Labels and values coincide, as for an unscaled `Numeric`, except for moments; for the scaling see `Verif.Scaler`.
-/

namespace Verif.Num

open Iv Iv.FP Fun

/-- A density: the pieces of `pdf`, whose functions are constant (`inf` at a Dirac impulse). -/
abbrev Dens := List (CS × XQ)

/-- The derivative of one piece of a cdf (`functions.pyx` 326-327, 634-635, 1280-1287).  Simplification: the
pieces of a cdf are constant or linear; another one is an error here. -/
def slopeOf : Fn → Except Err ℚ
  | .const _ => .ok 0
  | .lin m _ => .ok m
  | _ => .error .attributeError

/-- The density of a Dirac impulse gets a piece of its own (`quantiles.pyx` 348-359). -/
def impulse : Dens → Dens
  | [(i, v), (j, w)] =>
    [(i, v), (⟨i.upper, i.upper.up, .inc, .exc⟩, .pinf), ({ j with lower := j.lower.up }, w)]
  | d => d

/-- `pdf` (`quantiles.pyx` 342-361). -/
def pdf (cdf : PF) : Except Err Dens := do
  let d ← cdf.mapM (fun s => (slopeOf s.2).map (fun v => (s.1, XQ.fin v)))
  .ok (impulse d)

/-- `gt(0)` (`functions.pyx` 1413-1437) of a function with constant pieces; the first argument is `current`,
by its lower bound. -/
def gtZero : Option FP → Dens → List CS
  | none, [] => []
  | some l, [] => [⟨l, pinf, .inc, .exc⟩]
  | none, (i, v) :: r => if v.le (.fin 0) then gtZero none r else gtZero (some i.lower) r
  | some l, (i, v) :: r =>
    if v.le (.fin 0) then ⟨l, i.lower, .inc, .exc⟩ :: gtZero none r else gtZero (some l) r

/-- `cdf.eval(x)` (`functions.pyx` 1029-1030, 1055-1078). -/
def cdfAt (val : ℤ → ℚ) (cdf : PF) (x : FP) : Except Err ℚ :=
  match PF.atPos cdf x with
  | some f => evalFP val f x
  | none => .error .attributeError

/-- The upper end of the probability mass (`numeric.py` 281). -/
def massTo (val : ℤ → ℚ) (cdf : PF) (x : FP) : Except Err ℚ :=
  if x = pinf then .ok 1 else cdfAt val cdf x

/-- The lower end of the probability mass (`numeric.py` 282). -/
def massFrom (val : ℤ → ℚ) (cdf : PF) (x : FP) : Except Err ℚ :=
  if x = ninf then .ok 0 else cdfAt val cdf x

/-- `_p` of a `ContinuousSet` (`numeric.py` 277-286). -/
def pInterval (val : ℤ → ℚ) (cdf : PF) (value : CS) : Except Err ℚ := do
  let space := gtZero none (← pdf cdf)
  if !RS.intersects space [value] then .ok 0
  else do
    let hi ← massTo val cdf value.upper
    let lo ← massFrom val cdf value.lower
    if hi - lo = 0 then .ok (if space.all (fun i => value.containsInterval i) then 1 else 0)
    else .ok (hi - lo)

/-- The argument of `_p` and `_crop`: a number, a `ContinuousSet` or a `RealSet`. -/
inductive Arg
  | number (n : ℤ)
  | interval (i : CS)
  | set (l : List CS)

/-- `_p` (`numeric.py` 267-286).  Other types are refused. -/
def prob (val : ℤ → ℚ) (cdf : PF) : Arg → Except Err ℚ
  | .number n => pInterval val cdf ⟨fin n, fin n, .inc, .inc⟩
  | .interval i => pInterval val cdf i
  | .set l => do
    let ps ← l.mapM (pInterval val cdf)
    .ok ps.sum

/-! ## Moments -/

/-- `is_dirac_impulse` (`numeric.py` 186-188). -/
def isDirac (cdf : PF) : Bool := cdf.length == 2

/-- The summand of `_moment` for one piece of the density (`numeric.py` 564-575).  `lab` is `value2label` and
`prev x` is the float before `x`, with which the width of an interval without its upper bound is formed
(`intervals.pyx` 1109-1134).  Simplification: an infinite density or bound, which gives an infinity or NaN, is an
error here; so is an interval that does not exclude only its upper bound, as all inner intervals do. -/
def momentPiece (val : ℤ → ℚ) (lab prev : ℚ → ℚ) (order : ℕ) (center : ℚ) (s : CS × XQ) : Except Err ℚ :=
  match s with
  | (⟨fin a, fin b, .inc, .exc⟩, v) =>
    let w := val (b - 1) - val a
    let w' := prev (lab (val b)) - lab (val a)
    if w' = 0 then .ok 0
    else match v with
      | .fin v =>
        .ok (((lab (val b) - center) ^ (order + 1) - (lab (val a) - center) ^ (order + 1)) * (v * w / w') / (order + 1))
      | _ => .error .valueError
  | _ => .error .valueError

/-- The least float of `pdf.gt(0)` (`numeric.py` 560; `intervals.pyx` 371-386, 1094-1107). -/
def impulseAt (val : ℤ → ℚ) (d : Dens) : Except Err ℚ :=
  match gtZero none d with
  | [s] => match s.lower with
    | fin a => .ok (val a)
    | _ => .error .valueError
  | _ => .error .valueError

/-- `moment` (`numeric.py` 525-576). -/
def moment (val : ℤ → ℚ) (lab prev : ℚ → ℚ) (cdf : PF) (order : ℕ) (center : ℚ) : Except Err ℚ := do
  let d ← pdf cdf
  if isDirac cdf ∧ order = 1 then impulseAt val d
  else if isDirac cdf ∧ order ≥ 2 then .ok 0
  else do
    let l ← (d.drop 1).dropLast.mapM (momentPiece val lab prev order center)
    .ok l.sum

/-- `expectation` (`numeric.py` 167-168). -/
def expectation (val : ℤ → ℚ) (lab prev : ℚ → ℚ) (cdf : PF) : Except Err ℚ := moment val lab prev cdf 1 0

/-- `variance` (`numeric.py` 170-171). -/
def variance (val : ℤ → ℚ) (lab prev : ℚ → ℚ) (cdf : PF) : Except Err ℚ := do
  moment val lab prev cdf 2 (← expectation val lab prev cdf)

/-! ## Most probable explanations -/

/-- `likelihoods` (`numeric.py` 209). -/
def likelihoods (d : Dens) : List XQ := (d.map Prod.snd).filter (fun v => v != .fin 0)

/-- `_k_mpe` (`numeric.py` 202-228). -/
def kMpe (d : Dens) (k : Option ℕ) : Except Err (List (NS × XQ)) :=
  let l := (likelihoods d).insertionSort (fun a b => b.le a = true)
  (l.take (k.getD (likelihoods d).length)).mapM (fun v => do
    let s ← RS.simplify ((d.filter (fun s => s.2 == v)).map Prod.fst)
    .ok (s, v))

/-- `mpe` (`numeric.py` 190-200): `first` gives `None` for no explanation, which cannot be unpacked. -/
def mpe (d : Dens) : Except Err (NS × XQ) := do
  match ← kMpe d (some 1) with
  | [] => .error .typeError
  | s :: _ => .ok s

/-! ## Sampling -/

/-- `interval_probabilities` (`quantiles.pyx` 568-571). -/
def pieceProbs (val : ℤ → ℚ) (cdf : PF) : Except Err (List ℚ) :=
  (cdf.drop 1).dropLast.mapM (fun s => do
    let b ← evalFP val s.2 s.1.upper
    let a ← evalFP val s.2 s.1.lower
    .ok (b - a))

/-- The check of `numpy.random.choice`: probabilities are not negative and their sum is 1 up to
`sqrt(eps) = 2^-26`; there must be something to choose from. -/
def choiceCheck (ps : List ℚ) : Except Err Unit :=
  if ps = [] ∨ (∃ p ∈ ps, p < 0) ∨ |ps.sum - 1| > 1 / 2 ^ 26 then .error .valueError else .ok ()

/-- A sample from the `i`-th inner piece (`quantiles.pyx` 580-590, `intervals.pyx` 732-759): `u`, from 0 to 1, is
the random number behind `numpy.random.uniform`. -/
def drawFrom (val : ℤ → ℚ) (cdf : PF) (i : ℕ) (u : ℚ) : Except Err ℚ :=
  match (cdf.drop 1).dropLast[i]? with
  | none => .error .indexError
  | some s =>
    match s.1.lowermost, s.1.uppermost with
    | fin a, fin b => .ok (val a + u * (val b - val a))
    | _, _ => .error .valueError

/-- `sample` (`quantiles.pyx` 558-592); `draws` are the pieces that are chosen and the random numbers. -/
def sample' (val : ℤ → ℚ) (cdf : PF) (draws : List (ℕ × ℚ)) : Except Err (List ℚ) :=
  match cdf with
  | [s, _] => match s.1.upper with
    | fin n => .ok (draws.map (fun _ => val n))
    | _ => .error .valueError
  | _ => do
    let ps ← pieceProbs val cdf
    choiceCheck ps
    if (cdf.drop 1).dropLast.any (fun s => s.1.isempty) then .error .indexError
    else draws.mapM (fun d => drawFrom val cdf d.1 d.2)

/-! ## Conditioning -/

/-- `_crop` of a `ContinuousSet` (`numeric.py` 388-394) and of a number (396-397): the new cdf, and the cdf of the
object itself afterwards, which `create_dirac_impulse` overwrites. -/
def cropInterval' (val : ℤ → ℚ) (cdf : PF) (i : CS) : Except Err (PF × PF) :=
  if i.size = some 1 then
    match i.lower with
    | fin n => .ok (jumpCdf n, jumpCdf n)
    | _ => .error .valueError
  else do .ok (← crop val cdf i, cdf)

/-- The loop over the intervals of a `RealSet` (`numeric.py` 375-381): the crops, and the object itself
afterwards. -/
def cropAll (val : ℤ → ℚ) : PF → List CS → Except Err (List PF × PF)
  | self, [] => .ok ([], self)
  | self, i :: r => do
    let (c, self) ← cropInterval' val self i
    let (cs, self) ← cropAll val self r
    .ok (c :: cs, self)

/-- `_crop` (`numeric.py` 362-403): the result, and the object itself afterwards. -/
def cropTo (val : ℤ → ℚ) (rnd : ℚ → ℤ) (cdf : PF) : Arg → Except Err (PF × PF)
  | .number n => .ok (jumpCdf n, jumpCdf n)
  | .interval i => cropInterval' val cdf i
  | .set l => do
    let (cs, self) ← cropAll val cdf l
    if l = [] then .error .zeroDivision
    else do
      let m ← merge val rnd cs (some (List.replicate cs.length (some (1 / (cs.length : ℚ)))))
      .ok (m, self)

end Verif.Num
