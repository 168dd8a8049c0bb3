import Verif.Functions.Model

/-!
# Model of `PiecewiseFunction.maximize` and `PiecewiseFunction.rectify`

`src/jpt/base/functions.pyx` 1774-1833.
-/

namespace Verif.Fun

open Iv Iv.FP

/-- `q * x` for an infinite `x`, positive iff `pos`. -/
def Fn.infTimes (q : ℚ) (pos : Bool) : Fn.Fl :=
  if q = 0 then none else some (if decide (0 < q) = pos then .pinf else .ninf)

/-- `eval` (`functions.pyx` 49-55, 323-324, 468-469, 775-776) at a float that may be infinite. -/
def Fn.evalAt (val : ℤ → ℚ) (f : Fn) (x : FP) : Fn.Fl :=
  match f, x with
  | .const v, _ => some (.fin v)
  | .undef, _ => none
  | f, fin n => (f.eval (val n)).map .fin
  | .lin m c, pinf => Fn.flAdd (infTimes m true) (some (.fin c))
  | .lin m c, ninf => Fn.flAdd (infTimes m false) (some (.fin c))
  | .quad a b c, pinf => Fn.flAdd (Fn.flAdd (infTimes a true) (infTimes b true)) (some (.fin c))
  | .quad a b c, ninf => Fn.flAdd (Fn.flAdd (infTimes a true) (infTimes b false)) (some (.fin c))

namespace PF

/-- `self.functions[idx]` and `self.intervals[idx]` for `idx = self.idx_at(b)` (`functions.pyx` 1812-1814, 1066-1078): if
no piece contains `b`, the index is -1, which is the last piece. -/
def pieceAt (p : PF) (b : FP) : Option (CS × Fn) :=
  match p.find? (fun s => hit b s.1) with
  | some s => some s
  | none => p.getLast?

/-- One round of the loop of `maximize` (`functions.pyx` 1812-1832): `f_argmax` and `f_max`, which is first NaN. -/
def maxStep (val : ℤ → ℚ) (p : PF) (s : NS × Fn.Fl) (b : FP) : Except Err (NS × Fn.Fl) :=
  match pieceAt p b with
  | none => .error .indexError
  | some (i, f) =>
    match f.evalAt val b with
    | none => .ok s
    | some y =>
      if s.2.any (fun m => !m.le y) then .ok s
      else do
        let a ← match f with
          | .lin _ _ => CS.mk? b b .inc .inc
          | .const _ => .ok i
          | _ => .error .typeError
        if s.2 = some y then do
          let u ← nsUnion s.1 (.cs a)
          .ok (u, some y)
        else .ok (.cs a, some y)

/-- `maximize` (`functions.pyx` 1800-1833). -/
def maximize (val : ℤ → ℚ) (p : PF) : Except Err (NS × Fn.Fl) := do
  let _ ← p.domain
  (p.map (fun s => s.1.lowermost) ++ p.map (fun s => s.1.uppermost)).foldlM (maxStep val p) (.cs .emptyset, none)

/-- One round of the loop of `rectify` (`functions.pyx` 1784-1797).  An interval with infinite bounds is accepted for a
`LinearFunction` of slope 0, whose value there is NaN; it is modelled as an undefined piece. -/
def rectifyPiece (val : ℤ → ℚ) (s : CS × Fn) : Except Err (CS × Fn) :=
  match s.2 with
  | .lin m c =>
    if m ≠ 0 ∧ (s.1.lower.isInf ∨ s.1.upper.isInf) then .error .valueError
    else match s.1.lowermost, s.1.uppermost with
      | fin a, fin b => .ok (s.1, .const (((m * val a + c) + (m * val b + c)) / 2))
      | _, _ => .ok (s.1, .undef)
  | .const v => .ok (s.1, .const v)
  | .undef => .ok (s.1, .undef)
  | .quad _ _ _ => .error .typeError

/-- `rectify` (`functions.pyx` 1774-1798). -/
def rectify (val : ℤ → ℚ) (p : PF) : Except Err PF := p.mapM (rectifyPiece val)

end PF

end Verif.Fun
