import Verif.Functions.Levels
import Mathlib.Analysis.Real.Sqrt

/-!
# Elementary functions

Crossings of lines, roots of parabolas, hinges and the text of lines (`functions.pyx` 201-304, 401-428, 468-568, 778-799).
-/

namespace Verif.Fun

namespace Fn

/-- `f.intersects(g)` (`functions.pyx` 401-413, 521-540, 798-799); `Undefined` has no such method. -/
def intersects : Fn → Fn → Except Err Bool
  | .const v, .const w => .ok (decide (w = v))
  | .const _, .lin m _ => .ok (decide (m ≠ 0))
  | .const _, _ => .error .typeError
  | .lin m _, .lin m' _ => .ok (decide (m ≠ m'))
  | .lin m _, .const _ => .ok (decide (m ≠ 0))
  | .lin _ _, _ => .error .typeError
  | .quad _ _ _, _ => .error .notImplemented
  | .undef, _ => .error .attributeError

/-- `f.intersection(g)` (`functions.pyx` 415-428, 542-568, 801-802); `Undefined` has no such method. -/
def intersection : Fn → Fn → Except Err Cross
  | .const v, .const w => .ok (if v = w then .all else .no)
  | .const v, .lin m c => .ok (if m = 0 then (if c = v then .all else .no) else .one ((c - v) / (-m)))
  | .const _, _ => .error .typeError
  | .lin m c, .lin m' c' => .ok (if m = m' then (if c = c' then .all else .no) else .one ((c - c') / (m' - m)))
  | .lin m c, .const v => .ok (if m = 0 then (if c = v then .all else .no) else .one ((c - v) / (-m)))
  | .lin _ _, _ => .error .typeError
  | .quad _ _ _, _ => .error .notImplemented
  | .undef, _ => .error .attributeError

/-- `QuadraticFunction.argvertex` (`functions.pyx` 853-854). `ConstantFunction` has no `root`. -/
def argvertex : Fn → Except Err ℚ
  | .quad a b c => do (← (Fn.quad a b c).differentiate).simplify.root
  | _ => .error .attributeError

/-- `LinearFunction.hmirror` (`functions.pyx` 512-517). -/
def hmirror : Fn → Except Err Fn
  | .lin m c => .ok (.lin (-m) (-c))
  | _ => .error .attributeError

end Fn

open Real in
/-- `QuadraticFunction.roots` (`functions.pyx` 778-790), with exact square roots.  A division by zero gives an infinity or `nan`
there and is reported as `zeroDivision` here. -/
noncomputable def roots (a b c : ℝ) : Except Err (List ℝ) :=
  let det := b * b - 4 * a * c
  if 0 < det then
    (if a = 0 then .error .zeroDivision else .ok [(-b - √det) / (2 * a), (-b + √det) / (2 * a)])
  else if det = 0 then
    (if a = 0 then .error .zeroDivision else .ok [-b / (2 * a)])
  else .ok []

/-- The parameters of `Hinge` and `Jump` (`functions.pyx` 206-208, 219-227, 253-257); `left` is `alpha = 1`. -/
structure Knot where
  knot : ℚ
  left : Bool
  weight : ℚ

/-- `Hinge.eval` (`functions.pyx` 229-230). -/
def Knot.hinge (k : Knot) (x : ℚ) : ℚ := max 0 (if k.left then k.knot - x else x - k.knot) * k.weight

/-- `Jump.eval` (`functions.pyx` 259-260). -/
def Knot.jump (k : Knot) (x : ℚ) : ℚ :=
  max 0 (if (if k.left then k.knot - x else x - k.knot) < 0 then -1 else 1) * k.weight

/-- `Hinge.differentiate` (`functions.pyx` 239-244): the parameters of the resulting `Jump`. -/
def Knot.differentiate (k : Knot) : Knot := ⟨k.knot, k.left, if k.left then -k.weight else k.weight⟩

/-- How Python writes and reads numbers: `str` and `float`. -/
structure NumFmt where
  write : ℚ → List Char
  read : List Char → Except Err ℚ

namespace NumFmt

variable (F : NumFmt)

/-- `s.replace(' ', '')`. -/
def squeeze (s : List Char) : List Char := s.filter (· ≠ ' ')

/-- `s.strip()`, for texts without other white space. -/
def strip (s : List Char) : List Char :=
  ((s.dropWhile (· = ' ')).reverse.dropWhile (· = ' ')).reverse

/-- `str(f)` (`functions.pyx` 164-165, 315-316, 471-475, 856-861); the text of parabolas cannot be read again and is left out. -/
def text : Fn → Except Err (List Char)
  | .undef => .ok "undef.".toList
  | .const v => .ok (F.write v ++ " = const.".toList)
  | .lin m c =>
    let l := if m ≠ 0 then F.write m ++ ['x'] else []
    let op := if (l = [] ∧ 0 < c) ∨ c = 0 then [] else if 0 < c then ['+'] else ['-']
    let cs := if c = 0 ∧ m = 0 then ['0'] else if c = 0 then [] else F.write |c|
    .ok (strip (l ++ [' '] ++ op ++ [' '] ++ cs))
  | .quad _ _ _ => .error .notImplemented

/-- `LinearFunction.parse` (`functions.pyx` 480-496) of a text; only the first two parts of `s.split('x')` are used. -/
def parse (s : List Char) : Except Err Fn :=
  if s = "undef.".toList then .ok .undef
  else
    match s.dropWhile (· ≠ 'x') with
    | [] => do return .const (← F.read (squeeze s))
    | _ :: r => do
      let a := squeeze (s.takeWhile (· ≠ 'x'))
      let b := r.takeWhile (· ≠ 'x')
      let m ← (if a = [] then .ok 1 else F.read a)
      let c ← (if b = [] then .ok 0 else F.read (squeeze b))
      return if m = 0 then .const c else .lin m c

end NumFmt

end Verif.Fun
