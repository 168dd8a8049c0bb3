import Verif.Functions.Elementary

/-!
# What is said about elementary functions
-/

namespace Verif.Fun

/-- A line or a constant. -/
def Fn.Straight (f : Fn) : Prop := (∃ m c, f = .lin m c) ∨ ∃ v, f = .const v

/-- What an intersection stands for. -/
def Cross.Mem (x : ℚ) : Cross → Prop
  | .all => True
  | .no => False
  | .one z => x = z

/-- What the text of numbers is like: no blanks and no `x`, positive numbers can be read with and without sign, and what contains `=`
is not a number. -/
structure NumFmt.Ok (F : NumFmt) : Prop where
  plain : ∀ q, ∀ ch ∈ F.write q, ch ≠ ' ' ∧ ch ≠ 'x'
  start : ∀ q, ∃ ch r, F.write q = ch :: r ∧ ch ≠ 'u'
  back : ∀ q, F.read (F.write q) = .ok q
  plus : ∀ q, 0 < q → F.read ('+' :: F.write q) = .ok q
  minus : ∀ q, 0 < q → F.read ('-' :: F.write q) = .ok (-q)
  zero : F.read ['0'] = .ok 0
  junk : ∀ s, '=' ∈ s → F.read s = .error .valueError

end Verif.Fun
