import Verif.Common
import Mathlib.Data.Int.Basic

/-! # Python list indexing -/

namespace Verif

/-- The position meant by the Python index `i` in a sequence of length `n`; `none`: `IndexError`. -/
def pyIdx (n : ℕ) (i : ℤ) : Option ℕ :=
  if i < 0 then (if 0 ≤ i + n then some (i + n).toNat else none)
  else if i < n then some i.toNat else none

/-- `l[i]`. -/
def pyGet {β : Type} (l : List β) (i : ℤ) : Except Err β :=
  match pyIdx l.length i with
  | none => .error .indexError
  | some j =>
    match l[j]? with
    | none => .error .indexError
    | some x => .ok x

theorem pyIdx_nonneg {n : ℕ} {i : ℤ} (h0 : 0 ≤ i) (h1 : i < n) : pyIdx n i = some i.toNat := by
  unfold pyIdx
  rw [if_neg (by omega), if_pos h1]

theorem pyIdx_natCast {n i : ℕ} (h : i < n) : pyIdx n (i : ℤ) = some i := by
  rw [pyIdx_nonneg (by omega) (by omega)]
  simp

theorem pyGet_natCast {β : Type} (l : List β) (i : ℕ) (h : i < l.length) :
    pyGet l (i : ℤ) = .ok l[i] := by
  unfold pyGet
  rw [pyIdx_natCast h]
  simp [h]

end Verif
