import Verif.Functions.Approx
import Verif.Functions.Props

/-!
# Specification of the approximation of piecewise functions
-/

namespace Verif.Fun

open Iv Iv.FP

namespace PF

/-- The pieces between the given knots; `B a b f` says what `f` between `a` and `b` has to be. -/
inductive Blocks (B : ℤ → ℤ → Fn → Prop) : List ℤ → PF → Prop
  | one (a : ℤ) : Blocks B [a] []
  | cons {a b : ℤ} {ks : List ℤ} {f : Fn} {bs : PF} : B a b f → Blocks B (b :: ks) bs →
      Blocks B (a :: b :: ks) ((co a b, f) :: bs)

/-- `(-inf, a)`. -/
def firstI (a : ℤ) : CS := ⟨ninf, fin a, .exc, .exc⟩

/-- `[a, inf)`. -/
def lastI (a : ℤ) : CS := ⟨fin a, pinf, .inc, .exc⟩

/-- The function is `f0` before the first and `fl` behind the last knot, and between two neighbouring knots `a` and `b` it
is a single function `f` with `B a b f`. -/
def Framed (B : ℤ → ℤ → Fn → Prop) (f0 fl : Fn) (ks : List ℤ) (p : PF) : Prop :=
  ∃ a z bs, ks.head? = some a ∧ ks.getLast? = some z ∧ Blocks B ks bs ∧
    p = (firstI a, f0) :: bs ++ [(lastI z, fl)]

/-! ### Constants -/

/-- The value of a constant piece on `[a, b)`. -/
def constOn (a b : ℤ) (s : CS × Fn) : Option ℚ :=
  match s.2 with
  | .const v => if s.1 = co a b then some v else none
  | _ => none

/-- The value of the constant piece on `[a, b)`, if there is one. -/
def pieceValue (p : PF) (a b : ℤ) : Option ℚ := p.findSome? (constOn a b)

/-- The value of a constant piece within `[a, b)` times the distance of its least and its greatest float. -/
def weight (val : ℤ → ℚ) (a b : ℤ) (s : CS × Fn) : ℚ :=
  match s.1.lower, s.1.upper, s.2 with
  | fin x, fin y, .const v => if a ≤ x ∧ y ≤ b then v * (val (y - 1) - val x) else 0
  | _, _, _ => 0

/-- The sum of the weights of the pieces within `[a, b)`. -/
def runSum (val : ℤ → ℚ) (p : PF) (a b : ℤ) : ℚ := (p.map (weight val a b)).sum

/-- The value on `[a, b)` of an approximation by constants: that of the piece itself, or the sum of the values within the
interval, weighted with the widths. -/
def meanOf (val : ℤ → ℚ) (p : PF) (a b : ℤ) : ℚ :=
  match pieceValue p a b with
  | some v => v
  | none => runSum val p a b / (val (b - 1) - val a)

/-- No two runs of pieces that do not overlap have the same mean, and none has the mean `v0`. -/
def Generic (val : ℤ → ℚ) (p : PF) (v0 : ℚ) (K : List ℤ) : Prop :=
  ∀ a ∈ K, ∀ b ∈ K, a < b → v0 ≠ meanOf val p a b ∧
    ∀ c ∈ K, ∀ d ∈ K, b ≤ c → c < d → meanOf val p a b ≠ meanOf val p c d

instance (val : ℤ → ℚ) (p : PF) (v0 : ℚ) (K : List ℤ) : Decidable (Generic val p v0 K) := by
  unfold Generic; infer_instance

/-! ### Lines -/

/-- A constant or a line through `(val a, Y a)` and `(val b, Y b)`. -/
def Chord (val Y : ℤ → ℚ) (a b : ℤ) (f : Fn) : Prop :=
  ((∃ v, f = .const v) ∨ ∃ m c, f = .lin m c) ∧ f.eval (val a) = some (Y a) ∧ f.eval (val b) = some (Y b)

/-- The points of the knots `a`, `b` and `c` are on a line. -/
def Collinear (val Y : ℤ → ℚ) (a b c : ℤ) : Prop := (Y b - Y a) * (val c - val a) = (Y c - Y a) * (val b - val a)

/-- No two chords that do not overlap are on the same line, and none is on the constant `v0`. -/
def GenericLines (val Y : ℤ → ℚ) (v0 : ℚ) (K : List ℤ) : Prop :=
  ∀ a ∈ K, ∀ b ∈ K, a < b → ¬ (Y a = v0 ∧ Y b = v0) ∧
    ∀ c ∈ K, ∀ d ∈ K, b ≤ c → c < d → ¬ (Collinear val Y a b c ∧ Collinear val Y a b d)

instance (val Y : ℤ → ℚ) (v0 : ℚ) (K : List ℤ) : Decidable (GenericLines val Y v0 K) := by
  unfold GenericLines Collinear; infer_instance

end PF

end Verif.Fun
