import Verif.Numeric.Tiles
import Mathlib.Tactic.Linarith
import Mathlib.Tactic.FieldSimp
import Mathlib.Tactic.Ring

/-! # Cropping a cdf: the piecewise function underneath -/

namespace Verif.Num

open Iv Iv.FP Fun

/-- The value of a function, for functions that are defined everywhere. -/
def ev (f : Fn) (x : ℚ) : ℚ := (f.eval x).getD 0

/-- Constant, or linear and increasing. -/
def IsPl : Fn → Prop
  | .const _ => True
  | .lin m _ => 0 < m
  | _ => False

/-- Linear. -/
def IsLin : Fn → Prop
  | .lin _ _ => True
  | _ => False

theorem IsPl.eval {f : Fn} (h : IsPl f) (x : ℚ) : f.eval x = some (ev f x) := by
  cases f <;> simp_all [IsPl, ev, Fn.eval]

theorem IsPl.evalFP {f : Fn} (h : IsPl f) (val : ℤ → ℚ) (n : ℤ) :
    evalFP val f (fin n) = .ok (ev f (val n)) := by
  simp [Num.evalFP, h.eval]

theorem IsPl.mono {f : Fn} (h : IsPl f) {x y : ℚ} (hxy : x ≤ y) : ev f x ≤ ev f y := by
  cases f with
  | const v => simp [ev, Fn.eval]
  | lin m c => simp only [IsPl] at h; simp only [ev, Fn.eval, Option.getD_some]; nlinarith
  | undef => cases h
  | quad a b c => cases h

theorem IsPl.eq {f g : Fn} (hf : IsPl f) (hg : IsPl g) : f.eq g = .ok (decide (f = g)) := by
  cases f <;> cases g <;> simp_all [IsPl, Fn.eq] <;> intro h <;> linarith

/-- A tiling whose first piece has a lower bound marked as included. -/
def tileI (lo : FP) (f : Fn) : List (ℤ × Fn) → FP → PF
  | [], u => [(⟨lo, u, .inc, .exc⟩, f)]
  | (k, g) :: r, u => (⟨lo, fin k, .inc, .exc⟩, f) :: tile (fin k) g r u

theorem tileI_fin (n : ℤ) (f : Fn) (l : List (ℤ × Fn)) (u : FP) :
    tileI (fin n) f l u = tile (fin n) f l u := by
  cases l <;> rfl

theorem tile_cons (lo : FP) (f : Fn) (l : List (ℤ × Fn)) (u : FP) :
    ∃ i r, tile lo f l u = (i, f) :: r ∧ i.lower = lo := by
  cases l with
  | nil => exact ⟨_, _, rfl, rfl⟩
  | cons s l => obtain ⟨k, g⟩ := s; exact ⟨_, _, rfl, rfl⟩

/-! ## Cropping -/

/-- The upper bound of the pieces that remain of an interval ending with `b`. -/
def endOf : FP → FP
  | fin b => fin (b + 1)
  | b => b

/-- The float `b`, or infinity, bounds the knot `k`. -/
def leB (k : ℤ) (b : FP) : Bool := decide (fin k ≤ b)

theorem crop_cons {s : CS × Fn} {r : PF} {I : CS} : PF.crop (s :: r) I =
    if s.1.intersects I then do
      let i ← s.1.intersectionEnds I (some .inc) (some .exc)
      let t ← PF.crop r I
      .ok ((i, s.2) :: t)
    else PF.crop r I := by
  unfold PF.crop
  cases h : s.1.intersects I with
  | false => simp [h]
  | true =>
    simp only [List.filter_cons, h, if_true, List.mapM_cons]
    cases s.1.intersectionEnds I (some .inc) (some .exc) <;> rfl

/-- Pieces behind the interval vanish. -/
theorem crop_behind {I : CS} {b : FP} (hb : I.uppermost = b) {u : FP} :
    ∀ {l : List (ℤ × Fn)} {k : ℤ} {f : Fn}, Knots ((k, f) :: l) → leB k b = false →
    (∀ s ∈ (k, f) :: l, fin s.1 < u) →
    PF.crop (tile (fin k) f l u) I = .ok []
  | [], k, f, _, h, hu => by
    have : CS.intersects ⟨fin k, u, .inc, .exc⟩ I = false := by
      have h0 := hu (k, f) (by simp)
      obtain ⟨Il, Iu, IL, IR⟩ := I
      subst hb
      simp only [leB, decide_eq_false_iff_not, not_le, CS.uppermost] at h h0
      cases Iu <;> cases IR <;> cases Il <;> cases u <;>
        simp_all [CS.intersects, FP.lt_def, leb, FP.dn] <;> omega
    simp [tile, brOf, this, PF.crop]
    rfl
  | (k', g) :: r, k, f, hk, h, hu => by
    have hkk : k < k' := (List.pairwise_cons.1 hk).1 (k', g) (by simp)
    have : CS.intersects ⟨fin k, fin k', .inc, .exc⟩ I = false := by
      obtain ⟨Il, Iu, IL, IR⟩ := I
      subst hb
      simp only [leB, decide_eq_false_iff_not, not_le, CS.uppermost] at h
      cases Iu <;> cases IR <;> cases Il <;>
        simp_all [CS.intersects, FP.lt_def, leb, FP.dn] <;> omega
    simp only [tile, brOf, crop_cons, this]
    refine crop_behind hb (List.pairwise_cons.1 hk).2 ?_ (fun s hs => hu s (by simp [List.mem_cons.1 hs]))
    simp only [leB, decide_eq_false_iff_not, not_le] at h ⊢
    exact h.trans (by simp [FP.lt_def, leb, hkk])

/-- The upper bound of a piece that is cropped. -/
def cutAt (b : FP) : FP → FP
  | fin k => if leB k b then fin k else endOf b
  | u => if b = pinf then u else endOf b

/-- A piece that starts inside the interval. -/
theorem piece_in {I : CS} {b : FP} (hb : I.uppermost = b) {k : ℤ} {u : FP} (hI : I.isempty = false)
    (h1 : I.lower < fin k) (h2 : leB k b = true) (hu : fin k < u) :
    CS.intersects ⟨fin k, u, .inc, .exc⟩ I = true ∧
    CS.intersectionEnds ⟨fin k, u, .inc, .exc⟩ I (some .inc) (some .exc) =
      .ok ⟨fin k, cutAt b u, .inc, .exc⟩ := by
  obtain ⟨Il, Iu, IL, IR⟩ := I
  subst hb
  simp only [leB, decide_eq_true_eq, CS.uppermost] at h1 h2
  have hi : CS.intersects ⟨fin k, u, .inc, .exc⟩ ⟨Il, Iu, IL, IR⟩ = true := by
    unfold CS.intersects
    rw [hI]
    cases Iu <;> cases IR <;> cases Il <;> cases u <;>
      simp_all [FP.lt_def, FP.le_def, leb, FP.dn] <;> omega
  refine ⟨hi, ?_⟩
  unfold CS.intersectionEnds CS.intersection
  rw [hi]
  clear hi hI
  cases Iu <;> cases IR <;> cases Il <;> cases u <;> cases IL <;>
    simp_all [CS.mk?, CS.convertEnds, cutAt, endOf, leB, CS.uppermost, FP.lt_def, FP.le_def, leb, FP.dn,
      FP.up, bind, Except.bind, max_def, min_def, Br.max, Br.code] <;> grind (splits := 25)

/-- The piece in which the interval starts. -/
theorem piece_first {I : CS} {b : FP} (hb : I.uppermost = b) {lo u : FP} (hI : I.isempty = false)
    (hwf : I.lower ≤ I.upper) (h1 : lo ≤ I.lower) (h2 : I.lower < u) (hbn : b ≠ ninf)
    (hlo : lo ≠ pinf) :
    CS.intersects ⟨lo, u, brOf lo, .exc⟩ I = true ∧
    CS.intersectionEnds ⟨lo, u, brOf lo, .exc⟩ I (some .inc) (some .exc) =
      .ok ⟨I.lowermost, cutAt b u, .inc, .exc⟩ := by
  obtain ⟨Il, Iu, IL, IR⟩ := I
  subst hb
  simp only [CS.uppermost] at h1 h2 hbn hwf
  have hi : CS.intersects ⟨lo, u, brOf lo, .exc⟩ ⟨Il, Iu, IL, IR⟩ = true := by
    unfold CS.intersects
    rw [hI]
    unfold CS.isempty CS.isclosed CS.itype at hI
    cases Iu <;> cases IR <;> cases Il <;> cases u <;> cases lo <;> cases IL <;>
      simp_all [FP.lt_def, FP.le_def, leb, FP.dn, brOf, Br.code] <;> omega
  refine ⟨hi, ?_⟩
  unfold CS.intersectionEnds CS.intersection
  rw [hi]
  clear hi
  unfold CS.isempty CS.isclosed CS.itype at hI
  cases Iu <;> cases IR <;> cases Il <;> cases u <;> cases lo <;> cases IL <;>
    simp_all [CS.mk?, CS.convertEnds, cutAt, endOf, leB, CS.uppermost, CS.lowermost, FP.lt_def, FP.le_def,
      leb, FP.dn, FP.up, bind, Except.bind, max_def, min_def, Br.max, Br.code, brOf] <;>
    grind (splits := 25)

end Verif.Num
