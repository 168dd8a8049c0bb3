import Verif.Functions.Lemmas2
import Verif.Numeric.Quantile

/-!
# Piecewise functions that tile the line

`tile lo f l u`: `f` from `lo` on up to the first knot, then the function of that knot, and so on, up to
`u`.
-/

namespace Verif.Num

open Iv Iv.FP Fun

/-- The flag of a lower bound. -/
def brOf : FP → Br
  | ninf => .exc
  | _ => .inc

/-- The pieces with the knots in `l`. -/
def tile (lo : FP) (f : Fn) : List (ℤ × Fn) → FP → PF
  | [], u => [(⟨lo, u, brOf lo, .exc⟩, f)]
  | (k, g) :: r, u => (⟨lo, fin k, brOf lo, .exc⟩, f) :: tile (fin k) g r u

/-- The function of the piece that contains `n`. -/
def tileAt (f : Fn) : List (ℤ × Fn) → ℤ → Fn
  | [], _ => f
  | (k, g) :: r, n => if n < k then f else tileAt g r n

/-- Increasing knots. -/
def Knots (l : List (ℤ × Fn)) : Prop := l.Pairwise (fun s t => s.1 < t.1)

theorem tile_mem {lo u : FP} {n : ℤ} :
    CS.Mem ⟨lo, u, brOf lo, .exc⟩ (fin n) ↔ lo ≤ fin n ∧ fin n < u := by
  cases lo <;> cases u <;> simp [CS.Mem, brOf, FP.lt_def, FP.le_def, leb] <;> omega

theorem tile_at {n : ℤ} {u : FP} : ∀ {l : List (ℤ × Fn)} {lo : FP} {f : Fn}, lo ≤ fin n → fin n < u →
    PF.atPos (tile lo f l u) (fin n) = some (tileAt f l n)
  | [], lo, f, h, hu => by
    have hm : CS.Mem ⟨lo, u, brOf lo, .exc⟩ (fin n) := tile_mem.2 ⟨h, hu⟩
    have : PF.hit (fin n) ⟨lo, u, brOf lo, .exc⟩ = true := by
      rw [PF.hit_fin]; exact (CS.containsValue_iff _ _).2 hm
    simp [tile, PF.atPos, tileAt, this]
  | (k, g) :: r, lo, f, h, hu => by
    by_cases hk : n < k
    · have hm : CS.Mem ⟨lo, fin k, brOf lo, .exc⟩ (fin n) :=
        tile_mem.2 ⟨h, by simp [FP.lt_def, leb, hk]⟩
      have : PF.hit (fin n) ⟨lo, fin k, brOf lo, .exc⟩ = true := by
        rw [PF.hit_fin]; exact (CS.containsValue_iff _ _).2 hm
      simp [tile, PF.atPos, tileAt, this, hk]
    · have hm : ¬ CS.Mem ⟨lo, fin k, brOf lo, .exc⟩ (fin n) := by
        rw [tile_mem]; rintro ⟨_, h2⟩; simp [FP.lt_def, leb] at h2; omega
      have : PF.hit (fin n) ⟨lo, fin k, brOf lo, .exc⟩ = false := by
        rw [PF.hit_fin, Bool.eq_false_iff]; exact fun hh => hm ((CS.containsValue_iff _ _).1 hh)
      have ih := tile_at (n := n) (l := r) (lo := fin k) (f := g)
        (by simp [FP.le_def, leb]; omega) hu
      simp only [PF.atPos] at ih
      simp [tile, PF.atPos, tileAt, this, hk, ih]

/-- Evaluation of a tiling function. -/
theorem tile_eval (val : ℤ → ℚ) {l : List (ℤ × Fn)} {f : Fn} (n : ℤ) :
    PF.eval val (tile ninf f l pinf) n = .ok ((tileAt f l n).eval (val n)) := by
  rw [PF.eval, tile_at (by simp [FP.le_def, leb]) (by simp [FP.lt_def, leb])]

theorem tile_ne_nil {lo : FP} {f : Fn} {l : List (ℤ × Fn)} {u : FP} : tile lo f l u ≠ [] := by
  cases l <;> simp [tile]

theorem tile_length {u : FP} : ∀ {l : List (ℤ × Fn)} {lo : FP} {f : Fn},
    (tile lo f l u).length = l.length + 1
  | [], _, _ => rfl
  | (k, g) :: r, _, _ => by simp [tile, tile_length (l := r)]

theorem setUpper_cons {u : FP} {s : CS × Fn} {r : PF} (h : r ≠ []) :
    setUpper u (s :: r) = s :: setUpper u r := by
  cases r with
  | nil => exact absurd rfl h
  | cons _ _ => rfl

theorem setUpper_tile {u u' : FP} : ∀ {l : List (ℤ × Fn)} {lo : FP} {f : Fn},
    setUpper u' (tile lo f l u) = tile lo f l u'
  | [], _, _ => rfl
  | (k, g) :: r, _, _ => by
    simp only [tile]
    rw [setUpper_cons tile_ne_nil, setUpper_tile]

theorem tile_append {u : FP} {k : ℤ} {g : Fn} : ∀ {l : List (ℤ × Fn)} {lo : FP} {f : Fn},
    tile lo f l (fin k) ++ [(⟨fin k, u, .inc, .exc⟩, g)] = tile lo f (l ++ [(k, g)]) u
  | [], _, _ => rfl
  | (k', g') :: r, _, _ => by
    simp only [tile, List.cons_append, tile_append (l := r)]

theorem tileAt_append {n k : ℤ} {g : Fn} : ∀ {l : List (ℤ × Fn)} {f : Fn}, Knots (l ++ [(k, g)]) →
    tileAt f (l ++ [(k, g)]) n = if n < k then tileAt f l n else g
  | [], f, _ => by simp [tileAt]
  | (k', g') :: r, f, h => by
    have h' := List.pairwise_cons.1 h
    have hk : k' < k := h'.1 (k, g) (by simp)
    simp only [List.cons_append, tileAt, tileAt_append (l := r) h'.2]
    split_ifs <;> first | rfl | omega

end Verif.Num
