import Verif.Numeric.Query
import Verif.Numeric.QuerySpec
import Verif.Numeric.PpfLemmas
import Verif.Intervals.Lemmas7
import Verif.ListAux

/-! # The density of a tiling cdf -/

namespace Verif.Num

open Iv Iv.FP Fun

/-- The slope of a constant or linear function. -/
def sl : Fn → ℚ
  | .lin m _ => m
  | _ => 0

/-- The pieces of a density. -/
def densOf (p : PF) : Dens := p.map (fun s => (s.1, XQ.fin (sl s.2)))

/-- Constant or linear. -/
def Simple (f : Fn) : Prop := slopeOf f = .ok (sl f)

theorem simple_const (v : ℚ) : Simple (.const v) := rfl
theorem simple_lin (m c : ℚ) : Simple (.lin m c) := rfl

theorem slopes_mapM : ∀ {p : PF}, (∀ s ∈ p, Simple s.2) →
    p.mapM (fun s => (slopeOf s.2).map (fun v => (s.1, XQ.fin v))) = .ok (densOf p)
  | [], _ => rfl
  | s :: r, h => by
    rw [List.mapM_cons, h s (by simp), slopes_mapM (fun t ht => h t (by simp [ht]))]
    rfl

theorem impulse_of_length {d : Dens} (h : d.length ≠ 2) : impulse d = d := by
  unfold impulse
  split
  · simp at h
  · rfl

theorem pdf_eq {p : PF} (h : ∀ s ∈ p, Simple s.2) (hl : p.length ≠ 2) : pdf p = .ok (densOf p) := by
  rw [pdf, slopes_mapM h]
  simp only [bind, Except.bind]
  rw [impulse_of_length (by simpa [densOf] using hl)]

theorem tile_simple {u : FP} : ∀ {L : List (ℤ × Fn)} {lo : FP} {f : Fn}, Simple f → (∀ s ∈ L, Simple s.2) →
    ∀ s ∈ tile lo f L u, Simple s.2
  | [], _, _, hf, _, s, hs => by simp [tile] at hs; rw [hs]; exact hf
  | (k, g) :: r, _, _, hf, h, s, hs => by
    simp only [tile, List.mem_cons] at hs
    rcases hs with rfl | hs
    · exact hf
    · exact tile_simple (h (k, g) (by simp)) (fun t ht => h t (by simp [ht])) s hs

theorem pos_iff (v : ℚ) : (XQ.fin v).le (.fin 0) = false ↔ 0 < v := by simp [XQ.le]

/-- The run that is open at the beginning. -/
theorem gtZero_run {l : FP} : ∀ {L : List (ℤ × Fn)} {lo : FP} {f : Fn}, Knots L → (∀ s ∈ L, lo < fin s.1) →
    ∃ s ∈ gtZero (some l) (densOf (tile lo f L pinf)),
      s.lower = l ∧ lo ≤ s.upper ∧ s.left = .inc ∧ s.right = .exc
  | [], lo, f, _, _ => by
    simp only [tile, densOf, List.map, gtZero]
    split
    · exact ⟨_, List.mem_cons_self, rfl, le_rfl, rfl, rfl⟩
    · exact ⟨_, List.mem_cons_self, rfl, FP.le_pinf _, rfl, rfl⟩
  | (k, g) :: r, lo, f, h, hlo => by
    simp only [tile, densOf, List.map, gtZero]
    split
    · exact ⟨_, List.mem_cons_self, rfl, le_rfl, rfl, rfl⟩
    · obtain ⟨s, hs, h1, h2, h3⟩ := gtZero_run (l := l) (L := r) (lo := fin k) (f := g)
        (List.pairwise_cons.1 h).2 (fun t ht => by
          have := (List.pairwise_cons.1 h).1 t ht
          simpa [FP.lt_def, leb] using this)
      exact ⟨s, hs, h1, le_trans (hlo (k, g) (by simp)).le h2, h3⟩

/-- Every float of positive density, with the numbers up to the next float, lies in `gt(0)`. -/
theorem gtZero_cover {n : ℤ} : ∀ {L : List (ℤ × Fn)} {lo : FP} {f : Fn} {cur : Option FP}, Knots L →
    (∀ s ∈ L, lo < fin s.1) → lo ≤ fin n → (∀ l, cur = some l → l ≤ lo) → 0 < sl (tileAt f L n) →
    ∃ s ∈ gtZero cur (densOf (tile lo f L pinf)),
      s.lower ≤ fin n ∧ fin n < s.upper ∧ s.left = .inc ∧ s.right = .exc
  | [], lo, f, cur, _, _, hn, hcur, hpos => by
    simp only [tileAt] at hpos
    have hp := (pos_iff _).2 hpos
    cases cur with
    | none =>
      simp only [tile, densOf, List.map, gtZero, hp]
      exact ⟨_, List.mem_cons_self, hn, by simp [FP.lt_def, leb], rfl, rfl⟩
    | some l =>
      simp only [tile, densOf, List.map, gtZero, hp]
      exact ⟨_, List.mem_cons_self, le_trans (hcur l rfl) hn, by simp [FP.lt_def, leb], rfl, rfl⟩
  | (k, g) :: r, lo, f, cur, h, hlo, hn, hcur, hpos => by
    have hk := List.pairwise_cons.1 h
    have hr : ∀ s ∈ r, fin k < fin s.1 := fun t ht => by
      have := hk.1 t ht
      simpa [FP.lt_def, leb] using this
    have hlok : lo < fin k := hlo (k, g) (by simp)
    simp only [tileAt] at hpos
    by_cases hnk : n < k
    · rw [if_pos hnk] at hpos
      have hp := (pos_iff _).2 hpos
      have key : ∀ l, l ≤ lo → ∃ s ∈ gtZero (some l) (densOf (tile (fin k) g r pinf)),
          s.lower ≤ fin n ∧ fin n < s.upper ∧ s.left = .inc ∧ s.right = .exc := by
        intro l hl
        obtain ⟨s, hs, h1, h2, h3⟩ := gtZero_run (l := l) (f := g) hk.2 hr
        exact ⟨s, hs, h1 ▸ le_trans hl hn, lt_of_lt_of_le (by simpa [FP.lt_def, leb] using hnk) h2, h3⟩
      cases cur with
      | none =>
        simp only [tile, densOf, List.map, gtZero, hp]
        exact key lo le_rfl
      | some l =>
        simp only [tile, densOf, List.map, gtZero, hp]
        exact key l (hcur l rfl)
    · rw [if_neg hnk] at hpos
      have hkn : fin k ≤ fin n := by simp [FP.le_def, leb]; omega
      have key : ∀ cur', (∀ l, cur' = some l → l ≤ fin k) →
          ∃ s ∈ gtZero cur' (densOf (tile (fin k) g r pinf)),
          s.lower ≤ fin n ∧ fin n < s.upper ∧ s.left = .inc ∧ s.right = .exc :=
        fun cur' hc => gtZero_cover hk.2 hr hkn hc hpos
      cases cur with
      | none =>
        simp only [tile, densOf, List.map, gtZero]
        split
        · exact key none (fun l hl => by cases hl)
        · exact key (some lo) (fun l hl => by cases hl; exact hlok.le)
      | some l =>
        simp only [tile, densOf, List.map, gtZero]
        split
        · obtain ⟨s, hs, h1⟩ := key none (fun l hl => by cases hl)
          exact ⟨s, List.mem_cons_of_mem _ hs, h1⟩
        · exact key (some l) (fun l' hl => by cases hl; exact le_trans (hcur l rfl) hlok.le)

/-- The functions at neighbouring floats. -/
theorem tileAt_succ {n : ℤ} : ∀ {L : List (ℤ × Fn)} {f : Fn}, Knots L →
    (∃ s ∈ L, s.1 = n + 1 ∧ tileAt f L (n + 1) = s.2) ∨ tileAt f L (n + 1) = tileAt f L n
  | [], _, _ => .inr rfl
  | (k, g) :: r, f, h => by
    have hk := List.pairwise_cons.1 h
    simp only [tileAt]
    by_cases h1 : n + 1 < k
    · right; rw [if_pos h1, if_pos (by omega)]
    · rw [if_neg h1]
      by_cases h2 : n < k
      · have : k = n + 1 := by omega
        left
        refine ⟨(k, g), by simp, this, ?_⟩
        cases r with
        | nil => rfl
        | cons t r => simp [tileAt, show n + 1 < t.1 by have := hk.1 t (by simp); simp at this; omega]
      · rw [if_neg h2]
        rcases tileAt_succ (n := n) (f := g) hk.2 with ⟨s, hs, h3, h4⟩ | h3
        · exact .inl ⟨s, by simp [hs], h3, h4⟩
        · exact .inr h3

end Verif.Num
