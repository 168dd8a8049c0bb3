import Verif.Numeric.SumLemmas
import Verif.Numeric.Sum
import Verif.Numeric.Props13

/-!
# Rectifying a piecewise linear function on a grid
-/

namespace Verif.Num

open Iv Iv.FP Fun Fun.PF

/-! ### Functions that are defined everywhere -/

/-- The pieces of a function that is defined everywhere from `lo` on. -/
theorem tile_of_sorted : ∀ {p : PF} {lo : FP}, lo ≠ pinf → (∀ s ∈ p, s.1.HalfOpen) →
    p.Pairwise (fun s t => RS.Before s.1 t.1) → (∀ s ∈ p, lo ≤ s.1.lower) →
    (∀ n : ℤ, lo ≤ fin n → ∃ s ∈ p, s.1.Mem (fin n)) →
    ∃ f L, p = tile lo f L pinf ∧ Knots L ∧ ∀ s ∈ L, lo < fin s.1
  | [], lo, hlo, _, _, _, hc => by
    exfalso
    cases lo with
    | ninf => obtain ⟨s, hs, -⟩ := hc 0 (by simp [FP.le_def, leb]); simp at hs
    | fin a => obtain ⟨s, hs, -⟩ := hc a (le_refl _); simp at hs
    | pinf => exact hlo rfl
  | (i, f) :: r, lo, hlo, hh, hp, hl, hc => by
    obtain ⟨h1, h2⟩ := List.pairwise_cons.1 hp
    have hi : i.HalfOpen := hh (i, f) (by simp)
    have hli : lo ≤ i.lower := hl (i, f) (by simp)
    -- the first interval begins at `lo`
    have hlow : i.lower = lo := by
      obtain ⟨x, hx⟩ := CS.exists_mem hi.wf hi.nonempty
      obtain ⟨m, rfl⟩ := norm_mem_fin hi hx
      have hx' := (hi.mem_iff _).1 hx
      by_contra hne
      obtain ⟨a, ha, hla⟩ : ∃ a : ℤ, lo ≤ fin a ∧ fin a < i.lower := by
        revert hli hne hx' hlo
        cases lo <;> cases i.lower <;> simp [FP.le_def, FP.lt_def, leb]
        · rename_i b; intros; exact ⟨b - 1, by omega⟩
        · rename_i a b; intros; exact ⟨a, by omega, by omega⟩
      obtain ⟨s, hs, hm⟩ := hc a ha
      rcases List.mem_cons.1 hs with rfl | hs
      · exact absurd ((hi.mem_iff _).1 hm).1 (not_le.2 hla)
      · have := h1 s hs _ _ hx hm
        exact absurd (lt_of_le_of_lt hx'.1 this) (not_lt.2 (le_of_lt hla))
    obtain ⟨il, iu, br, bl⟩ := i
    simp only at hlow
    subst hlow
    obtain ⟨g1, g2, g3⟩ := hi
    simp only at g1 g2 g3
    subst g2
    have hbr : br = brOf il := by
      rcases g3 with ⟨rfl, rfl⟩ | ⟨h, rfl⟩
      · rfl
      · cases il <;> simp_all [brOf]
    subst hbr
    cases iu with
    | ninf => cases il <;> simp [FP.lt_def, leb] at g1
    | pinf =>
      have : r = [] := by
        cases r with
        | nil => rfl
        | cons t r =>
          exfalso
          obtain ⟨y, hy⟩ := CS.exists_mem (hh t (by simp)).wf (hh t (by simp)).nonempty
          obtain ⟨m, rfl⟩ := norm_mem_fin (hh t (by simp)) hy
          have hb := (((hh t (by simp)).mem_iff _).1 hy).1
          have h3 := hl t (by simp)
          exact absurd (h1 t (by simp) _ _ (tile_mem.2 ⟨le_trans h3 hb, by simp [FP.lt_def, leb]⟩) hy) (lt_irrefl _)
      subst this
      exact ⟨f, [], rfl, List.Pairwise.nil, by simp⟩
    | fin b =>
      have hlast : CS.Mem ⟨il, fin b, brOf il, .exc⟩ (fin (b - 1)) := tile_mem.2 ⟨by
        revert g1; cases il <;> simp [FP.le_def, FP.lt_def, leb], by simp [FP.lt_def, leb]⟩
      obtain ⟨g, L, e1, e2, e3⟩ := tile_of_sorted (p := r) (lo := fin b) (by simp) (fun s hs => hh s (by simp [hs])) h2
        (fun s hs => by
          have hho := hh s (by simp [hs])
          by_contra hcon
          rw [not_le] at hcon
          have hls := hl s (by simp [hs])
          -- a member of `s` below `b`
          obtain ⟨m, hm, hmb⟩ : ∃ m : ℤ, s.1.Mem (fin m) ∧ m < b := by
            obtain ⟨y, hy⟩ := CS.exists_mem hho.wf hho.nonempty
            obtain ⟨k, rfl⟩ := norm_mem_fin hho hy
            have hy' := (hho.mem_iff _).1 hy
            by_cases hkb : k < b
            · exact ⟨k, hy, hkb⟩
            · refine ⟨b - 1, (hho.mem_iff _).2 ⟨?_, ?_⟩, by omega⟩
              · revert hcon; cases s.1.lower <;> simp [FP.le_def, FP.lt_def, leb]
              · refine lt_of_lt_of_le ?_ (le_of_lt hy'.2)
                simp [FP.lt_def, leb]; omega
          have := h1 s hs _ _ hlast hm
          simp [FP.lt_def, leb] at this
          omega)
        (fun n hn => by
          obtain ⟨s, hs, hm⟩ := hc n (le_trans (le_of_lt g1) hn)
          rcases List.mem_cons.1 hs with rfl | hs
          · exact absurd (tile_mem.1 hm).2 (not_lt.2 hn)
          · exact ⟨s, hs, hm⟩)
      refine ⟨f, (b, g) :: L, by rw [e1]; rfl, List.pairwise_cons.2 ⟨fun s hs => ?_, e2⟩, fun s hs => ?_⟩
      · have := e3 s hs; simpa [FP.lt_def, leb] using this
      · rcases List.mem_cons.1 hs with rfl | hs
        · exact g1
        · exact lt_trans g1 (e3 s hs)

end Verif.Num
