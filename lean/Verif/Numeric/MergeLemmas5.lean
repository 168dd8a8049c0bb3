import Verif.Numeric.MergeLemmas4

/-! # Merging cdfs: cdfs and how much they rise without their jumps -/

namespace Verif.Num

open Iv Iv.FP Fun

/-- The sum of the jumps at the knots up to `n`. -/
def jumpSum (val : ℤ → ℚ) (n : ℤ) : Fn → List (ℤ × Fn) → ℚ
  | _, [] => 0
  | f, (k, g) :: r => (if k ≤ n then ev g (val k) - ev f (val k) else 0) + jumpSum val n g r

theorem jumpSum_before {val : ℤ → ℚ} {n : ℤ} : ∀ {r : List (ℤ × Fn)} {f : Fn}, (∀ s ∈ r, n < s.1) →
    jumpSum val n f r = 0
  | [], _, _ => rfl
  | (k, g) :: r, f, h => by
    have := h (k, g) (by simp)
    simp only at this
    rw [jumpSum, if_neg (by omega), jumpSum_before (fun s hs => h s (by simp [hs])), add_zero]

theorem climb_before {val : ℤ → ℚ} {n : ℤ} {u : FP} : ∀ {r : List (ℤ × Fn)} {k : ℤ} {f : Fn},
    Knots ((k, f) :: r) → n < k → ((tile (fin k) f r u).map (climb val n)).sum = 0
  | [], k, f, _, h => by
    cases f <;> cases u <;> simp [tile, climb, h]
  | (k', g) :: r, k, f, hk, h => by
    have hkk : k < k' := (List.pairwise_cons.1 hk).1 (k', g) (by simp)
    rw [tile, List.map_cons, List.sum_cons, climb_before (List.pairwise_cons.1 hk).2 (by omega)]
    cases f <;> simp [climb, h]

theorem climb_tile {val : ℤ → ℚ} {n : ℤ} : ∀ {r : List (ℤ × Fn)} {k : ℤ} {f : Fn},
    Knots ((k, f) :: r) → IsPl f → (∀ s ∈ r, IsPl s.2) → (∃ v, lastOf f r = .const v) → k ≤ n →
    ((tile (fin k) f r pinf).map (climb val n)).sum + jumpSum val n f r =
      ev (tileAt f r n) (val n) - ev f (val k)
  | [], k, f, _, hf, _, ⟨v, hv⟩, h => by
    simp only [lastOf] at hv
    subst hv
    simp [tile, climb, jumpSum, tileAt, ev, Fn.eval]
  | (k', g) :: r, k, f, hk, hf, hr, hl, h => by
    have hkk : k < k' := (List.pairwise_cons.1 hk).1 (k', g) (by simp)
    have hk' := (List.pairwise_cons.1 hk).2
    have hc : climb val n (⟨fin k, fin k', brOf (fin k), .exc⟩, f) =
        ev f (val (min n k')) - ev f (val k) := by
      cases f with
      | const v => simp [climb, ev, Fn.eval]
      | lin m c => simp only [climb, if_neg (not_lt.2 h), ev, Fn.eval, Option.getD_some]; ring
      | undef => cases hf
      | quad a b c => cases hf
    rw [tile, List.map_cons, List.sum_cons, hc, jumpSum, tileAt]
    rcases lt_or_ge n k' with h1 | h1
    · rw [climb_before hk' h1, if_neg (by omega), if_pos h1, min_eq_left h1.le,
        jumpSum_before (fun s hs => h1.trans ((List.pairwise_cons.1 hk').1 s hs))]
      ring
    · have ih := climb_tile (val := val) (n := n) hk' (hr (k', g) (by simp)) (fun s hs => hr s (by simp [hs])) hl h1
      rw [if_pos h1, if_neg (not_lt.2 h1), min_eq_right h1]
      linarith

/-- A cdf with at least three pieces: what it rises along its pieces, and its jumps. -/
theorem mass_tile {val : ℤ → ℚ} {L : List (ℤ × Fn)} (hk : Knots L) (hpl : ∀ s ∈ L, IsPl s.2)
    (hl : ∃ v, lastOf (.const 0) L = .const v) (h2 : L.length ≠ 1) (n : ℤ) :
    mass val (tile ninf (.const 0) L pinf) n + jumpSum val n (.const 0) L =
      ev (tileAt (.const 0) L n) (val n) := by
  have hm : mass val (tile ninf (.const 0) L pinf) n =
      ((tile ninf (.const 0) L pinf).map (climb val n)).sum := by
    have hlen : (tile ninf (.const 0) L pinf).length ≠ 2 := by rw [tile_length]; omega
    match hq : tile ninf (.const 0) L pinf with
    | [] => rfl
    | [s] => rfl
    | [s, t] => rw [hq] at hlen; simp at hlen
    | s :: t :: r :: q => rfl
  rw [hm]
  cases L with
  | nil => simp [tile, climb, jumpSum, tileAt, ev, Fn.eval]
  | cons s r =>
    obtain ⟨k, g⟩ := s
    have hc : climb val n (⟨ninf, fin k, brOf ninf, .exc⟩, .const 0) = 0 := rfl
    rw [tile, List.map_cons, List.sum_cons, hc, zero_add, jumpSum, tileAt]
    rcases lt_or_ge n k with h1 | h1
    · rw [climb_before hk h1, if_neg (by omega), if_pos h1,
        jumpSum_before (fun s hs => h1.trans ((List.pairwise_cons.1 hk).1 s hs))]
      simp [ev, Fn.eval]
    · have := climb_tile (val := val) (n := n) hk (hpl (k, g) (by simp)) (fun s hs => hpl s (by simp [hs])) hl h1
      rw [if_pos h1, if_neg (not_lt.2 h1)]
      have e0 : ev (.const 0) (val k) = 0 := rfl
      rw [e0]; linarith

/-- No jumps. -/
theorem jumpSum_cont {val : ℤ → ℚ} {n : ℤ} : ∀ {L : List (ℤ × Fn)} {f : Fn}, Knots L →
    (∀ s ∈ L, ev (tileAt f L (s.1 - 1)) (val s.1) = ev s.2 (val s.1)) → jumpSum val n f L = 0
  | [], _, _, _ => rfl
  | (k, g) :: r, f, hk, h => by
    have h0 := h (k, g) (by simp)
    simp only [tileAt, if_pos (show k - 1 < k by omega)] at h0
    rw [jumpSum, h0, sub_self, ite_self, zero_add]
    refine jumpSum_cont (List.pairwise_cons.1 hk).2 fun s hs => ?_
    have := h s (by simp [hs])
    have hks := (List.pairwise_cons.1 hk).1 s hs
    simp only at hks
    rwa [tileAt, if_neg (by omega)] at this

theorem tile_pieces {u : FP} : ∀ {r : List (ℤ × Fn)} {lo : FP} {f : Fn}, Knots r → (∀ s ∈ r, lo < fin s.1) →
    ∀ t ∈ tile lo f r u, (t.1.lower = lo ∧ t.2 = f ∧ (r = [] ∨ ∃ k, t.1.upper = fin k ∧ lo < fin k)) ∨
      ∃ a, t.1.lower = fin a ∧ (a, t.2) ∈ r ∧
        (t.2 = lastOf f r ∨ ∃ b, t.1.upper = fin b ∧ a < b)
  | [], lo, f, _, _, t, ht => by
    simp only [tile, List.mem_singleton] at ht
    subst ht
    exact .inl ⟨rfl, rfl, .inl rfl⟩
  | (k, g) :: r, lo, f, hk, hlo, t, ht => by
    rw [tile] at ht
    rcases List.mem_cons.1 ht with rfl | ht
    · exact .inl ⟨rfl, rfl, .inr ⟨k, rfl, hlo (k, g) (by simp)⟩⟩
    · right
      have hk' := List.pairwise_cons.1 hk
      rcases tile_pieces hk'.2 (fun s hs => by have := hk'.1 s hs; simpa [FP.lt_def, leb] using this) t ht with
        ⟨h1, h2, h3⟩ | ⟨a, h1, h2, h3⟩
      · refine ⟨k, h1, by rw [h2]; simp, ?_⟩
        rcases h3 with rfl | ⟨b, h3, h4⟩
        · exact .inl h2
        · exact .inr ⟨b, h3, by simpa [FP.lt_def, leb] using h4⟩
      · exact ⟨a, h1, by simp [h2], h3⟩

/-- A cdf that is given by its knots can be merged. -/
theorem mergeable_tile {L : List (ℤ × Fn)} (hk : Knots L) (hpl : ∀ s ∈ L, IsPl s.2)
    (hl : ∃ v, lastOf (.const 0) L = .const v) : Mergeable (tile ninf (.const 0) L pinf) := by
  constructor
  · intro t ht
    rcases tile_pieces hk (fun s _ => by simp [FP.lt_def, leb]) t ht with ⟨-, h2, -⟩ | ⟨a, h1, h2, h3⟩
    · exact .inl ⟨0, h2⟩
    · have hp := hpl _ h2
      rcases h3 with h3 | ⟨b, h3, h4⟩
      · obtain ⟨v, hv⟩ := hl
        exact .inl ⟨v, h3.trans hv⟩
      · cases hf : t.2 with
        | const v => exact .inl ⟨v, rfl⟩
        | lin m c =>
          simp only [hf, IsPl] at hp
          exact .inr ⟨m, c, a, b, rfl, hp, h1, h3, h4⟩
        | undef => simp only [hf] at hp; cases hp
        | quad a b c => simp only [hf] at hp; cases hp
  · intro s t h
    have hlen : L.length = 1 := by
      have := congrArg List.length h
      rw [tile_length] at this; simpa using this
    obtain ⟨⟨k, g⟩, rfl⟩ := List.length_eq_one_iff.1 hlen
    simp only [tile, List.cons.injEq, and_true] at h
    obtain ⟨rfl, rfl⟩ := h
    exact ⟨⟨k, rfl⟩, ⟨0, rfl⟩, hl⟩

end Verif.Num
