import Verif.Numeric.SumLemmas2

/-!
# Integrating a rectified function on a grid
-/

namespace Verif.Num

open Iv Iv.FP Fun Fun.PF

variable {val : ℤ → ℚ} {u : ℚ}

/-! ### Sums of values -/

theorem cumul_split {F : ℤ → ℚ} {a b c : ℤ} (h1 : a ≤ b) (h2 : b ≤ c) : cumul F a c = cumul F a b + cumul F b c := by
  unfold cumul
  rw [← Finset.sum_union (Finset.Ico_disjoint_Ico_consecutive a b c), Finset.Ico_union_Ico_eq_Ico h1 h2]

theorem cumul_empty {F : ℤ → ℚ} {a n : ℤ} (h : n ≤ a) : cumul F a n = 0 := by
  unfold cumul; rw [Finset.Ico_eq_empty (by omega), Finset.sum_empty]

theorem cumul_congr {F G : ℤ → ℚ} {a n : ℤ} (h : ∀ j, a ≤ j → j < n → F j = G j) : cumul F a n = cumul G a n :=
  Finset.sum_congr rfl (fun j hj => h j (Finset.mem_Ico.1 hj).1 (Finset.mem_Ico.1 hj).2)

theorem cumul_const {F : ℤ → ℚ} {a n : ℤ} {v : ℚ} (han : a ≤ n) (h : ∀ j, a ≤ j → j < n → F j = v) :
    cumul F a n = (n - a : ℚ) * v := by
  rw [cumul_congr (G := fun _ => v) h]
  unfold cumul
  rw [Finset.sum_const, Int.card_Ico, nsmul_eq_mul]
  congr 1
  have : (((n - a).toNat : ℤ) : ℚ) = ((n - a : ℤ) : ℚ) := by rw [Int.toNat_of_nonneg (by omega)]
  push_cast at this
  exact this

theorem cumul_line {F : ℤ → ℚ} {a : ℤ} {m c : ℚ} (k : ℕ) (h : ∀ j, a ≤ j → j < a + k → F j = m * j + c) :
    2 * cumul F a (a + k) = k * ((m * a + c) + (m * (a + k - 1) + c)) := by
  induction k with
  | zero => rw [cumul_empty (by simp)]; simp
  | succ k ih =>
    rw [cumul_split (b := a + k) (by omega) (by push_cast; omega), mul_add, ih (fun j h1 h2 => h j h1 (by push_cast; omega)),
      cumul_const (v := m * (a + k : ℤ) + c) (by push_cast; omega) (fun j h1 h2 => by
        rw [h j (by omega) h2, show j = a + k by push_cast at h2; omega])]
    push_cast
    ring

theorem cumul_shift {F : ℤ → ℚ} {a b n : ℤ} (ha : ∀ j, j < a → F j = 0) (hb : ∀ j, j < b → F j = 0) :
    cumul F a n = cumul F b n := by
  have key : ∀ a b : ℤ, a ≤ b → (∀ j, j < b → F j = 0) → cumul F a n = cumul F b n := by
    intro a b hab hb
    symm
    refine Finset.sum_subset (Finset.Ico_subset_Ico hab le_rfl) (fun j hj hj' => hb j ?_)
    rw [Finset.mem_Ico] at hj hj'
    omega
  rcases le_total a b with h | h
  · exact key a b h hb
  · exact (key b a h ha).symm

/-! ### Areas -/

theorem area_cumul (hval : ∀ n, val n = u * n) {n : ℤ} : ∀ (r : List (ℤ × ℚ)) (k : ℤ) (v : ℚ),
    ((k, v) :: r).Pairwise (fun s t => s.1 < t.1) → (∃ z, ((k, v) :: r).getLast? = some (z, 0)) →
    area val n ((k, v) :: r) = u * cumul (PF.stepAt v r) k n
  | [], k, v, _, ⟨z, hz⟩ => by
    simp only [List.getLast?_singleton, Option.some.injEq, Prod.mk.injEq] at hz
    obtain ⟨-, rfl⟩ := hz
    have : cumul (PF.stepAt 0 []) k n = 0 := Finset.sum_eq_zero (fun _ _ => rfl)
    rw [this, mul_zero]; rfl
  | (k', v') :: r, k, v, hp, ⟨z, hz⟩ => by
    have hk : k < k' := (List.pairwise_cons.1 hp).1 (k', v') (by simp)
    have hp' := (List.pairwise_cons.1 hp).2
    rw [List.getLast?_cons_cons] at hz
    have ih := area_cumul hval (n := n) r k' v' hp' ⟨z, hz⟩
    rw [area, hval, hval]
    rcases lt_or_ge n k with h | h
    · rw [area_before r k' v' (by omega) hp', cumul_empty (by omega), show max k (min n k') = k by omega]
      ring
    · rcases lt_or_ge n k' with h' | h'
      · rw [area_before r k' v' (by omega) hp', show max k (min n k') = n by omega,
          cumul_const (v := v) h (fun j _ h2 => by simp [PF.stepAt, show j < k' by omega])]
        ring
      · rw [ih, show max k (min n k') = k' by omega, cumul_split (le_of_lt hk) h',
          cumul_const (v := v) (le_of_lt hk) (fun j _ h2 => by simp [PF.stepAt, h2]),
          cumul_congr (F := PF.stepAt v ((k', v') :: r)) (G := PF.stepAt v' r) (fun j h1 _ => by simp [PF.stepAt, not_lt.2 h1])]
        ring

/-- The area up to a float, for a step function. -/
theorem area_step (hval : ∀ n, val n = u * n) {K : List (ℤ × ℚ)} (hK : IsBump K) {a : ℤ}
    (ha : ∀ j, j < a → PF.stepAt 0 K j = 0) (n : ℤ) : area val n K = u * cumul (PF.stepAt 0 K) a n := by
  obtain ⟨h1, h2⟩ := hK
  cases K with
  | nil => simp at h2
  | cons s r =>
    obtain ⟨k, v⟩ := s
    have hz : ∃ z, ((k, v) :: r).getLast? = some (z, 0) := by
      cases hl : ((k, v) :: r).getLast? with
      | none => simp [hl] at h2
      | some z => rw [hl] at h2; simp only [Option.map_some, Option.some.injEq] at h2; exact ⟨z.1, by rw [← h2]⟩
    rw [area_cumul hval r k v h1 hz, cumul_shift (a := a) (b := k) ha (fun j hj => by simp [PF.stepAt, hj])]
    congr 1
    exact cumul_congr (fun j h3 _ => by simp [PF.stepAt, not_lt.2 h3])

/-! ### Rectified functions -/

/-- The values of the pieces from the knot `k` on. -/
theorem rectify_from (hval : ∀ n, val n = u * n) (hu : u ≠ 0) {W : ℤ → ℚ} : ∀ (L : List (ℤ × Fn)) (k : ℤ) (g : Fn),
    Knots ((k, g) :: L) → (∀ s ∈ (k, g) :: L, Plain s.2) → (∃ z c, ((k, g) :: L).getLast? = some (z, .const c)) →
    (∀ n, k ≤ n → (tileAt g L n).eval (val n) = some (W n)) →
    ∃ (v : ℚ) (K : List (ℤ × ℚ)), rectify val (tile (fin k) g L pinf) =
        .ok (tile (fin k) (.const v) (K.map (fun s => (s.1, .const s.2))) pinf) ∧ K.map Prod.fst = L.map Prod.fst ∧
      (∀ n ∈ k :: L.map Prod.fst, cumul (PF.stepAt v K) k n = cumul W k n) ∧
      (∀ n, ∃ i j, k ≤ i ∧ k ≤ j ∧ PF.stepAt v K n = (W i + W j) / 2) ∧
      (∀ n, (∀ s ∈ (k, g) :: L, s.1 ≤ n) → PF.stepAt v K n = W n) ∧
      ∀ n, k ≤ n → W n = 0 → (k ≤ n - 1 → W (n - 1) = 0) → W (n + 1) = 0 → PF.stepAt v K n = 0
  | [], k, g, _, _, ⟨z, c, hz⟩, hW => by
    simp only [List.getLast?_singleton, Option.some.injEq, Prod.mk.injEq] at hz
    obtain ⟨-, rfl⟩ := hz
    have hW' : ∀ n, k ≤ n → W n = c := fun n hn => by
      have := hW n hn
      simp only [tileAt, Fn.eval, Option.some.injEq] at this
      exact this.symm
    refine ⟨c, [], rfl, rfl, fun n hn => ?_, fun n => ⟨k, k, le_rfl, le_rfl, ?_⟩, fun n hn => ?_, fun n hn h0 _ _ => ?_⟩
    · simp only [List.map_nil, List.mem_singleton] at hn
      subst hn
      rw [cumul_empty le_rfl, cumul_empty le_rfl]
    · rw [hW' k le_rfl]; simp [PF.stepAt]
    · rw [hW' n (hn (k, .const c) (by simp))]; rfl
    · rw [← h0, hW' n hn]; rfl
  | (k', g') :: L, k, g, hK, hP, ⟨z, c, hz⟩, hW => by
    have hk : k < k' := (List.pairwise_cons.1 hK).1 (k', g') (by simp)
    rw [List.getLast?_cons_cons] at hz
    obtain ⟨v', K, e1, e2, e3, e4, e5, e6⟩ := rectify_from hval hu L k' g' (List.pairwise_cons.1 hK).2
      (fun s hs => hP s (List.mem_cons_of_mem _ hs)) ⟨z, c, hz⟩ (fun n hn => by
        have := hW n (by omega)
        simpa [tileAt, not_lt.2 hn] using this)
    have hW' : ∀ n, k ≤ n → n < k' → g.eval (val n) = some (W n) := fun n h1 h2 => by
      have := hW n h1
      simpa [tileAt, h2] using this
    -- the first piece
    obtain ⟨v, hv, hs, hz0, i, j, hi, hj, hij⟩ : ∃ v, rectifyPiece val (⟨fin k, fin k', brOf (fin k), .exc⟩, g) =
        .ok (⟨fin k, fin k', brOf (fin k), .exc⟩, .const v) ∧ (k' - k : ℚ) * v = cumul W k k' ∧
        (∀ n, k ≤ n → n < k' → W n = 0 → (k ≤ n - 1 → W (n - 1) = 0) → W (n + 1) = 0 → v = 0) ∧
        ∃ i j, k ≤ i ∧ k ≤ j ∧ v = (W i + W j) / 2 := by
      rcases hP (k, g) (by simp) with ⟨c, hg⟩ | ⟨m, c, hg, hm⟩
      · simp only at hg
        subst hg
        have hc : ∀ n, k ≤ n → n < k' → W n = c := fun n h1 h2 => by
          have := hW' n h1 h2
          simp only [Fn.eval, Option.some.injEq] at this
          exact this.symm
        exact ⟨c, rfl, (cumul_const (le_of_lt hk) hc).symm, fun n h1 h2 h0 _ _ => by rw [← hc n h1 h2, h0],
          k, k, le_rfl, le_rfl, by rw [hc k le_rfl hk]; ring⟩
      · simp only at hg
        subst hg
        have hc : ∀ n, k ≤ n → n < k' → W n = m * u * n + c := fun n h1 h2 => by
          have := hW' n h1 h2
          simp only [Fn.eval, Option.some.injEq] at this
          rw [← this, hval]; ring
        refine ⟨(W k + W (k' - 1)) / 2, ?_, ?_, fun n h1 h2 h0 hp hn => ?_, k, k' - 1, le_rfl, by omega, rfl⟩
        · have b1 : CS.lowermost ⟨fin k, fin k', brOf (fin k), .exc⟩ = fin k := by simp [CS.lowermost, brOf]
          have b2 : CS.uppermost ⟨fin k, fin k', brOf (fin k), .exc⟩ = fin (k' - 1) := by simp [CS.uppermost, FP.dn]
          unfold rectifyPiece
          rw [hc k le_rfl hk, hc (k' - 1) (by omega) (by omega)]
          simp only [b1, b2, FP.isInf, Bool.false_eq_true, or_self, and_false, if_false, hval]
          congr 4; ring
        · have := cumul_line (F := W) (a := k) (m := m * u) (c := c) (k' - k).toNat (fun n h1 h2 => hc n h1 (by omega))
          have e : (((k' - k).toNat : ℤ) : ℚ) = ((k' - k : ℤ) : ℚ) := by rw [Int.toNat_of_nonneg (by omega)]
          push_cast at e
          rw [show k + ((k' - k).toNat : ℤ) = k' by omega, e] at this
          rw [hc k le_rfl hk, hc (k' - 1) (by omega) (by omega)]
          push_cast
          linarith
        · have hmu : m * u ≠ 0 := mul_ne_zero hm hu
          by_cases hp1 : k ≤ n - 1
          · have g1 := hp hp1
            rw [hc n h1 h2] at h0
            rw [hc (n - 1) hp1 (by omega)] at g1
            push_cast at g1
            exact absurd (by linarith) hmu
          · by_cases hn1 : n + 1 < k'
            · rw [hc n h1 h2] at h0
              rw [hc (n + 1) (by omega) hn1] at hn
              push_cast at hn
              exact absurd (by linarith) hmu
            · rw [show k = n by omega, show k' - 1 = n by omega, h0]; norm_num
    refine ⟨v, (k', v') :: K, ?_, by simp [e2], fun n hn => ?_, fun n => ?_, fun n hn => ?_,
      fun n hn h0 hp hs => ?_⟩
    · unfold rectify at e1 ⊢
      simp only [tile, List.mapM_cons, hv, e1, bind, Except.bind, pure, Except.pure, List.map_cons]
    · rcases List.mem_cons.1 hn with rfl | hn
      · rw [cumul_empty le_rfl, cumul_empty le_rfl]
      · have hn' : k' ≤ n := by
          simp only [List.map_cons, List.mem_cons] at hn
          rcases hn with rfl | hn
          · exact le_rfl
          · obtain ⟨s, hs, rfl⟩ := List.mem_map.1 hn
            exact le_of_lt ((List.pairwise_cons.1 (List.pairwise_cons.1 hK).2).1 s hs)
        rw [cumul_split (le_of_lt hk) hn', cumul_split (F := W) (le_of_lt hk) hn', ← hs,
          cumul_const (v := v) (le_of_lt hk) (fun j _ h2 => by simp [PF.stepAt, h2]),
          cumul_congr (F := PF.stepAt v ((k', v') :: K)) (G := PF.stepAt v' K) (fun j h1 _ => by simp [PF.stepAt, not_lt.2 h1]),
          e3 n (by simpa using hn)]
    · by_cases h : n < k'
      · exact ⟨i, j, hi, hj, by simp [PF.stepAt, h, hij]⟩
      · obtain ⟨i, j, hi, hj, e⟩ := e4 n
        exact ⟨i, j, by omega, by omega, by simp [PF.stepAt, h, e]⟩
    · have : k' ≤ n := hn (k', g') (by simp)
      simp only [PF.stepAt, not_lt.2 this, if_false]
      exact e5 n (fun s hs => hn s (List.mem_cons_of_mem _ hs))
    · by_cases h : n < k'
      · simpa [PF.stepAt, h] using hz0 n hn h h0 hp hs
      · simpa [PF.stepAt, h] using e6 n (by omega) h0 (fun _ => hp (by omega)) hs

end Verif.Num
