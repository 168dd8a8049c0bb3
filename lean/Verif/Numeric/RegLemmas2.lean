import Verif.Numeric.RegLemmas
import Verif.Numeric.RegSpec
import Mathlib.Tactic.LinearCombination
import Mathlib.Algebra.BigOperators.Ring.Finset
import Mathlib.Algebra.Order.BigOperators.Group.Finset

/-! # The split found by `_forward` minimises the squared deviation -/

namespace Verif.Num.Reg

variable {d : Pts}

theorem foldl_range' {σ : Type} (P : ℕ → σ → Prop) (f : σ → ℕ → σ) : ∀ (n s : ℕ) (st : σ), P s st →
    (∀ k st, s ≤ k → k < s + n → P k st → P (k + 1) (f st k)) →
    P (s + n) ((List.range' s n).foldl f st)
  | 0, s, st, h, _ => by simpa using h
  | n + 1, s, st, h, hs => by
    rw [List.range'_succ, List.foldl_cons]
    have := foldl_range' P f n (s + 1) (f st s) (hs s st le_rfl (by omega) h)
      (fun k st h1 h2 h3 => hs k st (by omega) (by omega) h3)
    rwa [show s + (n + 1) = s + 1 + n by omega]

/-- The state before the loop over `split`. -/
theorem scanInit_spec (a b : ℕ) (hab : a < b) (mse : ℚ) :
    (scanInit d a b mse).sxxR = (Finset.Ico (a + 1) b).sum (fun i => (d.x i - d.x b) * (d.x i - d.x b)) ∧
    (scanInit d a b mse).syyR = (Finset.Ico (a + 1) b).sum (fun i => (d.y i - d.y b) * (d.y i - d.y b)) ∧
    (scanInit d a b mse).sxyR = (Finset.Ico (a + 1) b).sum (fun i => (d.x i - d.x b) * (d.y i - d.y b)) ∧
    (scanInit d a b mse).sxxL = 0 ∧ (scanInit d a b mse).syyL = 0 ∧ (scanInit d a b mse).sxyL = 0 ∧
    (scanInit d a b mse).best = none ∧ (scanInit d a b mse).mseMin = mse := by
  have key := foldl_range' (σ := Scan) (fun k s =>
      s.sxxR = (Finset.Ico (a + 1) k).sum (fun i => (d.x i - d.x b) * (d.x i - d.x b)) ∧
      s.syyR = (Finset.Ico (a + 1) k).sum (fun i => (d.y i - d.y b) * (d.y i - d.y b)) ∧
      s.sxyR = (Finset.Ico (a + 1) k).sum (fun i => (d.x i - d.x b) * (d.y i - d.y b)) ∧
      s.sxxL = 0 ∧ s.syyL = 0 ∧ s.sxyL = 0 ∧ s.best = none ∧ s.mseMin = mse)
    (fun s i =>
      let x := d.x i - d.x b
      let y := d.y i - d.y b
      { s with sxxR := s.sxxR + x * x, syyR := s.syyR + y * y, sxyR := s.sxyR + x * y })
    (b - (a + 1)) (a + 1)
    { sxyL := 0, syyL := 0, sxxL := 0, sxyR := 0, syyR := 0, sxxR := 0,
      mseMin := mse, best := none, mse1 := 0, mse2 := 0 } (by simp) (by
      rintro k s hk _ ⟨h1, h2, h3, h4, h5, h6, h7, h8⟩
      simp only
      rw [Finset.sum_Ico_succ_top hk, Finset.sum_Ico_succ_top hk, Finset.sum_Ico_succ_top hk,
        h1, h2, h3]
      exact ⟨rfl, rfl, rfl, h4, h5, h6, h7, h8⟩)
  rw [show a + 1 + (b - (a + 1)) = b by omega] at key
  exact key

/-- Expanding the square. -/
theorem expand_sq (l : Finset ℕ) (x y : ℕ → ℚ) (m : ℚ) :
    l.sum (fun i => y i * y i) - 2 * l.sum (fun i => x i * y i) * m +
      l.sum (fun i => x i * x i) * m * m = l.sum (fun i => (y i - m * x i) ^ 2) := by
  have : ∀ i, (y i - m * x i) ^ 2 = y i * y i - 2 * m * (x i * y i) + m * m * (x i * x i) := by
    intro i; ring
  simp only [this, Finset.sum_add_distrib, Finset.sum_sub_distrib, ← Finset.mul_sum]
  ring

theorem sq_left {a k : ℕ} (hak : a < k) :
    d.sq a k = (Finset.Ico (a + 1) (k + 1)).sum (fun i => ((d.y i - d.y a) -
      ((d.y k - d.y a - (d.y a - d.y a)) / (d.x k - d.x a - (d.x a - d.x a))) * (d.x i - d.x a)) ^ 2) := by
  have e : Finset.Icc a k = Finset.Ico a (k + 1) := by ext i; simp
  rw [Pts.sq, e, Finset.sum_eq_sum_Ico_succ_bot (by omega)]
  have h0 : (d.y a - d.chord a k a) ^ 2 = 0 := by simp [Pts.chord]
  rw [h0, zero_add]
  apply Finset.sum_congr rfl
  intro i _
  simp only [Pts.chord, sub_self, sub_zero]
  ring

theorem sq_right {k b : ℕ} (hkb : k < b) (hx : d.x k ≠ d.x b) :
    d.sq k b = (Finset.Ico (k + 1) b).sum (fun i => ((d.y i - d.y b) -
      ((d.y b - d.y b - (d.y k - d.y b)) / (d.x b - d.x b - (d.x k - d.x b))) * (d.x i - d.x b)) ^ 2) := by
  have e : Finset.Icc k b = Finset.Ico k (b + 1) := by ext i; simp
  have hne : d.x b - d.x k ≠ 0 := sub_ne_zero.2 (Ne.symm hx)
  rw [Pts.sq, e, Finset.sum_Ico_succ_top (by omega), Finset.sum_eq_sum_Ico_succ_bot (by omega)]
  have h0 : (d.y k - d.chord k b k) ^ 2 = 0 := by simp [Pts.chord]
  have h1 : (d.y b - d.chord k b b) ^ 2 = 0 := by
    rw [Pts.chord, div_mul_cancel₀ _ hne]; ring
  rw [h0, h1, zero_add, add_zero]
  apply Finset.sum_congr rfl
  intro i _
  have : d.y b - d.y b - (d.y k - d.y b) = d.y b - d.y k := by ring
  have h2 : d.x b - d.x b - (d.x k - d.x b) = d.x b - d.x k := by ring
  rw [this, h2, Pts.chord]
  congr 1
  have : (d.y b - d.y k) / (d.x b - d.x k) * (d.x b - d.x k) = d.y b - d.y k :=
    div_mul_cancel₀ _ hne
  linear_combination -this

/-- The criterion: the mean squared deviation from the polygon `a, k, b`. -/
def crit (d : Pts) (a b k : ℕ) : ℚ := (d.sq a k + d.sq k b) / ((b : ℚ) - a)

theorem sq_nonneg' (a b : ℕ) : 0 ≤ d.sq a b := Finset.sum_nonneg (fun i _ => sq_nonneg _)

theorem crit_nonneg {a b k : ℕ} (hab : a < b) : 0 ≤ crit d a b k := by
  have : (a : ℚ) < b := by exact_mod_cast hab
  exact div_nonneg (add_nonneg (sq_nonneg' _ _) (sq_nonneg' _ _)) (by linarith)

/-- The state of the loop after the splits `a+1, …, k-1`. -/
structure ScanInv (d : Pts) (a b : ℕ) (mse : ℚ) (k : ℕ) (s : Scan) : Prop where
  xxL : s.sxxL = (Finset.Ico (a + 1) k).sum (fun i => (d.x i - d.x a) * (d.x i - d.x a))
  yyL : s.syyL = (Finset.Ico (a + 1) k).sum (fun i => (d.y i - d.y a) * (d.y i - d.y a))
  xyL : s.sxyL = (Finset.Ico (a + 1) k).sum (fun i => (d.x i - d.x a) * (d.y i - d.y a))
  xxR : s.sxxR = (Finset.Ico k b).sum (fun i => (d.x i - d.x b) * (d.x i - d.x b))
  yyR : s.syyR = (Finset.Ico k b).sum (fun i => (d.y i - d.y b) * (d.y i - d.y b))
  xyR : s.sxyR = (Finset.Ico k b).sum (fun i => (d.x i - d.x b) * (d.y i - d.y b))
  none_case : s.best = none → s.mseMin = mse ∧ ∀ j, a < j → j < k → 0 ≤ mse ∧ mse ≤ crit d a b j
  some_case : ∀ j, s.best = some j → a < j ∧ j < k ∧ s.mseMin = crit d a b j ∧
    s.mse1 = d.sq a j / ((j : ℚ) - a) ∧ s.mse2 = d.sq j b / ((b : ℚ) - j) ∧
    (∀ i, a < i → i < k → crit d a b j ≤ crit d a b i) ∧
    (∀ i, a < i → i < j → crit d a b j < crit d a b i) ∧ (mse < 0 ∨ crit d a b j < mse)

theorem scanStep_inv {a b k : ℕ} {mse : ℚ} {s : Scan} (hab : a < b) (hak : a < k) (hkb : k < b)
    (hx1 : d.x a ≠ d.x k) (hx2 : d.x k ≠ d.x b)
    (h : ScanInv d a b mse k s) : ScanInv d a b mse (k + 1) (scanStep d a b s k) := by
  have hqa : (a : ℚ) < k := by exact_mod_cast hak
  have hqb : (k : ℚ) < b := by exact_mod_cast hkb
  have eL : (s.syyL + (d.y k - d.y a) * (d.y k - d.y a)) -
      2 * (s.sxyL + (d.x k - d.x a) * (d.y k - d.y a)) *
        ((d.y k - d.y a - (d.y a - d.y a)) / (d.x k - d.x a - (d.x a - d.x a))) +
      (s.sxxL + (d.x k - d.x a) * (d.x k - d.x a)) *
        ((d.y k - d.y a - (d.y a - d.y a)) / (d.x k - d.x a - (d.x a - d.x a))) *
        ((d.y k - d.y a - (d.y a - d.y a)) / (d.x k - d.x a - (d.x a - d.x a))) = d.sq a k := by
    rw [sq_left hak, ← expand_sq (Finset.Ico (a + 1) (k + 1)) (fun i => d.x i - d.x a)
      (fun i => d.y i - d.y a), Finset.sum_Ico_succ_top (by omega), Finset.sum_Ico_succ_top (by omega),
      Finset.sum_Ico_succ_top (by omega), h.xxL, h.yyL, h.xyL]
  have eR : (s.syyR - (d.y k - d.y b) * (d.y k - d.y b)) -
      2 * (s.sxyR - (d.x k - d.x b) * (d.y k - d.y b)) *
        ((d.y b - d.y b - (d.y k - d.y b)) / (d.x b - d.x b - (d.x k - d.x b))) +
      (s.sxxR - (d.x k - d.x b) * (d.x k - d.x b)) *
        ((d.y b - d.y b - (d.y k - d.y b)) / (d.x b - d.x b - (d.x k - d.x b))) *
        ((d.y b - d.y b - (d.y k - d.y b)) / (d.x b - d.x b - (d.x k - d.x b))) = d.sq k b := by
    rw [sq_right hkb hx2, ← expand_sq (Finset.Ico (k + 1) b) (fun i => d.x i - d.x b)
      (fun i => d.y i - d.y b), h.xxR, h.yyR, h.xyR,
      Finset.sum_eq_sum_Ico_succ_bot hkb, Finset.sum_eq_sum_Ico_succ_bot hkb,
      Finset.sum_eq_sum_Ico_succ_bot hkb]
    ring
  have eC : ((k : ℚ) - a) / ((b : ℚ) - a) * (d.sq a k / ((k : ℚ) - a)) +
      ((b : ℚ) - k) / ((b : ℚ) - a) * (d.sq k b / ((b : ℚ) - k)) = crit d a b k := by
    have h1 : (k : ℚ) - a ≠ 0 := by intro h; linarith
    have h2 : (b : ℚ) - k ≠ 0 := by intro h; linarith
    have h3 : (b : ℚ) - a ≠ 0 := by intro h; linarith
    rw [crit]
    field_simp
  have sums : ∀ (f : ℕ → ℚ), (Finset.Ico (a + 1) (k + 1)).sum f = (Finset.Ico (a + 1) k).sum f + f k :=
    fun f => Finset.sum_Ico_succ_top (by omega) f
  have sumsR : ∀ (f : ℕ → ℚ), (Finset.Ico (k + 1) b).sum f = (Finset.Ico k b).sum f - f k := by
    intro f; rw [Finset.sum_eq_sum_Ico_succ_bot hkb]; ring
  unfold scanStep
  simp only [eL, eR, eC]
  split
  · rename_i hc
    constructor <;> simp only [sums, sumsR, h.xxL, h.yyL, h.xyL, h.xxR, h.yyR, h.xyR]
    · intro hn; cases hn
    · intro j hj
      cases hj
      refine ⟨hak, by omega, rfl, rfl, rfl, ?_, ?_, ?_⟩
      · intro i hi1 hi2
        rcases Nat.lt_succ_iff_lt_or_eq.1 hi2 with hi2 | rfl
        · cases hb : s.best with
          | none =>
            have hn := h.none_case hb
            have := hn.2 i hi1 hi2
            rw [hn.1] at hc
            rcases hc with hc | hc
            · linarith
            · linarith
          | some j =>
            have hn := h.some_case j hb
            have := hn.2.2.2.2.2.1 i hi1 hi2
            rw [hn.2.2.1] at hc
            have := crit_nonneg (d := d) (k := j) hab
            rcases hc with hc | hc <;> linarith
        · exact le_rfl
      · intro i hi1 hi2
        cases hb : s.best with
        | none =>
          have hn := h.none_case hb
          have := hn.2 i hi1 hi2
          rw [hn.1] at hc
          rcases hc with hc | hc <;> linarith
        | some j =>
          have hn := h.some_case j hb
          have := hn.2.2.2.2.2.1 i hi1 hi2
          rw [hn.2.2.1] at hc
          have := crit_nonneg (d := d) (k := j) hab
          rcases hc with hc | hc <;> linarith
      · cases hb : s.best with
        | none => rw [(h.none_case hb).1] at hc; exact hc
        | some j =>
          have hn := h.some_case j hb
          rw [hn.2.2.1] at hc
          have := crit_nonneg (d := d) (k := j) hab
          rcases hn.2.2.2.2.2.2.2 with h' | h'
          · exact .inl h'
          · rcases hc with hc | hc
            · linarith
            · exact .inr (by linarith)
  · rename_i hc
    have hc1 : ¬ s.mseMin < 0 := fun hh => hc (.inl hh)
    have hc2 : ¬ crit d a b k < s.mseMin := fun hh => hc (.inr hh)
    constructor <;> simp only [sums, sumsR, h.xxL, h.yyL, h.xyL, h.xxR, h.yyR, h.xyR]
    · intro hb
      have hn := h.none_case hb
      refine ⟨hn.1, ?_⟩
      intro j hj1 hj2
      rcases Nat.lt_succ_iff_lt_or_eq.1 hj2 with hj2 | rfl
      · exact hn.2 j hj1 hj2
      · rw [hn.1] at hc1 hc2; exact ⟨not_lt.1 hc1, not_lt.1 hc2⟩
    · intro j hb
      have hn := h.some_case j hb
      refine ⟨hn.1, by omega, hn.2.2.1, hn.2.2.2.1, hn.2.2.2.2.1, ?_, hn.2.2.2.2.2.2.1,
        hn.2.2.2.2.2.2.2⟩
      intro i hi1 hi2
      rcases Nat.lt_succ_iff_lt_or_eq.1 hi2 with hi2 | rfl
      · exact hn.2.2.2.2.2.1 i hi1 hi2
      · rw [hn.2.2.1] at hc2; exact not_lt.1 hc2

theorem scan_inv {a b : ℕ} {mse : ℚ} (hab : a < b)
    (hx : ∀ i j, a ≤ i → i < j → j ≤ b → d.x i < d.x j) :
    ScanInv d a b mse b (scan d a b mse) := by
  obtain ⟨h1, h2, h3, h4, h5, h6, h7, h8⟩ := scanInit_spec (d := d) a b hab mse
  have := foldl_range' (σ := Scan) (ScanInv d a b mse) (scanStep d a b) (b - (a + 1)) (a + 1)
    (scanInit d a b mse) ⟨by simp [h4], by simp [h5], by simp [h6], h1, h2, h3,
      fun _ => ⟨h8, fun j hj1 hj2 => by omega⟩, fun j hj => by rw [h7] at hj; cases hj⟩
    (fun k s hk1 hk2 hs => scanStep_inv hab (by omega) (by omega)
      (ne_of_lt (hx a k le_rfl (by omega) (by omega))) (ne_of_lt (hx k b (by omega) (by omega) le_rfl)) hs)
  rwa [show a + 1 + (b - (a + 1)) = b by omega] at this

end Verif.Num.Reg
