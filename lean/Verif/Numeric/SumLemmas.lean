import Verif.Numeric.SumSpec
import Verif.Numeric.ConvolutionLemmas5

/-!
# The sum of two random numbers on a grid
-/

namespace Verif.Num

open Iv Iv.FP Fun Fun.PF MeasureTheory

variable {u : ℚ} {F G : ℤ → ℚ} {A B C D : ℤ} {f g : ℝ → ℝ}

/-- `f` is constant between two neighbouring points of the grid. -/
def Cells (u : ℚ) (f : ℝ → ℝ) (F : ℤ → ℚ) : Prop :=
  ∀ (k : ℤ) (x : ℝ), (u : ℝ) * k < x → x < (u : ℝ) * k + u → f x = F k

/-- The sum of the values before `m`. -/
noncomputable def cumul (G : ℤ → ℚ) (C m : ℤ) : ℚ := ∑ j ∈ Finset.Ico C m, G j

theorem cumul_mono (hG0 : ∀ k, 0 ≤ G k) {m n : ℤ} (h : m ≤ n) : cumul G C m ≤ cumul G C n :=
  Finset.sum_le_sum_of_subset_of_nonneg (Finset.Ico_subset_Ico le_rfl h) (fun k _ _ => hG0 k)

theorem integral_cumul (hu : 0 < u) (hg : Cells u g G) (hG : ∀ k, ¬ (C ≤ k ∧ k < D) → G k = 0) (m : ℤ) :
    ∫ x in Set.Iio ((u : ℝ) * m), g x = ((u * cumul G C m : ℚ) : ℝ) := by
  have hu' : (0 : ℝ) < u := by exact_mod_cast hu
  rw [← integral_indicator measurableSet_Iio]
  have := cells_integral hu (h := (Set.Iio ((u : ℝ) * m)).indicator g) (H := fun k => if k < m then G k else 0)
    (A := C) (B := m) (fun k hk => by
      by_cases h : k < m
      · rw [if_pos h]; exact hG k (by omega)
      · rw [if_neg h]) (fun k x h1 h2 => by
      by_cases h : k < m
      · have hk : ((k : ℤ) : ℝ) + 1 ≤ m := by exact_mod_cast h
        have : x ∈ Set.Iio ((u : ℝ) * m) := by
          rw [Set.mem_Iio]
          nlinarith
        rw [Set.indicator_of_mem this, if_pos h, hg k x h1 h2]
      · have hk : ((m : ℤ) : ℝ) ≤ k := by exact_mod_cast not_lt.1 h
        have : x ∉ Set.Iio ((u : ℝ) * m) := by
          rw [Set.mem_Iio, not_lt]
          nlinarith
        rw [Set.indicator_of_notMem this, if_neg h]; simp)
  rw [this]
  congr 2
  exact Finset.sum_congr rfl (fun k hk => by rw [if_pos (Finset.mem_Ico.1 hk).2])

/-- The probability of `X' + Y' < m` for the points of the grid cumul `X` and `Y`. -/
noncomputable def gridProb (u : ℚ) (F G : ℤ → ℚ) (A B C m : ℤ) : ℚ := u * ∑ k ∈ Finset.Ico A B, F k * (u * cumul G C (m - k))

/-- The probability of `X + Y < z` on the grid. -/
theorem sumProb_between (hu : 0 < u) (hf : Cells u f F) (hg : Cells u g G) (hF : ∀ k, ¬ (A ≤ k ∧ k < B) → F k = 0)
    (hG : ∀ k, ¬ (C ≤ k ∧ k < D) → G k = 0) (hF0 : ∀ k, 0 ≤ F k) (hG0 : ∀ k, 0 ≤ G k) (m : ℤ) :
    (gridProb u F G A B C (m - 1) : ℝ) ≤ sumProb f g ((u : ℝ) * m) ∧
      sumProb f g ((u : ℝ) * m) ≤ (gridProb u F G A B C m : ℝ) := by
  have hu' : (0 : ℝ) < u := by exact_mod_cast hu
  have hgi : Integrable g := cells_integrable hu hG hg
  have hg0 : 0 ≤ᵐ[volume] g := by
    filter_upwards [cells_cover hu] with x hx
    obtain ⟨k, h1, h2⟩ := hx
    rw [hg k x h1 h2]
    have := hG0 k
    show (0 : ℝ) ≤ (G k : ℝ)
    exact_mod_cast this
  set P : ℝ → ℝ := fun t => ∫ x in Set.Iio t, g x with hP
  have hmono : Monotone P := fun s t hst =>
    setIntegral_mono_set hgi.integrableOn (ae_restrict_of_ae hg0) (Set.Iio_subset_Iio hst).eventuallyLE
  have hgrid : ∀ j : ℤ, P ((u : ℝ) * j) = ((u * cumul G C j : ℚ) : ℝ) := fun j => integral_cumul hu hg hG j
  -- bounds on one cell
  have hcell : ∀ (k : ℤ) (y : ℝ), (u : ℝ) * k < y → y < (u : ℝ) * k + u →
      ((u * cumul G C (m - 1 - k) : ℚ) : ℝ) ≤ P ((u : ℝ) * m - y) ∧
        P ((u : ℝ) * m - y) ≤ ((u * cumul G C (m - k) : ℚ) : ℝ) := by
    intro k y h1 h2
    rw [← hgrid, ← hgrid]
    constructor
    · apply hmono; push_cast; linarith
    · apply hmono; push_cast; linarith
  have hstep : ∀ n : ℤ, ∃ h : ℝ → ℝ, Cells u h (fun k => F k * (u * cumul G C (n - k))) := by
    intro n
    refine ⟨fun x => ((F ⌊x / u⌋ * (u * cumul G C (n - ⌊x / u⌋)) : ℚ) : ℝ), fun k x h1 h2 => ?_⟩
    have hfl : ⌊x / (u : ℝ)⌋ = k := by
      rw [Int.floor_eq_iff, le_div_iff₀ hu', div_lt_iff₀ hu']
      constructor <;> nlinarith
    simp only [hfl]
  have hz : ∀ n k : ℤ, ¬ (A ≤ k ∧ k < B) → F k * (u * cumul G C (n - k)) = 0 := fun n k hk => by
    rw [hF k hk, zero_mul]
  obtain ⟨lo, hlo⟩ := hstep (m - 1)
  obtain ⟨up, hup⟩ := hstep m
  have ilo := cells_integral hu (hz (m - 1)) hlo
  have iup := cells_integral hu (hz m) hup
  have nup := cells_integrable hu (hz m) hup
  have nlo := cells_integrable hu (hz (m - 1)) hlo
  have hlow : lo ≤ᵐ[volume] fun y => f y * P ((u : ℝ) * m - y) := by
    filter_upwards [cells_cover hu] with y hy
    obtain ⟨k, h1, h2⟩ := hy
    rw [hlo k y h1 h2, hf k y h1 h2, Rat.cast_mul]
    exact mul_le_mul_of_nonneg_left (hcell k y h1 h2).1 (by exact_mod_cast hF0 k)
  have hupp : (fun y => f y * P ((u : ℝ) * m - y)) ≤ᵐ[volume] up := by
    filter_upwards [cells_cover hu] with y hy
    obtain ⟨k, h1, h2⟩ := hy
    rw [hup k y h1 h2, hf k y h1 h2, Rat.cast_mul]
    exact mul_le_mul_of_nonneg_left (hcell k y h1 h2).2 (by exact_mod_cast hF0 k)
  have hnn : 0 ≤ᵐ[volume] fun y => f y * P ((u : ℝ) * m - y) := by
    filter_upwards [cells_cover hu] with y hy
    obtain ⟨k, h1, h2⟩ := hy
    rw [hf k y h1 h2]
    refine mul_nonneg (by exact_mod_cast hF0 k) (le_trans ?_ (hcell k y h1 h2).1)
    exact_mod_cast mul_nonneg hu.le (Finset.sum_nonneg (fun j _ => hG0 j))
  have hmeas : AEStronglyMeasurable (fun y => f y * P ((u : ℝ) * m - y)) volume := by
    refine (cells_integrable hu hF hf).aestronglyMeasurable.mul ?_
    have : Measurable fun y => P ((u : ℝ) * m - y) := hmono.measurable.comp (measurable_const.sub measurable_id)
    exact this.aestronglyMeasurable
  have hint : Integrable (fun y => f y * P ((u : ℝ) * m - y)) := by
    refine Integrable.mono' nup hmeas ?_
    filter_upwards [hnn, hupp] with y h1 h2
    rw [Real.norm_eq_abs, abs_of_nonneg h1]
    exact h2
  constructor
  · have := integral_mono_ae nlo hint hlow
    rw [ilo] at this
    exact this
  · have := integral_mono_ae hint nup hupp
    rw [iup] at this
    exact this

/-- The sum of the values of the discrete convolution. -/
theorem gridProb_discrete (hG : ∀ k, ¬ (C ≤ k ∧ k < D) → G k = 0) (m : ℤ) :
    u * ∑ n ∈ Finset.Ico (A + C) m, discrete u F G A B n = gridProb u F G A B C m := by
  unfold discrete gridProb cumul
  congr 1
  rw [← Finset.mul_sum, Finset.sum_comm, Finset.mul_sum]
  refine Finset.sum_congr rfl (fun k hk => ?_)
  rw [Finset.mem_Ico] at hk
  rw [← Finset.mul_sum]
  have : ∑ n ∈ Finset.Ico (A + C) m, G (n - k) = ∑ j ∈ Finset.Ico C (m - k), G j := by
    rw [← Finset.sum_subset (s₁ := Finset.Ico (C + k) m) (Finset.Ico_subset_Ico (by omega) le_rfl)]
    · refine Finset.sum_nbij' (fun n => n - k) (fun j => j + k) ?_ ?_ ?_ ?_ ?_
      · intro n hn; rw [Finset.mem_Ico] at hn ⊢; omega
      · intro n hn; rw [Finset.mem_Ico] at hn ⊢; omega
      · intro n _; ring
      · intro n _; ring
      · intro n _; rfl
    · intro n hn hn'
      rw [Finset.mem_Ico] at hn hn'
      exact hG _ (by omega)
  rw [this]
  ring

end Verif.Num
