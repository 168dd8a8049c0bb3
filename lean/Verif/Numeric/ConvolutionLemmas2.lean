import Verif.Numeric.ConvolutionLemmas
import Verif.Functions.Props
import Verif.Numeric.ConvolutionSpec
import Mathlib.MeasureTheory.Integral.Bochner.Set
import Mathlib.MeasureTheory.Measure.Lebesgue.Basic

/-!
# The area under a step function on a grid
-/

namespace Verif.Fun.PF

open Iv Iv.FP Iv.CS MeasureTheory

variable {val : ℤ → ℚ} {u : ℚ}

theorem cell_mem (hval : ∀ n, val n = u * n) (hu : 0 < u) {i : CS} (hi : i.HalfOpen) {k : ℤ} {x : ℝ}
    (h1 : (u : ℝ) * k < x) (h2 : x < (u : ℝ) * k + u) : x ∈ span val i ↔ i.Mem (fin k) := by
  have hu' : (0 : ℝ) < u := by exact_mod_cast hu
  have key : ∀ n : ℤ, ((val n : ℚ) : ℝ) ≤ x ↔ n ≤ k := by
    intro n
    rw [hval]
    push_cast
    constructor
    · intro h
      have : (u : ℝ) * n < u * (k + 1) := by linarith
      have := lt_of_mul_lt_mul_left this hu'.le
      have : n < k + 1 := by exact_mod_cast this
      omega
    · intro h
      have : (n : ℝ) ≤ k := by exact_mod_cast h
      have := mul_le_mul_of_nonneg_left this hu'.le
      linarith
  rw [hi.mem_iff]
  obtain ⟨l, r, a, b⟩ := i
  simp only [span, Set.mem_ofPred_eq]
  have key2 : ∀ n : ℤ, x < ((val n : ℚ) : ℝ) ↔ k < n := fun n => by rw [← not_le, key, not_le]
  cases l <;> cases r <;> simp [key, key2, FP.le_def, FP.lt_def, leb]

theorem real_of {F : ℚ} {x : ℝ} : ∀ {p : PF}, (∀ s ∈ p, x ∈ span val s.1 → s.2 = .const F) →
    (∃ s ∈ p, x ∈ span val s.1) → PF.real val p x = F
  | [], _, h => by obtain ⟨s, hs, -⟩ := h; simp at hs
  | s :: p, h1, h2 => by
    classical
    simp only [PF.real]
    by_cases h : x ∈ span val s.1
    · rw [if_pos h, h1 s (by simp) h]; rfl
    · rw [if_neg h]
      refine real_of (p := p) (fun t ht => h1 t (by simp [ht])) ?_
      obtain ⟨t, ht, hx⟩ := h2
      rcases List.mem_cons.1 ht with rfl | ht
      · exact absurd hx h
      · exact ⟨t, ht, hx⟩

/-- A step function between two floats. -/
theorem IsStep.real {p : PF} {F : ℤ → ℚ} (h : IsStep p F) (hval : ∀ n, val n = u * n) (hu : 0 < u) {k : ℤ} {x : ℝ}
    (h1 : (u : ℝ) * k < x) (h2 : x < (u : ℝ) * k + u) : PF.real val p x = F k := by
  refine real_of (p := p) (fun s hs hx => ?_) ?_
  · exact h.eq hs ((cell_mem hval hu (h.ho s hs) h1 h2).1 hx)
  · obtain ⟨s, hs, hm, -⟩ := h.val k
    exact ⟨s, hs, (cell_mem hval hu (h.ho s hs) h1 h2).2 hm⟩

/-- Almost every number lies between two neighbouring points of the grid. -/
theorem cells_cover (hu : 0 < u) : ∀ᵐ x : ℝ, ∃ k : ℤ, (u : ℝ) * k < x ∧ x < (u : ℝ) * k + u := by
  have hu' : (0 : ℝ) < u := by exact_mod_cast hu
  have hc : (Set.range (fun k : ℤ => (u : ℝ) * k)).Countable := Set.countable_range _
  have hz : ∀ᵐ x : ℝ, x ∉ Set.range (fun k : ℤ => (u : ℝ) * k) := hc.ae_notMem volume
  filter_upwards [hz] with x hx
  set k := ⌊x / u⌋ with hk
  have e1 : (u : ℝ) * k ≤ x := by
    have := Int.floor_le (x / u)
    rw [← hk, le_div_iff₀ hu'] at this
    linarith
  have e2 : x < (u : ℝ) * k + u := by
    have := Int.lt_floor_add_one (x / u)
    rw [← hk, div_lt_iff₀ hu'] at this
    linarith
  exact ⟨k, lt_of_le_of_ne e1 (fun e => hx ⟨k, e⟩), e2⟩

theorem cells_ae (hu : 0 < u) {h : ℝ → ℝ} {H : ℤ → ℚ} {A B : ℤ}
    (hH : ∀ k, ¬ (A ≤ k ∧ k < B) → H k = 0)
    (hh : ∀ (k : ℤ) (x : ℝ), (u : ℝ) * k < x → x < (u : ℝ) * k + u → h x = H k) :
    h =ᵐ[volume] fun x => ∑ k ∈ Finset.Ico A B,
      Set.indicator (Set.Ioo ((u : ℝ) * k) (u * k + u)) (fun _ => (H k : ℝ)) x := by
  have hu' : (0 : ℝ) < u := by exact_mod_cast hu
  filter_upwards [cells_cover hu] with x hx
  obtain ⟨k, e3, e2⟩ := hx
  have e4 : ∀ j : ℤ, j ≠ k → x ∉ Set.Ioo ((u : ℝ) * j) (u * j + u) := by
    rintro j hj ⟨h1, h2⟩
    apply hj
    have a1 : (u : ℝ) * j < u * (k + 1) := by linarith
    have a2 : (u : ℝ) * k < u * (j + 1) := by linarith
    have a3 := lt_of_mul_lt_mul_left a1 hu'.le
    have a4 := lt_of_mul_lt_mul_left a2 hu'.le
    have a5 : j < k + 1 := by exact_mod_cast a3
    have a6 : k < j + 1 := by exact_mod_cast a4
    omega
  rw [hh k x e3 e2]
  by_cases hr : k ∈ Finset.Ico A B
  · rw [Finset.sum_eq_single_of_mem k hr (fun j _ hj => Set.indicator_of_notMem (e4 j hj) _),
      Set.indicator_of_mem (show x ∈ Set.Ioo ((u : ℝ) * k) (u * k + u) from ⟨e3, e2⟩)]
  · rw [Finset.sum_eq_zero (fun j hj => Set.indicator_of_notMem (e4 j (fun e => hr (e ▸ hj))) _)]
    rw [hH k (by simpa using hr)]
    simp

theorem cells_integrable (hu : 0 < u) {h : ℝ → ℝ} {H : ℤ → ℚ} {A B : ℤ}
    (hH : ∀ k, ¬ (A ≤ k ∧ k < B) → H k = 0)
    (hh : ∀ (k : ℤ) (x : ℝ), (u : ℝ) * k < x → x < (u : ℝ) * k + u → h x = H k) : Integrable h := by
  refine Integrable.congr (integrable_finsetSum _ (fun k _ => ?_)) (cells_ae hu hH hh).symm
  rw [integrable_indicator_iff measurableSet_Ioo]
  exact integrableOn_const (by simp)

/-- The integral of a function that is constant between two neighbouring points of the grid. -/
theorem cells_integral (hu : 0 < u) {h : ℝ → ℝ} {H : ℤ → ℚ} {A B : ℤ}
    (hH : ∀ k, ¬ (A ≤ k ∧ k < B) → H k = 0)
    (hh : ∀ (k : ℤ) (x : ℝ), (u : ℝ) * k < x → x < (u : ℝ) * k + u → h x = H k) :
    ∫ x, h x = ((u * ∑ k ∈ Finset.Ico A B, H k : ℚ) : ℝ) := by
  have hu' : (0 : ℝ) < u := by exact_mod_cast hu
  rw [integral_congr_ae (cells_ae hu hH hh), integral_finsetSum]
  · push_cast
    rw [Finset.mul_sum]
    refine Finset.sum_congr rfl (fun k _ => ?_)
    rw [integral_indicator_const _ measurableSet_Ioo]
    simp [Measure.real, hu'.le]
  · intro k _
    rw [integrable_indicator_iff measurableSet_Ioo]
    exact integrableOn_const (by simp)

/-- The sum `u · Σ F(k) G(m - k)`. -/
noncomputable def discrete (u : ℚ) (F G : ℤ → ℚ) (A B m : ℤ) : ℚ := u * ∑ k ∈ Finset.Ico A B, F k * G (m - k)

/-- `(f * g).integrate()` for two step functions, of which the first one has a bounded support. -/
theorem overlap_step (hval : ∀ n, val n = u * n) (hu : 0 < u) {f g : PF} {F G : ℤ → ℚ} (hf : IsStep f F)
    (hg : IsStep g G) {A B : ℤ} (hF : ∀ k, ¬ (A ≤ k ∧ k < B) → F k = 0) :
    overlap val f g = .ok (u * ∑ k ∈ Finset.Ico A B, F k * G k) := by
  obtain ⟨r, hr, hs⟩ := hf.times hg
  have hmono : StrictMono val := by
    intro a b hab
    rw [hval, hval]
    have : (a : ℚ) < b := by exact_mod_cast hab
    exact mul_lt_mul_of_pos_left this hu
  have hR : CS.allnumbers.HalfOpen := by decide +kernel
  obtain ⟨q, h1, h2⟩ := C17_area_partial hmono hs.ho hs.disj (fun s hs' => by
    obtain ⟨c, hc⟩ := hs.fns s hs'
    exact ⟨0, c, .inr hc⟩) hR (fun s hs' h => by
    have : ∃ n, s.1.Mem (fin n) ∧ ¬ (A ≤ n ∧ n < B) := by
      obtain ⟨m, hm⟩ := ho_mem (hs.ho s hs')
      rw [(hs.ho s hs').mem_iff] at hm
      rcases h with ⟨-, h⟩ | ⟨-, h⟩
      · refine ⟨min m (A - 1), ?_, by omega⟩
        rw [(hs.ho s hs').mem_iff, h]
        refine ⟨by simp [FP.le_def, leb], lt_of_le_of_lt ?_ hm.2⟩
        rw [fin_le]; omega
      · refine ⟨max m B, ?_, by omega⟩
        rw [(hs.ho s hs').mem_iff, h]
        refine ⟨le_trans hm.1 ?_, by simp [FP.lt_def, leb]⟩
        rw [fin_le]; omega
    obtain ⟨n, hn, hn'⟩ := this
    rw [hs.eq hs' hn, hF n hn', zero_mul])
  have hspan : span val CS.allnumbers = Set.univ := by
    ext x; simp [span, CS.allnumbers]
  rw [hspan, setIntegral_univ, cells_integral hu (H := fun k => F k * G k) (A := A) (B := B)
    (fun k hk => by rw [hF k hk, zero_mul]) (fun k x hx1 hx2 => hs.real hval hu hx1 hx2)] at h2
  have : q = u * ∑ k ∈ Finset.Ico A B, F k * G k := by exact_mod_cast h2
  rw [← this]
  simp only [overlap, bind, Except.bind, hr, h1]

/-- The convolution of two step functions at a float. -/
theorem conv_step (hval : ∀ n, val n = u * n) (hu : 0 < u) {f g : PF} {F G : ℤ → ℚ} (hf : IsStep f F)
    (hg : IsStep g G) {A B : ℤ} (hF : ∀ k, ¬ (A ≤ k ∧ k < B) → F k = 0) (n : ℤ) :
    conv (PF.real val f) (PF.real val g) (val n) = (discrete u F G A B (n - 1) : ℚ) := by
  unfold conv discrete
  refine cells_integral hu (H := fun k => F k * G (n - 1 - k)) (fun k hk => by rw [hF k hk, zero_mul]) (fun k x h1 h2 => ?_)
  rw [hf.real hval hu h1 h2, hg.real hval hu (k := n - 1 - k)]
  · push_cast; rfl
  · rw [hval]; push_cast; linarith
  · rw [hval]; push_cast; linarith

end Verif.Fun.PF
