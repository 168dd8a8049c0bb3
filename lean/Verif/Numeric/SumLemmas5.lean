import Verif.Numeric.SumLemmas4
import Verif.Numeric.Props18

/-!
# The distance between the computed and the true sum
-/

namespace Verif.Num

open Iv Iv.FP Fun Fun.PF

variable {val : ℤ → ℚ} {u : ℚ}

theorem cumul_step {F : ℤ → ℚ} {a : ℤ} (h : ∀ j, j < a → F j = 0) (n : ℤ) : cumul F a (n + 1) - cumul F a n = F n := by
  rcases lt_or_ge n a with hn | hn
  · rw [cumul_empty (by omega), cumul_empty (by omega), h n hn, sub_zero]
  · rw [cumul_split hn (by omega : n ≤ n + 1), cumul_const (F := F) (a := n) (v := F n) (by omega) (fun j h1 h2 => by
      rw [show j = n by omega])]
    push_cast
    ring

/-- Values that do not differ by more than `E`, and only between `lo` and `hi`. -/
theorem cumul_close {F G : ℤ → ℚ} {a n lo hi : ℤ} {E : ℚ} (hlh : lo ≤ hi) (h : ∀ j, |F j - G j| ≤ E)
    (hF : ∀ j, ¬ (lo ≤ j ∧ j < hi) → F j = 0) (hG : ∀ j, ¬ (lo ≤ j ∧ j < hi) → G j = 0) :
    |cumul F a n - cumul G a n| ≤ (hi - lo) * E := by
  have h1 : cumul F a n - cumul G a n = ∑ j ∈ Finset.Ico a n, (F j - G j) := by
    unfold cumul; rw [Finset.sum_sub_distrib]
  have h2 : ∑ j ∈ Finset.Ico a n, |F j - G j| ≤ ∑ j ∈ Finset.Ico lo hi, |F j - G j| := by
    have : ∑ j ∈ Finset.Ico a n, |F j - G j| = ∑ j ∈ (Finset.Ico a n).filter (fun j => lo ≤ j ∧ j < hi), |F j - G j| := by
      rw [Finset.sum_filter]
      refine Finset.sum_congr rfl (fun j _ => ?_)
      split
      · rfl
      · rename_i hj; rw [hF j hj, hG j hj]; simp
    rw [this]
    refine Finset.sum_le_sum_of_subset_of_nonneg (fun j hj => ?_) (fun j _ _ => abs_nonneg _)
    rw [Finset.mem_filter] at hj
    exact Finset.mem_Ico.2 hj.2
  have h3 : ∑ j ∈ Finset.Ico lo hi, |F j - G j| ≤ cumul (fun _ => E) lo hi := Finset.sum_le_sum (fun j _ => h j)
  rw [cumul_const (v := E) hlh (fun _ _ _ => rfl)] at h3
  rw [h1]
  exact le_trans (Finset.abs_sum_le_sum_abs _ _) (le_trans h2 h3)

/-- The area under a bump. -/
theorem areaAll_cumul (hval : ∀ n, val n = u * n) {K : List (ℤ × ℚ)} (hK : IsBump K) {lo hi : ℤ}
    (hl : ∀ k ∈ K.map Prod.fst, lo ≤ k ∧ k ≤ hi) (h0 : ∀ k, ¬ (lo ≤ k ∧ k < hi) → PF.stepAt 0 K k = 0) :
    areaAll val K = u * cumul (PF.stepAt 0 K) lo hi := by
  rw [← area_end (n := hi) K hK.1 (fun s hs => (hl _ (List.mem_map_of_mem hs)).2),
    area_step hval hK (a := lo) (fun j hj => h0 j (by omega))]

theorem gridProb_all {F G : ℤ → ℚ} {A B C D m : ℤ} (hCD : C ≤ D) (hG : ∀ k, ¬ (C ≤ k ∧ k < D) → G k = 0) (hm : B + D ≤ m + 1) :
    gridProb u F G A B C m = (u * cumul F A B) * (u * cumul G C D) := by
  unfold gridProb
  have : ∀ k ∈ Finset.Ico A B, F k * (u * cumul G C (m - k)) = F k * (u * cumul G C D) := fun k hk => by
    rw [Finset.mem_Ico] at hk
    congr 2
    rw [cumul_split hCD (by omega : D ≤ m - k), cumul_const (F := G) (a := D) (v := 0) (by omega) (fun j h1 _ => hG j (by omega)),
      mul_zero, add_zero]
  rw [Finset.sum_congr rfl this, ← Finset.sum_mul]
  unfold cumul
  ring

theorem gridProb_pred {F G : ℤ → ℚ} {A B C D m : ℤ}
    (hG : ∀ k, ¬ (C ≤ k ∧ k < D) → G k = 0) :
    gridProb u F G A B C (m - 1) = u * cumul (fun n => discrete u F G A B (n - 1)) (A + C - 1) m := by
  rw [← gridProb_discrete hG]
  congr 1
  rw [cumul_shift (b := A + C + 1)]
  · unfold cumul
    refine Finset.sum_nbij' (fun n => n + 1) (fun n => n - 1) ?_ ?_ ?_ ?_ ?_
    · intro n hn; rw [Finset.mem_Ico] at hn ⊢; omega
    · intro n hn; rw [Finset.mem_Ico] at hn ⊢; omega
    · intro n _; ring
    · intro n _; ring
    · intro n _; simp
  all_goals
    intro j hj
    unfold discrete
    rw [Finset.sum_eq_zero, mul_zero]
    intro k hk
    rw [Finset.mem_Ico] at hk
    rw [hG _ (by omega), mul_zero]

theorem stepAt_nonneg : ∀ {L : List (ℤ × ℚ)} {p : ℚ} {n : ℤ}, 0 ≤ p → (∀ s ∈ L, 0 ≤ s.2) → 0 ≤ PF.stepAt p L n
  | [], _, _, h, _ => h
  | (k, v) :: r, p, n, h, h' => by
    simp only [PF.stepAt]
    split
    · exact h
    · exact stepAt_nonneg (h' (k, v) (by simp)) (fun s hs => h' s (by simp [hs]))

/-- What the computed convolution of two nonnegative bumps is, in terms of its values `W`. -/
theorem convolution_values (hval : ∀ n, val n = u * n) (hu : 0 < u) {Lf Lg : List (ℤ × ℚ)} (hf : IsBump Lf) (hg : IsBump Lg)
    (h2 : 2 ≤ Lf.length) (nf : ¬ Narrow Lf) (ng : ¬ Narrow Lg) (pf : ∀ s ∈ Lf, 0 ≤ s.2) (pg : ∀ s ∈ Lg, 0 ≤ s.2) {M : ℚ}
    (hM : ∀ s ∈ Lf, s.2 ≤ M) {A B C D : ℤ}
    (fr : ∀ k ∈ Lf.map Prod.fst, A ≤ k ∧ k ≤ B)
    (f0 : ∀ k, ¬ (A ≤ k ∧ k < B) → PF.stepAt 0 Lf k = 0)
    (gr : ∀ k ∈ Lg.map Prod.fst, C ≤ k ∧ k ≤ D) :
    ∃ (r : PF) (W : ℤ → ℚ), convolution val (stepFn Lf) (stepFn Lg) = .ok r ∧
      r.Pairwise (fun s t => RS.Before s.1 t.1) ∧ (∀ s ∈ r, s.1.HalfOpen ∧ Plain s.2) ∧
      (∀ n, r.eval val n = .ok (some (W n))) ∧ (∀ n, ¬ (A + C ≤ n ∧ n < B + D) → W n = 0) ∧ (∀ n, 0 ≤ W n) ∧
      ∀ n, |W n - discrete u (PF.stepAt 0 Lf) (PF.stepAt 0 Lg) A B (n - 1)| ≤ u * M * variation 0 Lg := by
  have hmono : StrictMono val := by
    intro a b hab
    rw [hval, hval]
    have : (a : ℚ) < b := by exact_mod_cast hab
    exact mul_lt_mul_of_pos_left this hu
  obtain ⟨A', B', l, r, hF, hr, hd, hs, hm, hv, hsort, hpl⟩ := convolution_spec hval hu hf hg h2 nf ng
  obtain ⟨r', hr', c1, -, c3⟩ := C96_convolution_partial hval hu hf hg h2 nf ng (M := M)
    (fun s hs => by rw [abs_of_nonneg (pf s hs)]; exact hM s hs)
  rw [hr] at hr'
  cases hr'
  choose W hW1 hW2 using hv
  refine ⟨r, W, hr, hsort, hpl, hW1, fun n hn => ?_, fun n => ?_, fun n => ?_⟩
  · have : r.eval val n = .ok (some 0) := c3 n (by
      by_cases h : A + C ≤ n
      · right
        intro a ha b hb
        have := (fr _ (List.mem_map_of_mem ha)).2
        have := (gr _ (List.mem_map_of_mem hb)).2
        omega
      · left
        intro a ha b hb
        have := (fr _ (List.mem_map_of_mem ha)).1
        have := (gr _ (List.mem_map_of_mem hb)).1
        omega)
    rw [hW1] at this
    simpa using this
  · have hD : ∀ m, 0 ≤ discrete u (PF.stepAt 0 Lf) (PF.stepAt 0 Lg) A' B' m := fun m =>
      mul_nonneg hu.le (Finset.sum_nonneg (fun k _ => mul_nonneg (stepAt_nonneg le_rfl pf) (stepAt_nonneg le_rfl pg)))
    rcases hW2 n with ⟨pre, p, q, post, e, h3, h4, h5⟩ | ⟨-, h⟩
    · obtain ⟨pre', t', e1, rfl, e2⟩ := List.map_eq_append_iff.1 e
      obtain ⟨s1, t1, rfl, rfl, e3⟩ := List.map_eq_cons_iff.1 e2
      obtain ⟨s2, t2, rfl, rfl, -⟩ := List.map_eq_cons_iff.1 e3
      simp only at h3 h4 h5
      have hs12 : s1 < s2 := by
        rw [e1] at hs
        exact (List.pairwise_cons.1 (List.pairwise_append.1 hs).2.1).1 s2 (by simp)
      have k1 := hD s1
      have k2 := hD s2
      have k3 : 0 < val s2 - val s1 := sub_pos.2 (hmono hs12)
      have k4 : 0 ≤ val n - val s1 := sub_nonneg.2 (hmono.monotone h3)
      have k5 : 0 ≤ val s2 - val n := sub_nonneg.2 (hmono.monotone h4)
      by_contra hneg
      rw [not_le] at hneg
      have : W n * (val s2 - val s1) < 0 := mul_neg_of_neg_of_pos hneg k3
      nlinarith [mul_nonneg k1 k5, mul_nonneg k2 k4]
    · rw [h]
  · obtain ⟨w, e, hw⟩ := c1 n
    rw [hW1] at e
    simp only [Except.ok.injEq, Option.some.injEq] at e
    subst e
    rw [conv_step hval hu (stepFn_isStep hf.1) (stepFn_isStep hg.1) f0 n] at hw
    exact_mod_cast hw

end Verif.Num
