import Verif.Numeric.CropLemmas9
import Verif.Numeric.QueryLemmas3
import Verif.Numeric.MergeTotal

/-! # Cropped fitted cdfs are again cdfs over a range of floats -/

namespace Verif.Num

open Iv Iv.FP Fun

theorem rises_lin {f : Fn} (h : IsLin f ∧ IsPl f) : 0 < sl f ∧ Simple f := by
  cases f with
  | lin m c => exact ⟨h.2, simple_lin m c⟩
  | const v => cases h.1
  | undef => cases h.1
  | quad p q r => cases h.1

/-- A cdf that is given by its linear pieces. -/
theorem span_of {val : ℤ → ℚ} {S : List (ℤ × Fn)} {x b : ℤ} {g : Fn} {G : ℤ → ℚ}
    (hS : ∀ s ∈ (x, g) :: S, IsLin s.2 ∧ IsPl s.2)
    (hev : ∀ n, (tile ninf (.const 0) ((x, g) :: S ++ [(b, .const 1)]) pinf).eval val n = .ok (some (G n)))
    (hxb : x < b - 1) (hmono : Monotone G) (hone : ∀ n, b ≤ n → G n = 1) (hlow : G x < G (b - 1)) :
    SpanCdf val (tile ninf (.const 0) ((x, g) :: S ++ [(b, .const 1)]) pinf) x (b - 1) G := by
  refine ⟨hxb, ?_, ?_, ⟨_, rfl⟩, ?_, hmono, ?_, fun n hn => hone n (by omega), hlow⟩
  · refine pdf_eq (tile_simple (simple_const _) ?_) ?_
    · intro s hs
      rcases List.mem_append.1 hs with hs | hs
      · exact (rises_lin (hS s hs)).2
      · simp only [List.mem_singleton] at hs; rw [hs]; exact simple_const _
    · rw [tile_length]; simp
  · have hg := (rises_lin (hS (x, g) (by simp))).1
    have := gtZero_tail (l := fin x) (z := b) (v := 1) (S := S) (lo := fin x) (f := g) hg
      (fun s hs => (rises_lin (hS s (by simp [hs]))).1)
    rw [show b - 1 + 1 = b by omega]
    simp only [List.cons_append, tile, densOf, List.map, gtZero]
    have h0 : (XQ.fin (sl (.const 0))).le (.fin 0) = true := by simp [sl, XQ.le]
    rw [if_pos h0]
    cases hL : S ++ [(b, Fn.const 1)] with
    | nil => simp at hL
    | cons t L =>
      have hpos := (pos_iff _).2 hg
      rw [hL] at this
      simp only [tile, List.map, gtZero, densOf, hpos, Bool.false_eq_true, if_false] at this ⊢
      exact this
  · intro n
    have h1 := hev n
    rw [tile_eval] at h1
    rw [cdfAt, tile_at (by simp [FP.le_def, leb]) (by simp [FP.lt_def, leb])]
    simp only [Except.ok.injEq] at h1
    simp only [evalFP, h1]
  · intro n hn
    have h1 := hev n
    rw [tile_eval] at h1
    simp only [List.cons_append, tileAt, if_pos hn, Fn.eval, Except.ok.injEq, Option.some.injEq] at h1
    exact h1.symm

/-- Cropping a fitted cdf to an interval that includes its upper bound. -/
theorem crop_span {val : ℤ → ℚ} (hval : StrictMono val) {pts : List (ℤ × ℚ)} {p : PF} {F : ℤ → ℚ} {lo hi : ℤ}
    {r0 : ℚ} (hshape : p = tile ninf (.const 0) (segs val pts ++ [(hi + 1, .const 1)]) pinf)
    (heval : ∀ n, p.eval val n = .ok (some (F n))) (hr : Rising pts) (hlen : 2 ≤ pts.length)
    (hhead : pts.head? = some (lo, r0)) (hlast : pts.getLast? = some (hi, 1)) (hmono : Monotone F) {I : CS} {b : ℤ}
    (hb : I.uppermost = fin b) (hupper : I.upper ≠ pinf) (hbhi : b ≤ hi) (hr0 : I.Mem (fin (lo - 1)) → r0 = 0)
    (hsize : ∀ q ∈ pts, q.1 ≠ lo → I.Mem (fin q.1) → I.Mem (fin (q.1 - 1)) →
      I.Mem (fin (q.1 - 2)) ∧ ∀ t ∈ pts, t.1 ≠ q.1 - 1)
    {y0 : ℚ} (hy0 : LowEnd F I y0) (hm : I.Mem (fin (b - 1))) (hy : y0 < F (b - 1)) :
    ∃ (p' : PF) (lo' : ℤ) (G : ℤ → ℚ), crop val p I = .ok p' ∧ SpanCdf val p' lo' (b - 1) G ∧ Mergeable p' ∧
      (∀ t ∈ p', Storable t) ∧ Conditioned F I y0 (F b) G ∧ G lo' = 0 := by
  have hmem := mem_fin_iff.1 hm
  have hmb : I.Mem (fin b) := mem_fin_iff.2 ⟨hmem.1.trans (by simp [FP.le_def, leb]), by rw [hb]⟩
  have htop : ∀ n, I.Mem (fin n) → n ≤ b := by
    intro n hn
    have := (mem_fin_iff.1 hn).2
    rw [hb] at this
    simpa [FP.le_def, leb] using this
  have hyb : y0 < F b := hy.trans_le (hmono (by omega))
  obtain ⟨R, G, hk, -, hpl, hrise, hcrop, hev, hcond⟩ := crop_fit_tile hval hshape heval hr hlen hhead hlast
    (fun n hn => (htop n hn).trans hbhi) hr0 hsize hy0 (.inr ⟨b, hmb, htop, rfl⟩) hyb hm
  obtain ⟨S, rfl, hS, hhd⟩ := hrise b hb
  have hd : 0 < F b - y0 := by linarith
  have hG1 : G (b - 1) = (F (b - 1) - y0) / (F b - y0) := hcond.inside _ hm
  have hpos : 0 < G (b - 1) := by rw [hG1]; exact div_pos (by linarith) hd
  have hone : ∀ n, b ≤ n → G n = 1 := fun n hn => hcond.above n hupper (fun m hm => (htop m hm).trans hn)
  -- the values at the lower end
  have hge : ∀ n, I.Mem (fin n) → y0 ≤ F n := by
    intro n hn
    rcases hy0 with ⟨-, rfl⟩ | ⟨a, -, ha, rfl⟩
    · have h0 : F (min n (lo - 1)) = 0 := by
        have h1 := heval (min n (lo - 1))
        rw [hshape, tile_eval, tileAt_segs_before] at h1
        · simpa [Fn.eval] using h1.symm
        · intro q hq
          have : lo ≤ q.1 := by
            obtain ⟨j, hj⟩ := List.getElem?_of_mem hq
            rw [List.head?_eq_getElem?] at hhead
            rcases Nat.eq_zero_or_pos j with rfl | hj0
            · rw [hhead] at hj; cases hj; exact le_rfl
            · obtain ⟨h1, e1⟩ := List.getElem?_eq_some_iff.1 hhead
              obtain ⟨h2, e2⟩ := List.getElem?_eq_some_iff.1 hj
              have := (List.pairwise_iff_getElem.1 hr 0 j h1 h2 hj0).1
              rw [e1, e2] at this
              exact this.le
          omega
        · exact hlen
      rw [← h0]
      exact hmono (min_le_left _ _)
    · exact hmono (ha n hn)
  have hcases : ∀ n, (∀ m, I.Mem (fin m) → n < m) ∨ I.Mem (fin n) ∨ b ≤ n := by
    intro n
    by_cases h1 : I.lowermost ≤ fin n
    · rcases le_or_gt b n with h2 | h2
      · exact .inr (.inr h2)
      · exact .inr (.inl (mem_fin_iff.2 ⟨h1, by rw [hb]; simp [FP.le_def, leb]; omega⟩))
    · left
      intro m hm
      have := (mem_fin_iff.1 hm).1
      have h3 := (not_le.1 h1).trans_le this
      simpa [FP.lt_def, leb] using h3
  have hGmono : Monotone G := by
    intro n n' hn
    have hdiv : ∀ k, I.Mem (fin k) → 0 ≤ G k ∧ G k ≤ 1 := by
      intro k hk
      rw [hcond.inside k hk]
      refine ⟨div_nonneg (by linarith [hge k hk]) hd.le, (div_le_one hd).2 ?_⟩
      linarith [hmono (htop k hk)]
    rcases hcases n with h1 | h1 | h1
    · rw [hcond.below n h1]
      rcases hcases n' with h2 | h2 | h2
      · rw [hcond.below n' h2]
      · exact (hdiv n' h2).1
      · rw [hone n' h2]; norm_num
    · rcases hcases n' with h2 | h2 | h2
      · have := h2 n h1; omega
      · rw [hcond.inside n h1, hcond.inside n' h2]
        exact div_le_div_of_nonneg_right (by linarith [hmono hn]) hd.le
      · rw [hone n' h2]; exact (hdiv n h1).2
    · rw [hone n h1, hone n' (by omega)]
  cases S with
  | nil =>
    exfalso
    have h1 := hev (b - 1)
    rw [tile_eval] at h1
    simp [tileAt, Fn.eval] at h1
    rw [← h1] at hpos
    exact lt_irrefl _ hpos
  | cons s S =>
    obtain ⟨x, g⟩ := s
    have hg0 := hhd (x, g) (by simp)
    have hk' := List.pairwise_cons.1 hk
    have hxb : x < b := hk'.1 (b, .const 1) (by simp)
    have hGx : G x = 0 := by
      have h1 := hev x
      have h2 : tileAt (.const 0) ((x, g) :: S ++ [(b, .const 1)]) x = g := by
        simp only [List.cons_append, tileAt, lt_irrefl, if_false]
        exact tileAt_before hk'.1
      rw [tile_eval, h2, (hS (x, g) (by simp)).2.eval, hg0] at h1
      simpa using h1.symm
    have hx1 : x < b - 1 := by
      by_contra hc
      rw [show x = b - 1 by omega] at hGx
      linarith
    refine ⟨_, x, G, hcrop, span_of hS hev hx1 hGmono hone (by rw [hGx]; exact hpos), ?_, ?_, hcond, hGx⟩
    · refine mergeable_tile hk (fun s hs => ?_) ⟨1, lastOf_append _ _ _ _⟩
      rcases List.mem_append.1 hs with hs | hs
      · exact (hS s hs).2
      · simp only [List.mem_singleton] at hs; subst hs; trivial
    · refine tile_storable hk (fun s hs => ?_) (simple_const _) (fun s _ => by simp [FP.le_def, leb])
      rcases List.mem_append.1 hs with hs | hs
      · exact (rises_lin (hS s hs)).2
      · simp only [List.mem_singleton] at hs; subst hs; exact simple_const _

end Verif.Num
