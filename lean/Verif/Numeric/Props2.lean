import Verif.Numeric.PpfLemmas
import Verif.Numeric.Props

/-!
# Properties of the quantile function

C36 (`ppf` inverts `cdf`).

`val n` is the number of the `n`-th finite float, `ope` is `np.nextafter(1, 2)`.
-/

namespace Verif.Num

open Iv Iv.FP Fun

/-! ## C36 -/

/-- The quantile function of a distribution fitted to any sample with at least two different values:
the quantile of the cdf value of a float between the least and the greatest sample is that float; for
every `q` from the cdf value of the least sample to 1 the point `(ppf(q), q)` lies on the graph of the
cdf; it increases strictly; and outside of 0 to 1 it is NaN.

Partial: the hypothesis `hsteep`, a density of at least 1e-4 between any two samples, cannot be
dropped (`C36_violated_flat`), nor can the lower bound for `q` (`C36_violated_duplicate_minimum`), nor
the assumption that there are two different values (`C36_violated_single_value`). -/
theorem C36_inverse_partial {val : ℤ → ℚ} (hval : StrictMono val) (eps : ℚ) {ope : ℚ} (hope : 1 < ope)
    (data : List ℤ) (leftmost rightmost : Option ℤ) (hl : ∀ v ∈ leftmost, ∀ x ∈ data, v < x)
    (hr : ∀ v ∈ rightmost, ∀ x ∈ data, x < v) {lo hi : ℤ}
    (hlo : lo ∈ sample data leftmost rightmost) (hhi : hi ∈ sample data leftmost rightmost)
    (hlt : lo < hi) (hmin : ∀ x ∈ sample data leftmost rightmost, lo ≤ x)
    (hmax : ∀ x ∈ sample data leftmost rightmost, x ≤ hi)
    (hsteep : ∀ a ∈ sample data leftmost rightmost, ∀ b ∈ sample data leftmost rightmost, a < b →
      1 / 10000 * (val b - val a) ≤
        rank (sample data leftmost rightmost) b - rank (sample data leftmost rightmost) a) :
    ∃ (p : PF) (F : ℤ → ℚ) (Q : List PPiece), fit val eps data leftmost rightmost = .ok p ∧
      (∀ n, p.eval val n = .ok (some (F n))) ∧ ppf val ope p = .ok Q ∧
      (∀ n, lo ≤ n → n ≤ hi → ppfEval Q (F n) = some (val n)) ∧
      (∃ K, RunsFromTo K lo hi ∧ StraightBetween val K F ∧
        ∀ q, F lo ≤ q → q ≤ 1 → ∃ x, ppfEval Q q = some x ∧ OnGraph val K F x q) ∧
      (∀ q r x y, 0 ≤ q → q < r → r ≤ 1 → ppfEval Q q = some x → ppfEval Q r = some y → x < y) ∧
      (∀ q, q < 0 ∨ ope ≤ q → ppfEval Q q = none) := by
  have hs : loadBuffer data leftmost rightmost = .ok (sample data leftmost rightmost) :=
    loadBuffer_ok hl hr
  obtain ⟨pts, p, F, hp, hshape, heval, hthr, hrise, hlen, hhead, hlast, hpts⟩ :=
    fit_spec hval (eps := eps) hs hlo hhi hlt hmin hmax
  have h2 := length_two hlo hhi (by omega)
  have h0 : 0 ≤ rank (sample data leftmost rightmost) lo := rank_nonneg hlo h2
  have hst : Steep val pts := by
    intro i a b ha hb
    have hab := rising_get hrise ha hb
    have hv : 0 < val b.1 - val a.1 := sub_pos.2 (hval hab.1)
    have h3 := hpts a (List.mem_of_getElem? ha)
    have h4 := hpts b (List.mem_of_getElem? hb)
    rw [slope, le_div_iff₀ hv, h3.2, h4.2]
    exact hsteep _ h3.1 _ h4.1 hab.1
  have hFlo : F lo = rank (sample data leftmost rightmost) lo :=
    hthr.at_mem hval hrise hlen (List.mem_of_head? hhead)
  refine ⟨p, F, ppfShape val ope pts, hp, heval, ?_, ?_, ⟨pts.map (·.1), ⟨?_, ?_, ?_⟩, ?_, ?_⟩, ?_, ?_⟩
  · rw [hshape]
    exact ppf_spec hval hope hrise hst hlen hlast rfl
  · intro n hn1 hn2
    exact ppf_cdf hval hope hthr hrise hst hhead hlast rfl h0 hlen hn1 hn2
  · rw [List.pairwise_map]; exact hrise.imp (fun h => h.1)
  · rw [List.head?_map, hhead]; rfl
  · rw [List.getLast?_map, hlast]; rfl
  · intro i a b ha hb n hn1 hn2
    rw [List.getElem?_map, Option.map_eq_some_iff] at ha hb
    obtain ⟨a', ha', rfl⟩ := ha
    obtain ⟨b', hb', rfl⟩ := hb
    have hab := rising_get hrise ha' hb'
    have hv : val b'.1 - val a'.1 ≠ 0 := sub_ne_zero.2 (ne_of_gt (hval hab.1))
    have hat := hthr.at hval hrise ha' hb'
    rw [hat.1, hat.2, hthr.on i a' b' ha' hb' n hn1 hn2]
    field_simp
    ring
  · intro q hq hq1
    obtain ⟨i, a, b, h3, h4, h5, h6, h7⟩ := ppfShape_eval (ope := ope) hrise hst hlen
      (show 0 ≤ q by linarith) (by linarith)
    have hab := rising_get hrise h3 h4
    have hpos : 0 < slope val a b := lt_of_lt_of_le (by norm_num) (hst i a b h3 h4)
    have hv : 0 < val b.1 - val a.1 := sub_pos.2 (hval hab.1)
    have hat := hthr.at hval hrise h3 h4
    have haq : a.2 ≤ q := by
      rcases h6 with rfl | h6
      · rw [List.head?_eq_getElem?, h3] at hhead
        cases hhead; linarith
      · exact h6
    have hqb : q ≤ b.2 := by
      rcases h7 with h7 | h7
      · exact h7.le
      · rw [List.getLast?_eq_getElem?] at hlast
        have hl := List.getElem?_eq_none_iff.1 h7
        have hl' : i + 1 < pts.length := (List.getElem?_eq_some_iff.1 h4).1
        rw [show pts.length - 1 = i + 1 by omega, h4] at hlast
        cases hlast; exact hq1
    refine ⟨_, h5, i, a.1, b.1, by simp [h3], by simp [h4], ?_, ?_, ?_⟩
    · have : 0 ≤ (q - a.2) / slope val a b := div_nonneg (by linarith) hpos.le
      linarith
    · have : (q - a.2) / slope val a b ≤ val b.1 - val a.1 := by
        rw [div_le_iff₀ hpos, slope, mul_div_cancel₀ _ hv.ne']; linarith
      linarith
    · rw [hat.1, hat.2]
      have hba : b.2 - a.2 ≠ 0 := sub_ne_zero.2 (ne_of_gt hab.2)
      have e : slope val a b * (val b.1 - val a.1) = b.2 - a.2 := by
        rw [slope, div_mul_cancel₀ _ hv.ne']
      rw [← e]
      field_simp
      ring
  · intro q r x y hq hqr hr1 hx hy
    exact ppf_strict hval hope hrise hst hlen hq hqr hr1 hx hy
  · rintro q (hq | hq)
    · exact ppfShape_below hq
    · exact ppfShape_above hope hrise hlen hlast rfl hq

/-- `[1, 3, 4, 9]` with kept points 1, 4, 9 at heights 0, 2/3, 1. -/
example : ((fit ival (1 / 10) [1, 3, 4, 9]).bind (ppf ival (9 / 8))).map
    (fun Q => (ppfEval Q (1 / 3), ppfEval Q (2 / 3), ppfEval Q (5 / 6), ppfEval Q 1)) =
      .ok (some (5 / 2), some 4, some (13 / 2), some 9) := by
  decide +kernel

example : ∃ (p : PF) (F : ℤ → ℚ) (Q : List PPiece), fit ival (1 / 100) [3, 1, 1, 7] none (some 9) = .ok p ∧
    (∀ n, p.eval ival n = .ok (some (F n))) ∧ ppf ival (9 / 8) p = .ok Q ∧
    ppfEval Q (F 5) = some (ival 5) := by
  obtain ⟨p, F, Q, h1, h2, h3, h4, -⟩ := C36_inverse_partial ival_strictMono (1 / 100) (ope := 9 / 8)
    (by norm_num) [3, 1, 1, 7] none (some 9) (by simp) (by simp) (lo := 1) (hi := 9) (by decide)
    (by decide) (by decide) (by decide) (by decide) (by decide +kernel)
  exact ⟨p, F, Q, h1, h2, h3, h4 5 (by omega) (by omega)⟩

/-- A density below 1e-4 is taken to be no density at all: for the two samples 0 and 20000 there is no
quantile function. -/
theorem C36_violated_flat :
    ∃ p, fit ival (1 / 100) [0, 20000] = .ok p ∧ ppf ival (9 / 8) p = .error .valueError := by
  refine ⟨[(⟨ninf, fin 0, .exc, .exc⟩, .const 0), (co 0 20001, .lin (1 / 20000) 0),
    (⟨fin 20001, pinf, .inc, .exc⟩, .const 1)], ?_, ?_⟩ <;> decide +kernel

/-- If the least sample occurs twice, quantiles below its cdf value are smaller than every sample,
although the cdf is 0 there. -/
theorem C36_violated_duplicate_minimum :
    ∃ p Q, fit ival (1 / 100) [1, 1, 3, 7] = .ok p ∧ ppf ival (9 / 8) p = .ok Q ∧
      ppfEval Q 0 = some (-1) ∧ p.eval ival (-1) = .ok (some 0) ∧ p.eval ival 0 = .ok (some 0) ∧
      ppfEval Q (1 / 6) = some 0 := by
  refine ⟨[(⟨ninf, fin 1, .exc, .exc⟩, .const 0), (co 1 3, .lin (1 / 6) (1 / 6)),
      (co 3 8, .lin (1 / 12) (5 / 12)), (⟨fin 8, pinf, .inc, .exc⟩, .const 1)],
    [⟨.ninf, .fin 0, .undef⟩, ⟨.fin 0, .fin (2 / 3), .lin 6 (-1)⟩, ⟨.fin (2 / 3), .fin (9 / 8), .lin 12 (-5)⟩,
      ⟨.fin (9 / 8), .pinf, .undef⟩], ?_, ?_, ?_, ?_, ?_, ?_⟩ <;> decide +kernel

/-- If all samples are equal, the quantile function is NaN everywhere except at 1. -/
theorem C36_violated_single_value {val : ℤ → ℚ} (eps : ℚ) {ope : ℚ} (hope : 1 < ope) (data : List ℤ)
    {x : ℤ} (hx : x ∈ data) (hall : ∀ y ∈ data, y = x) :
    ∃ p Q, fit val eps data = .ok p ∧ ppf val ope p = .ok Q ∧ ppfEval Q 1 = some (val x) ∧
      ∀ q, q < 1 → ppfEval Q q = none := by
  refine ⟨jumpCdf x, [⟨.ninf, .fin 1, .undef⟩, ⟨.fin 1, .fin ope, .const (val x)⟩,
    ⟨.fin ope, .pinf, .undef⟩], fit_single (loadBuffer_ok (by simp) (by simp)) (by simpa using hx)
    (by simpa using hall), ?_, ?_, ?_⟩
  · simp [ppf, jumpCdf, assertConsistency, bind, Except.bind]
  · simp [ppfEval, XQ.le, hope, Fn.eval]
  · intro q hq
    simp [ppfEval, XQ.le, hq, Fn.eval]

example : ∃ p Q, fit ival (1 / 100) [4, 4] = .ok p ∧ ppf ival (9 / 8) p = .ok Q ∧
    ppfEval Q (1 / 2) = none := by
  obtain ⟨p, Q, h1, h2, -, h3⟩ := C36_violated_single_value (val := ival) (1 / 100) (ope := 9 / 8)
    (by norm_num) [4, 4] (x := 4) (by simp) (by simp)
  exact ⟨p, Q, h1, h2, h3 _ (by norm_num)⟩

end Verif.Num
