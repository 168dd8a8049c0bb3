import Verif.Numeric.MergeLemmas5
import Mathlib.Algebra.Order.BigOperators.Group.List
import Mathlib.Algebra.BigOperators.Ring.List

/-! # Merging cdfs: the mixture up to the overshoot of the last lines -/

namespace Verif.Num

open Iv Iv.FP Fun

/-- The cdf rises along its pieces to `F`, or somewhat more. -/
structure Part.Near (val : ℤ → ℚ) (q : Part) : Prop where
  mergeable : Mergeable q.cdf
  weight : 0 ≤ q.w
  steep : 0 < q.w → ∀ s ∈ q.cdf, ∀ m c, s.2 = .lin m c → tol < q.w * m
  top : ∀ n, q.F n ≤ 1
  near : ∃ o, 0 ≤ o ∧ o ≤ q.over ∧ (∀ n, q.F n ≤ mass val q.cdf n ∧ mass val q.cdf n ≤ q.F n + o) ∧
    ∃ N, ∀ n, N ≤ n → mass val q.cdf n = 1 + o

theorem zip_parts (parts : List Part) :
    (parts.map (·.cdf)).zip (parts.map (·.w)) = parts.map (fun q => (q.cdf, q.w)) := by
  induction parts with
  | nil => rfl
  | cons q r ih => simp [ih]

theorem mapM_some {ws : List ℚ} : (ws.map some).mapM id = some ws := by
  induction ws with
  | nil => rfl
  | cons w r ih => simp [List.mapM_cons, ih]

theorem mixture_parts (val : ℤ → ℚ) (parts : List Part) (n : ℤ) :
    mixture val (parts.map (fun q => (q.cdf, q.w))) n = (parts.map (fun q => q.w * mass val q.cdf n)).sum := by
  simp [mixture, List.map_map, Function.comp_def]

theorem near_sums {val : ℤ → ℚ} : ∀ {parts : List Part}, (∀ q ∈ parts, q.Near val) →
    ∃ o, 0 ≤ o ∧ o ≤ osum parts ∧ (∀ n : ℤ,
      blend parts n ≤ mixture val (parts.map (fun q => (q.cdf, q.w))) n ∧
      mixture val (parts.map (fun q => (q.cdf, q.w))) n ≤ blend parts n + o ∧
      blend parts n ≤ wsum parts) ∧
    ∃ N : ℤ, ∀ n, N ≤ n → mixture val (parts.map (fun q => (q.cdf, q.w))) n = wsum parts + o
  | [], _ => ⟨0, le_rfl, by simp [osum], fun n => by simp [blend, wsum, mixture], 0,
      fun n _ => by simp [wsum, mixture]⟩
  | q :: r, h => by
    have hq := h q (by simp)
    obtain ⟨o1, h1, h2, h3, N, hN⟩ := hq.near
    obtain ⟨o2, h4, h5, h6, M, hM⟩ := near_sums (parts := r) (fun t ht => h t (by simp [ht]))
    refine ⟨q.w * o1 + o2, add_nonneg (mul_nonneg hq.weight h1) h4, ?_, fun n => ?_, max N M, fun n hn => ?_⟩
    · simp only [osum, List.map_cons, List.sum_cons] at h5 ⊢
      have := mul_le_mul_of_nonneg_left h2 hq.weight
      linarith
    · have ih := h6 n
      rw [mixture_parts] at ih ⊢
      simp only [blend, wsum, List.map_cons, List.sum_cons] at ih ⊢
      have h1 := mul_le_mul_of_nonneg_left (h3 n).1 hq.weight
      have h2 := mul_le_mul_of_nonneg_left (h3 n).2 hq.weight
      have h3 := mul_le_mul_of_nonneg_left (hq.top n) hq.weight
      rw [mul_add] at h2
      refine ⟨?_, ?_, ?_⟩ <;> linarith [ih.1, ih.2.1, ih.2.2]
    · have h1 := hM n ((le_max_right _ _).trans hn)
      have h2 := hN n ((le_max_left _ _).trans hn)
      rw [mixture_parts] at h1 ⊢
      simp only [wsum, List.map_cons, List.sum_cons] at h1 ⊢
      rw [h1, h2]; ring

theorem merge_near {val : ℤ → ℚ} (hval : StrictMono val) (rnd : ℚ → ℤ) {parts : List Part}
    (h : ∀ q ∈ parts, q.Near val) (hsum : |wsum parts - 1| ≤ tol) :
    ∃ (p : PF) (G : ℤ → ℚ),
      merge val rnd (parts.map (·.cdf)) (some (parts.map (fun q => some q.w))) = .ok p ∧
      (∀ n, p.eval val n = .ok (some (G n))) ∧
      ∀ n, (blend parts n ≤ G n ∧ G n ≤ blend parts n + osum parts) ∨ (blend parts n = wsum parts ∧ G n = 1) := by
  obtain ⟨o, ho, hoo, hs, N, hN⟩ := near_sums h
  have hpos : ∃ n, 0 < mixture val (parts.map (fun q => (q.cdf, q.w))) n := by
    refine ⟨N, ?_⟩
    rw [hN N le_rfl]
    have := (abs_le.1 hsum).1
    have ht : tol < 1 := by norm_num [tol]
    linarith
  obtain ⟨l, z, e, hk, hpl, hlow, hhigh⟩ := mergeWeighted_spec hval (rnd := rnd)
    (dw := parts.map (fun q => (q.cdf, q.w)))
    (fun d hd => by
      obtain ⟨q, hq, rfl⟩ := List.mem_map.1 hd
      exact ⟨(h q hq).mergeable, (h q hq).weight⟩)
    (fun d hd => by
      obtain ⟨q, hq, rfl⟩ := List.mem_map.1 hd
      exact (h q hq).steep) hpos
  have hpl' : ∀ s ∈ l ++ [(z, .const 1)], IsPl s.2 := by
    intro s hs
    rcases List.mem_append.1 hs with hs | hs
    · exact hpl s hs
    · simp only [List.mem_singleton] at hs; subst hs; trivial
  refine ⟨tile ninf (.const 0) (l ++ [(z, .const 1)]) pinf, fun n => ev (tileAt (.const 0) (l ++ [(z, .const 1)]) n) (val n), ?_, ?_, ?_⟩
  · rw [← e, merge]
    have hw : parts.map (fun q => some q.w) = (parts.map (·.w)).map some := by
      rw [List.map_map]; rfl
    simp only [weightsOf, bind, Except.bind]
    rw [hw, mapM_some]
    simp only
    rw [if_neg (show ¬ |(parts.map (·.w)).sum - 1| > tol from not_lt.2 hsum), zip_parts]
  · intro n
    rw [tile_eval, (tileAt_pl (f := .const 0) trivial hpl').eval]
  · intro n
    have hs := hs n
    rcases lt_or_ge n z with hn | hn
    · left
      have : tileAt (.const 0) (l ++ [(z, .const 1)]) n = tileAt (.const 0) l n := by
        rw [tileAt_append hk, if_pos hn]
      simp only [this, (hlow n hn).1]
      exact ⟨hs.1, hs.2.1.trans (by linarith)⟩
    · right
      have hz : mixture val (parts.map (fun q => (q.cdf, q.w))) n = wsum parts + o := by
        rw [hhigh n hn, ← hN (max N z) (le_max_left _ _), hhigh _ (le_max_right _ _)]
      constructor
      · linarith [hs.1, hs.2.1, hs.2.2]
      · have : tileAt (.const 0) (l ++ [(z, .const 1)]) n = .const 1 := by
          rw [tileAt_append hk, if_neg (not_lt.2 hn)]
        simp only [this]; rfl

/-- A cdf without jumps, or of a single value, that is given by its knots. -/
theorem mass_exact {val : ℤ → ℚ} {L : List (ℤ × Fn)} (hk : Knots L) (hpl : ∀ s ∈ L, IsPl s.2)
    (hl : lastOf (.const 0) L = .const 1)
    (hc : L.length = 1 ∨ ∀ s ∈ L, ev (tileAt (.const 0) L (s.1 - 1)) (val s.1) = ev s.2 (val s.1)) (n : ℤ) :
    mass val (tile ninf (.const 0) L pinf) n = ev (tileAt (.const 0) L n) (val n) := by
  by_cases h1 : L.length = 1
  · obtain ⟨⟨k, g⟩, rfl⟩ := List.length_eq_one_iff.1 h1
    simp only [lastOf] at hl
    subst hl
    rcases lt_or_ge n k with h | h
    · simp [tile, mass, tileAt, h, not_le.2 h, ev, Fn.eval]
    · simp [tile, mass, tileAt, h, not_lt.2 h, ev, Fn.eval]
  · have h2 := hc.resolve_left h1
    have := mass_tile (val := val) hk hpl ⟨1, hl⟩ h1 n
    rwa [jumpSum_cont hk h2, add_zero] at this

end Verif.Num
