import Verif.Numeric.MergeLemmas6
import Verif.Numeric.CropLemmas9

/-! # Merging cdfs: fitted cdfs -/

namespace Verif.Num

open Iv Iv.FP Fun

/-- How far the last line runs above its end at the next float. -/
def overshoot (val : ℤ → ℚ) : List (ℤ × ℚ) → ℚ
  | [a, b] => (b.2 - a.2) / (val b.1 - val a.1) * (val (b.1 + 1) - val b.1)
  | _ :: r => overshoot val r
  | [] => 0

theorem ev_lineOf (val : ℤ → ℚ) (a b : ℤ × ℚ) (x : ℚ) :
    ev (lineOf val a b) x = a.2 + (b.2 - a.2) / (val b.1 - val a.1) * (x - val a.1) := by
  rw [ev, lineOf_eval]; rfl

theorem jumpSum_segs {val : ℤ → ℚ} (hval : StrictMono val) {n hi : ℤ} : ∀ (r : List (ℤ × ℚ)) (p a : ℤ × ℚ),
    Rising (p :: a :: r) → (p :: a :: r).getLast? = some (hi, 1) →
    jumpSum val n (lineOf val p a) (segs val (a :: r) ++ [(hi + 1, .const 1)]) =
      if hi + 1 ≤ n then -overshoot val (p :: a :: r) else 0
  | [], p, a, hr, hl => by
    simp only [List.getLast?_cons_cons, List.getLast?_singleton, Option.some.injEq] at hl
    subst hl
    have h1 : p.1 < hi := by have := (List.pairwise_cons.1 hr).1 (hi, 1) (by simp); exact this.1
    have h2 := lineOf_end hval (a := p) (b := (hi, 1)) h1
    simp only at h2
    simp only [segs, List.nil_append, jumpSum, add_zero, overshoot, ev_lineOf]
    congr 1
    have : ev (.const 1) (val (hi + 1)) = 1 := rfl
    rw [this]
    linear_combination -h2
  | b :: r, p, a, hr, hl => by
    rw [List.getLast?_cons_cons] at hl
    have hr' := List.pairwise_cons.1 hr
    have h1 : p.1 < a.1 := (hr'.1 a (by simp)).1
    have ih := jumpSum_segs hval (n := n) r a b hr'.2 hl
    have e : overshoot val (p :: a :: b :: r) = overshoot val (a :: b :: r) := rfl
    rw [segs, List.cons_append, jumpSum, ih, e, ev_lineOf, ev_lineOf, lineOf_end hval h1, sub_self, mul_zero,
      add_zero, sub_self, ite_self, zero_add]

theorem overshoot_last (val : ℤ → ℚ) {hi : ℤ} : ∀ (r : List (ℤ × ℚ)) (p a : ℤ × ℚ),
    (p :: a :: r).getLast? = some (hi, 1) → ∃ (i : ℕ) (k : ℤ × ℚ), (p :: a :: r)[i]? = some k ∧
      (p :: a :: r)[i + 1]? = some (hi, 1) ∧
      overshoot val (p :: a :: r) = (1 - k.2) / (val hi - val k.1) * (val (hi + 1) - val hi)
  | [], p, a, hl => by
    simp only [List.getLast?_cons_cons, List.getLast?_singleton, Option.some.injEq] at hl
    subst hl
    exact ⟨0, p, rfl, rfl, rfl⟩
  | b :: r, p, a, hl => by
    rw [List.getLast?_cons_cons] at hl
    obtain ⟨i, k, h1, h2, h3⟩ := overshoot_last val r a b hl
    exact ⟨i + 1, k, h1, h2, h3⟩

/-- A fitted cdf whose least sample is not repeated. -/
theorem mass_fit {val : ℤ → ℚ} (hval : StrictMono val) {pts : List (ℤ × ℚ)} {lo hi : ℤ}
    (hr : Rising pts) (hlen : 2 ≤ pts.length) (hhead : pts.head? = some (lo, 0))
    (hlast : pts.getLast? = some (hi, 1)) :
    Mergeable (tile ninf (.const 0) (segs val pts ++ [(hi + 1, .const 1)]) pinf) ∧ ∀ n,
    mass val (tile ninf (.const 0) (segs val pts ++ [(hi + 1, .const 1)]) pinf) n =
      ev (tileAt (.const 0) (segs val pts ++ [(hi + 1, .const 1)]) n) (val n) +
        if hi + 1 ≤ n then overshoot val pts else 0 := by
  have hk : Knots (segs val pts ++ [(hi + 1, .const 1)]) := full_knots hr hlast
  have hL : ∀ s ∈ segs val pts ++ [(hi + 1, .const 1)], IsPl s.2 := by
    intro s hs
    rcases List.mem_append.1 hs with hs | hs
    · obtain ⟨i, a, b, h1, h2, rfl⟩ := segs_get hs
      have := rising_get hr h1 h2
      exact lineOf_pl hval this.1 this.2
    · simp only [List.mem_singleton] at hs; subst hs; trivial
  have hl : ∃ v, lastOf (.const 0) (segs val pts ++ [(hi + 1, .const 1)]) = .const v := ⟨1, lastOf_append _ _ _ _⟩
  refine ⟨mergeable_tile hk hL hl, fun n => ?_⟩
  obtain ⟨p, a, r, rfl⟩ : ∃ p a r, pts = p :: a :: r := by
    match pts, hlen with
    | p :: a :: r, _ => exact ⟨p, a, r, rfl⟩
  · have h2 : (segs val (p :: a :: r) ++ [((hi + 1, .const 1) : ℤ × Fn)]).length ≠ 1 := by simp [segs]
    have h3 := mass_tile (val := val) hk hL hl h2 n
    simp only [List.head?_cons, Option.some.injEq] at hhead
    have h4 := jumpSum_segs hval (n := n) r p a hr hlast
    have h5 : jumpSum val n (.const 0) (segs val (p :: a :: r) ++ [(hi + 1, .const 1)]) =
        if hi + 1 ≤ n then -overshoot val (p :: a :: r) else 0 := by
      rw [segs, List.cons_append, jumpSum, h4, ev_lineOf, sub_self, mul_zero, add_zero]
      subst hhead
      have : ev (.const 0) (val lo) = 0 := rfl
      simp only [this, sub_self, ite_self, zero_add]
    rw [h5] at h3
    split_ifs at h3 ⊢ <;> linarith

/-- The last line overshoots by less than a float, in terms of the gap below the greatest sample. -/
theorem overshoot_le {val : ℤ → ℚ} (hval : StrictMono val) {pts : List (ℤ × ℚ)} {hi k : ℤ}
    (hr : Rising pts) (hlen : 2 ≤ pts.length) (hpos : ∀ q ∈ pts, 0 ≤ q.2)
    (hlast : pts.getLast? = some (hi, 1)) (hk : k < hi) (hall : ∀ q ∈ pts, q.1 ≤ k ∨ q.1 = hi) :
    0 < overshoot val pts ∧ overshoot val pts ≤ (val (hi + 1) - val hi) / (val hi - val k) := by
  obtain ⟨p, a, r, rfl⟩ : ∃ p a r, pts = p :: a :: r := by
    match pts, hlen with
    | p :: a :: r, _ => exact ⟨p, a, r, rfl⟩
  obtain ⟨i, q, h1, h2, h3⟩ := overshoot_last val r p a hlast
  have h4 := rising_get hr h1 h2
  simp only at h4
  have hq := List.mem_of_getElem? h1
  have h5 : q.1 ≤ k := (hall q hq).resolve_right (by omega)
  have h6 := hval.monotone h5
  have h7 := hval hk
  have h8 := hpos q hq
  have h9 := hval (show hi < hi + 1 by omega)
  rw [h3]
  constructor
  · exact mul_pos (div_pos (by linarith) (by linarith)) (by linarith)
  · rw [div_mul_eq_mul_div]
    refine div_le_div₀ (by linarith) ?_ (by linarith) (by linarith)
    nlinarith

end Verif.Num
