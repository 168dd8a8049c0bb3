import Verif.Numeric.Props4
import Verif.Utils.Model

/-!
# Updating a numeric distribution (C64)
-/

namespace Verif.Num

open Iv Iv.FP Fun

/-- `Numeric.update` (numeric.py 341-357): the new cdf.  `same` says whether the other distribution is of the same class;
that `Numeric.merge` (323-339) also checks this is left out, since it cannot fail here. -/
def update (val : ℤ → ℚ) (rnd : ℚ → ℤ) (same : Bool) (d e : PF) (w : ℚ) : Except Err PF := do
  if ¬ (0 ≤ w ∧ w ≤ 1) then throw .valueError
  if ¬ same then throw .typeError
  let ws ← Ut.normValues false false 0 [1, w]
  merge val rnd [d, e] (some (ws.map some))

/-- Weights outside `[0, 1]` are refused, and so are distributions of another class. -/
theorem C64_numeric_errors (val : ℤ → ℚ) (rnd : ℚ → ℤ) (same : Bool) (d e : PF) (w : ℚ) :
    (¬ (0 ≤ w ∧ w ≤ 1) → update val rnd same d e w = .error .valueError) ∧
    (0 ≤ w ∧ w ≤ 1 → update val rnd false d e w = .error .typeError) := by
  constructor
  · intro h; unfold update; rw [if_pos h]; rfl
  · intro h; unfold update; rw [if_neg (by simpa using h)]; rfl

theorem update_weights {w : ℚ} (hw : 0 ≤ w) :
    Ut.normValues false false 0 [1, w] = .ok [1 / (1 + w), w / (1 + w)] := by
  have h1 : (1 : ℚ) + w ≠ 0 := by positivity
  simp [Ut.normValues, Ut.normLoop, Ut.sign1, hw, not_lt.2 hw, abs_of_nonneg hw, h1]

/-- Updating a cdf `F` with a cdf `G` and weight `w` gives `(F + w G) / (1 + w)` at every float: the weights are 1 and `w`,
normalised.

Partial: the full claim is `(1 - w) F + w G` as for discrete distributions (`C64_update`), see `C64_violated_numeric`.  The
distributions are continuous or single values, and no slope is negligible (see C38). -/
theorem C64_numeric_partial {val : ℤ → ℚ} (hval : StrictMono val) (rnd : ℚ → ℤ) (d e : Part) (w : ℚ) (h0 : 0 ≤ w)
    (h1 : w ≤ 1) (hd : Regular val d) (he : Regular val e)
    (hsd : ∀ s ∈ d.cdf, ∀ m c, s.2 = .lin m c → 1 / 10 ^ 8 < 1 / (1 + w) * m)
    (hse : 0 < w → ∀ s ∈ e.cdf, ∀ m c, s.2 = .lin m c → 1 / 10 ^ 8 < w / (1 + w) * m) :
    ∃ p, update val rnd true d.cdf e.cdf w = .ok p ∧
      ∀ n, p.eval val n = .ok (some ((d.F n + w * e.F n) / (1 + w))) := by
  have h2 : (0 : ℚ) < 1 + w := by positivity
  have ht : (1 : ℚ) / 10 ^ 8 = tol := by norm_num [tol]
  rw [ht] at hsd hse
  obtain ⟨p, h3, h4⟩ := C38_merge_partial hval rnd [{ d with w := 1 / (1 + w) }, { e with w := w / (1 + w) }]
    (by
      intro q hq
      simp only [List.mem_cons, List.not_mem_nil, or_false] at hq
      rcases hq with rfl | rfl
      · exact ⟨hd.knots, hd.values⟩
      · exact ⟨he.knots, he.values⟩)
    (by
      intro q hq
      simp only [List.mem_cons, List.not_mem_nil, or_false] at hq
      rcases hq with rfl | rfl <;> simp only <;> positivity)
    (by
      intro q hq
      simp only [List.mem_cons, List.not_mem_nil, or_false] at hq
      rcases hq with rfl | rfl
      · exact fun _ => hsd
      · refine fun h => hse ?_
        simp only at h
        exact (div_pos_iff_of_pos_right h2).1 h)
    (by simp only [wsum, List.map_cons, List.map_nil, List.sum_cons, List.sum_nil]; field_simp; ring)
  refine ⟨p, ?_, fun n => ?_⟩
  · unfold update
    rw [if_neg (by simp [h0, h1]), update_weights h0]
    simpa [bind, Except.bind] using h3
  · rw [h4 n]
    simp only [blend, List.map_cons, List.map_nil, List.sum_cons, List.sum_nil]
    congr 2
    field_simp
    ring

theorem partOf_regular {L : List (ℤ × Fn)} (w : ℚ) (h1 : L.Pairwise (fun s t => s.1 < t.1))
    (h2 : ∀ s ∈ L, (∃ v, s.2 = .const v) ∨ ∃ m c, s.2 = .lin m c ∧ 0 < m) (h3 : ∃ z, L.getLast? = some (z, .const 1))
    (h4 : L.length = 1 ∨ ∀ s ∈ L, (tileAt (.const 0) L (s.1 - 1)).eval (ival s.1) = s.2.eval (ival s.1)) :
    Regular ival (partOf L w) := by
  refine ⟨⟨L, rfl, h1, h2, h3, h4⟩, fun n => ?_⟩
  have hL : ∀ s ∈ L, IsPl s.2 := by
    intro s hs
    rcases h2 s hs with ⟨v, h⟩ | ⟨m, c, h, hm⟩
    · rw [h]; trivial
    · rw [h]; exact hm
  show (tile ninf (.const 0) L pinf).eval ival n = _
  rw [tile_eval, (tileAt_pl (f := .const 0) trivial hL).eval]
  rfl

/-- Two overlapping uniform distributions, weight 1/3. -/
example : ∃ p, update ival Rat.floor true (partOf uniA 0).cdf (partOf uniB 0).cdf (1 / 3) = .ok p ∧
    p.eval ival 3 = .ok (some (((partOf uniA 0).F 3 + 1 / 3 * (partOf uniB 0).F 3) / (1 + 1 / 3))) := by
  obtain ⟨p, h1, h2⟩ := C64_numeric_partial ival_strictMono Rat.floor (partOf uniA 0) (partOf uniB 0) (1 / 3) (by norm_num)
    (by norm_num)
    (partOf_regular 0 (by decide) (by simp [uniA]) ⟨4, rfl⟩ (.inr (by
      simp only [uniA, List.mem_cons, List.not_mem_nil, or_false]
      rintro s (rfl | rfl) <;> decide +kernel)))
    (partOf_regular 0 (by decide) (by simp [uniB]) ⟨6, rfl⟩ (.inr (by
      simp only [uniB, List.mem_cons, List.not_mem_nil, or_false]
      rintro s (rfl | rfl) <;> decide +kernel)))
    (by simp [partOf, uniA, tile]; norm_num) (fun _ => by simp [partOf, uniB, tile]; norm_num)
  exact ⟨p, h1, h2 3⟩

/-- C64 is violated for numeric distributions: updating with weight 1 keeps half of the old distribution.  The new cdf at
4 is 3/4, although the cdf that was given all the weight is 1/2 there. -/
theorem C64_violated_numeric :
    ∃ p, update ival Rat.floor true (partOf uniA 0).cdf (partOf uniB 0).cdf 1 = .ok p ∧
      (partOf uniB 0).cdf.eval ival 4 = .ok (some (1 / 2)) ∧ p.eval ival 4 = .ok (some (3 / 4)) := by
  refine ⟨[(⟨ninf, fin 0, .exc, .exc⟩, .const 0), (co 0 2, .lin (1 / 8) 0), (co 2 4, .lin (1 / 4) (-1 / 4)),
    (co 4 6, .lin (1 / 8) (1 / 4)), (⟨fin 6, pinf, .inc, .exc⟩, .const 1)], ?_, ?_, ?_⟩ <;> decide +kernel

end Verif.Num
