import Verif.Numeric.MomentMerge
import Verif.Numeric.MergeTotal

/-!
# C75: moments of merged distributions
-/

namespace Verif.Num

open Iv Iv.FP Fun

theorem merge_pairs {val : ℤ → ℚ} (rnd : ℚ → ℤ) (dw : List (PF × ℚ)) (hsum : (dw.map Prod.snd).sum = 1) :
    merge val rnd (dw.map Prod.fst) (some (dw.map (fun d => some d.2))) = mergeWeighted val rnd dw := by
  have hw : dw.map (fun d => some d.2) = (dw.map Prod.snd).map some := by rw [List.map_map]; rfl
  simp only [merge, weightsOf, bind, Except.bind]
  rw [hw, mapM_some]
  simp only
  rw [if_neg (by rw [hsum, sub_self, abs_zero]; norm_num [tol])]
  congr 1
  clear hsum hw
  induction dw with
  | nil => rfl
  | cons d r ih => simp [ih]

theorem climb_mem_nonneg {val : ℤ → ℚ} (hval : StrictMono val) {p : PF} (hp : Mergeable p) {s : CS × Fn} (hs : s ∈ p) (n : ℤ) :
    0 ≤ climb val n s := by
  rcases hp.pieces s hs with ⟨v, hv⟩ | ⟨m, c, a, b, e1, e2, e3, e4, e5⟩
  · simp [climb, hv]
  · simp only [climb, e1, e3, e4]
    split
    · exact le_rfl
    · rename_i h
      exact mul_nonneg e2.le (sub_nonneg.2 (hval.monotone (le_min (not_lt.1 h) e5.le)))

theorem mixture_pos {val : ℤ → ℚ} (hval : StrictMono val) {dw : List (PF × ℚ)} (hm : ∀ d ∈ dw, Mergeable d.1 ∧ 0 ≤ d.2)
    (hr : ∃ d ∈ dw, 0 < d.2 ∧ ∃ s ∈ d.1, ∃ m c, s.2 = .lin m c) : ∃ n, 0 < mixture val dw n := by
  obtain ⟨d, hd, hw, s, hs, m, c, e⟩ := hr
  rcases (hm d hd).1.pieces s hs with ⟨v, hv⟩ | ⟨m', c', a, b, e1, e2, e3, e4, e5⟩
  · rw [e] at hv; cases hv
  refine ⟨b, ?_⟩
  have hnn : ∀ d ∈ dw, 0 ≤ d.2 * mass val d.1 b := by
    intro d hd
    refine mul_nonneg (hm d hd).2 ?_
    have hmd := (hm d hd).1
    rw [mass_eq hmd]
    refine add_nonneg (List.sum_nonneg ?_) ?_
    · intro x hx
      obtain ⟨t, ht, rfl⟩ := List.mem_map.1 hx
      exact climb_mem_nonneg hval hmd ht b
    · unfold stepAt
      split <;> try exact le_rfl
      split <;> try exact le_rfl
      split <;> norm_num
  have hpos : 0 < mass val d.1 b := by
    rw [mass_eq (hm d hd).1]
    refine add_pos_of_pos_of_nonneg ?_ ?_
    · refine lt_of_lt_of_le ?_ (List.single_le_sum (l := d.1.map (climb val b)) ?_ (climb val b s) (List.mem_map_of_mem hs))
      · simp only [climb, e1, e3, e4]
        rw [if_neg (by omega), min_self]
        exact mul_pos e2 (sub_pos.2 (hval e5))
      · intro x hx
        obtain ⟨t, ht, rfl⟩ := List.mem_map.1 hx
        exact climb_mem_nonneg hval (hm d hd).1 ht b
    · unfold stepAt
      split <;> try exact le_rfl
      split <;> try exact le_rfl
      split <;> norm_num
  unfold mixture
  refine lt_of_lt_of_le (mul_pos hw hpos) (List.single_le_sum ?_ _ (List.mem_map_of_mem (f := fun d : PF × ℚ => d.2 * mass val d.1 b) hd))
  intro x hx
  obtain ⟨t, ht, rfl⟩ := List.mem_map.1 hx
  exact hnn t ht

/-- The moments of a mixture, for all orders and centers, are the weighted sums of the moments of its parts, up to what
`moment` leaves out of each of them: pieces that hold a single float.

Partial: parts that are a single value count as 0 (`C75_violated_merged_values`), and one part must be something else;
weighted slopes must exceed the tolerance of `merge`.  For labels, `hprev` supposes that scaling does not round. -/
theorem C75_merge_partial {val : ℤ → ℚ} (hval : StrictMono val) {lab prev : ℚ → ℚ} {s μ : ℚ} (hpos : 0 < s)
    (hlab : ∀ x, lab x = s * x + μ) (hprev : ∀ n, prev (lab (val n)) = lab (val (n - 1))) (rnd : ℚ → ℤ)
    (dw : List (PF × ℚ)) (hcdf : ∀ d ∈ dw, Cdf d.1) (hw : ∀ d ∈ dw, 0 ≤ d.2)
    (hsteep : ∀ d ∈ dw, 0 < d.2 → ∀ t ∈ d.1, ∀ m c, t.2 = .lin m c → tol < d.2 * m)
    (hsum : (dw.map Prod.snd).sum = 1) (hrise : ∃ d ∈ dw, 0 < d.2 ∧ ∃ t ∈ d.1, ∃ m c, t.2 = .lin m c) :
    ∃ p, merge val rnd (dw.map Prod.fst) (some (dw.map (fun d => some d.2))) = .ok p ∧ Cdf p ∧
      ∀ (order : ℕ) (c : ℚ), ∃ q qs, moment val lab prev p order c = .ok q ∧
        List.Forall₂ (fun d q => if d.1.length = 2 then q = 0 else moment val lab prev d.1 order c = .ok q) dw qs ∧
        q + lost val lab order c p = (List.zipWith (fun d q => d.2 * (q + lost val lab order c d.1)) dw qs).sum := by
  have hm : ∀ d ∈ dw, Mergeable d.1 ∧ 0 ≤ d.2 := fun d hd => ⟨(hcdf d hd).mergeable, hw d hd⟩
  obtain ⟨p, h1, h2, h3⟩ := merge_rise hval (rnd := rnd) hm hsteep (mixture_pos hval hm hrise)
  refine ⟨p, by rw [merge_pairs rnd dw hsum, h1], h2, fun order c => ?_⟩
  have hlen : p.length ≠ 2 := by
    intro hl
    have h4 := h3 val
    rw [dirac_rise h2 hl] at h4
    have hnn : ∀ d ∈ dw, ∀ t ∈ d.1, 0 ≤ rise val t := by
      intro d hd t ht
      rcases (hm d hd).1.pieces t ht with ⟨v, hv⟩ | ⟨m', c', a, b, e1, e2, e3, e4, e5⟩
      · simp [rise, hv]
      · simp only [rise, e1, e3, e4]
        exact mul_nonneg e2.le (sub_nonneg.2 (hval e5).le)
    obtain ⟨d, hd, hwd, t, ht, m, k, e⟩ := hrise
    have hpos : 0 < rise val t := by
      rcases (hm d hd).1.pieces t ht with ⟨v, hv⟩ | ⟨m', c', a, b, e1, e2, e3, e4, e5⟩
      · rw [e] at hv; cases hv
      · simp only [rise, e1, e3, e4]
        exact mul_pos e2 (sub_pos.2 (hval e5))
    have h5 : 0 < (d.1.map (rise val)).sum := by
      refine lt_of_lt_of_le hpos (List.single_le_sum ?_ _ (List.mem_map_of_mem ht))
      intro x hx
      obtain ⟨t, ht, rfl⟩ := List.mem_map.1 hx
      exact hnn d hd t ht
    have h6 := List.single_le_sum (l := dw.map (fun d => d.2 * (d.1.map (rise val)).sum)) (by
      intro x hx
      obtain ⟨d, hd, rfl⟩ := List.mem_map.1 hx
      refine mul_nonneg (hw d hd) (List.sum_nonneg ?_)
      intro x hx
      obtain ⟨t, ht, rfl⟩ := List.mem_map.1 hx
      exact hnn d hd t ht) _ (List.mem_map_of_mem (f := fun d : PF × ℚ => d.2 * (d.1.map (rise val)).sum) hd)
    rw [← h4] at h6
    exact absurd (mul_pos hwd h5) (not_lt.2 h6)
  obtain ⟨q, h4, h5⟩ := moment_rise hval hpos hlab hprev (c := c) (r := order) h2 hlen
  have hparts : ∀ dw : List (PF × ℚ), (∀ d ∈ dw, Cdf d.1) → ∃ qs,
      List.Forall₂ (fun d q => if d.1.length = 2 then q = 0 else moment val lab prev d.1 order c = .ok q) dw qs ∧
      (dw.map (fun d => d.2 * (d.1.map (rise (anti val lab s order c))).sum)).sum =
        (List.zipWith (fun d q => d.2 * (q + lost val lab order c d.1)) dw qs).sum := by
    intro dw
    induction dw with
    | nil => intro _; exact ⟨[], .nil, rfl⟩
    | cons d r ih =>
      intro hc
      obtain ⟨qs, i1, i2⟩ := ih (fun d hd => hc d (List.mem_cons_of_mem _ hd))
      have hd := hc d (by simp)
      by_cases hl : d.1.length = 2
      · refine ⟨0 :: qs, .cons (by rw [if_pos hl]) i1, ?_⟩
        simp only [List.map_cons, List.sum_cons, List.zipWith_cons_cons, i2]
        rw [dirac_rise hd hl, dirac_lost hd hl, add_zero]
      · obtain ⟨q, j1, j2⟩ := moment_rise hval hpos hlab hprev (c := c) (r := order) hd hl
        refine ⟨q :: qs, .cons (by rw [if_neg hl]; exact j1) i1, ?_⟩
        simp only [List.map_cons, List.sum_cons, List.zipWith_cons_cons, i2, j2]
  obtain ⟨qs, h6, h7⟩ := hparts dw hcdf
  exact ⟨q, qs, h4, h6, by rw [h5, h3, h7]⟩

/-- What is left out is nothing if no rising piece holds a single float. -/
theorem lost_zero (val : ℤ → ℚ) (lab : ℚ → ℚ) (order : ℕ) (c : ℚ) {p : PF}
    (h : ∀ t ∈ p, ∀ m k a b, t.2 = .lin m k → t.1.lower = fin a → t.1.upper = fin b → b ≠ a + 1) :
    lost val lab order c p = 0 := by
  unfold lost
  apply List.sum_eq_zero
  intro x hx
  obtain ⟨t, ht, rfl⟩ := List.mem_map.1 hx
  have := h t ht
  obtain ⟨⟨lo, up, l, r⟩, f⟩ := t
  cases f <;> cases lo <;> cases up <;> simp [lostPiece]
  intro e
  exact absurd e (this _ _ _ _ rfl rfl rfl)

/-- All fitted distributions can be merged this way. -/
theorem fit_cdf {val : ℤ → ℚ} (hval : StrictMono val) {eps : ℚ} {data s : List ℤ} {l r : Option ℤ}
    (hs : loadBuffer data l r = .ok s) (hne : s ≠ []) : ∃ p, fit val eps data l r = .ok p ∧ Cdf p ∧
      ((∃ x ∈ s, ∃ y ∈ s, x ≠ y) → p.length ≠ 2 ∧ ∃ t ∈ p, ∃ m c, t.2 = .lin m c) := by
  obtain ⟨lo, hlo, hmin⟩ := exists_least hne
  obtain ⟨hi, hhi, hmax⟩ := exists_greatest hne
  rcases (hmin hi hhi).lt_or_eq with hlt | rfl
  · obtain ⟨pts, p', F, hp, hp', -, -, hrise, hlen, -, hlast, hpts⟩ := fit_spec hval (eps := eps) hs hlo hhi hlt hmin hmax
    refine ⟨p', hp, ⟨segs val pts, hi + 1, 1, hp', full_knots hrise hlast, ?_⟩, fun _ => ?_⟩
    · intro t ht
      obtain ⟨i, a, b, h1, h2, rfl⟩ := segs_get ht
      have := rising_get hrise h1 h2
      exact Cdf.of_pl (lineOf_pl hval this.1 this.2)
    · rw [hp']
      match pts, hlen, hrise with
      | a :: b :: r, _, hr =>
        refine ⟨by rw [tile_length]; simp [segs], ?_⟩
        have hab := (List.pairwise_cons.1 hr).1 b (by simp)
        cases r with
        | nil => exact ⟨(⟨fin a.1, fin (hi + 1), .inc, .exc⟩, lineOf val a b), by simp [segs, tile, brOf], _, _, rfl⟩
        | cons d r => exact ⟨(⟨fin a.1, fin b.1, .inc, .exc⟩, lineOf val a b), by simp [segs, tile, brOf], _, _, rfl⟩
  · refine ⟨_, fit_single (eps := eps) hs hlo (fun y hy => le_antisymm (hmax y hy) (hmin y hy)), ⟨[], lo, 1, rfl, by simp, by simp⟩, ?_⟩
    rintro ⟨x, hx, y, hy, hxy⟩
    exact absurd ((le_antisymm (hmax x hx) (hmin x hx)).trans (le_antisymm (hmax y hy) (hmin y hy)).symm) hxy

/-- The distributions of 0, 10 and of 0, 20, with weights 1/4 and 3/4: their moments and those of their mixture. -/
example : ∃ p q r, fit ival (1 / 100) [0, 10] = .ok p ∧ fit ival (1 / 100) [0, 20] = .ok q ∧
    merge ival Rat.floor [p, q] (some [some (1 / 4), some (3 / 4)]) = .ok r ∧
    moment ival id (fun x => x - 1) p 1 0 = .ok (121 / 20) ∧ moment ival id (fun x => x - 1) q 1 0 = .ok (441 / 40) ∧
    moment ival id (fun x => x - 1) r 1 0 = .ok (1565 / 160) ∧
    (1 / 4 * (121 / 20) + 3 / 4 * (441 / 40) : ℚ) = 1565 / 160 :=
  ⟨[(⟨ninf, fin 0, .exc, .exc⟩, .const 0), (co 0 11, .lin (1 / 10) 0), (⟨fin 11, pinf, .inc, .exc⟩, .const 1)],
    [(⟨ninf, fin 0, .exc, .exc⟩, .const 0), (co 0 21, .lin (1 / 20) 0), (⟨fin 21, pinf, .inc, .exc⟩, .const 1)],
    [(⟨ninf, fin 0, .exc, .exc⟩, .const 0), (co 0 11, .lin (1 / 16) 0), (co 11 21, .lin (3 / 80) (11 / 40)),
      (⟨fin 21, pinf, .inc, .exc⟩, .const 1)], by decide +kernel, by decide +kernel, by decide +kernel, by decide +kernel,
    by decide +kernel, by decide +kernel, by norm_num⟩

end Verif.Num
