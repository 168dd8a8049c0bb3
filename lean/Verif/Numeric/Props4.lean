import Verif.Numeric.MergeLemmas7
import Verif.Numeric.Props3

/-!
# Properties of merging numeric distributions

C38 (merging numeric distributions gives the mixture).

`val n` is the number of the `n`-th finite float, `rnd` rounds a number to a float.
-/

namespace Verif.Num

open Iv Iv.FP Fun

/-! ## C38 -/

theorem lastOf_of_getLast {z : ℤ} {g : Fn} : ∀ {L : List (ℤ × Fn)} {f : Fn}, L.getLast? = some (z, g) →
    lastOf f L = g := by
  intro L f h
  obtain ⟨l, rfl⟩ := List.getLast?_eq_some_iff.1 h
  exact lastOf_append _ _ _ _

theorem Regular.toNear {val : ℤ → ℚ} (hval : StrictMono val) {q : Part} (h : Regular val q) (hw : 0 ≤ q.w) (ho : 0 ≤ q.over)
    (hs : 0 < q.w → ∀ s ∈ q.cdf, ∀ m c, s.2 = .lin m c → tol < q.w * m) : q.Near val := by
  obtain ⟨L, e, hk, hp, ⟨z, hz⟩, hc⟩ := h.knots
  have hL : ∀ s ∈ L, IsPl s.2 := by
    intro s hs
    rcases hp s hs with ⟨v, h⟩ | ⟨m, c, h, hm⟩
    · rw [h]; trivial
    · rw [h]; exact hm
  have hl : lastOf (.const 0) L = .const 1 := lastOf_of_getLast hz
  have hF : ∀ n, ev (tileAt (.const 0) L n) (val n) = q.F n := by
    intro n
    have h1 := h.values n
    rw [e, tile_eval, (tileAt_pl (f := .const 0) trivial hL).eval] at h1
    simpa using h1
  have hm : ∀ n, mass val q.cdf n = q.F n := by
    intro n
    rw [e, mass_exact hk hL hl (hc.imp id fun h s hs => by simp only [ev, h s hs]), hF]
  have hmg : Mergeable q.cdf := e ▸ mergeable_tile hk hL ⟨1, hl⟩
  have hend : ∀ n, z ≤ n → q.F n = 1 := by
    intro n hn
    rw [← hF, tileAt_last, hl]
    · rfl
    · intro s hs
      obtain ⟨l, rfl⟩ := List.getLast?_eq_some_iff.1 hz
      rcases List.mem_append.1 hs with hs | hs
      · have := (List.pairwise_append.1 hk).2.2 s hs (z, .const 1) (by simp)
        simp only at this; omega
      · simp only [List.mem_singleton] at hs; subst hs; exact hn
  refine ⟨hmg, hw, hs, fun n => ?_, 0, le_rfl, ho, fun n => by simp [hm n], z, fun n hn => ?_⟩
  · rw [← hend (max n z) (le_max_right _ _), ← hm, ← hm]
    exact mass_mono hval hmg (le_max_left _ _)
  · rw [hm, hend n hn, add_zero]

/-- Merging any list of continuous cdfs and cdfs of single values with any weights that sum to 1 gives the
mixture `∑ w F` at every float.

Partial: the full claim has no hypothesis `hsteep`, but slopes up to `1e-8` are dropped, see
`C38_violated_small_slopes`, and it includes cdfs with other jumps, see `C38_violated_jumps` and
`C38_violated_duplicated_minimum`. -/
theorem C38_merge_partial {val : ℤ → ℚ} (hval : StrictMono val) (rnd : ℚ → ℤ) (parts : List Part)
    (hreg : ∀ q ∈ parts, Regular val q) (hw : ∀ q ∈ parts, 0 ≤ q.w)
    (hsteep : ∀ q ∈ parts, 0 < q.w → ∀ s ∈ q.cdf, ∀ m c, s.2 = .lin m c → tol < q.w * m)
    (hsum : wsum parts = 1) :
    ∃ p, merge val rnd (parts.map (·.cdf)) (some (parts.map (fun q => some q.w))) = .ok p ∧
      ∀ n, p.eval val n = .ok (some (blend parts n)) := by
  set ps : List Part := parts.map (fun q => { q with over := 0 }) with hps
  have hn : ∀ q ∈ ps, q.Near val := by
    intro q hq
    obtain ⟨t, ht, rfl⟩ := List.mem_map.1 hq
    exact Regular.toNear hval (q := { t with over := 0 }) ⟨(hreg t ht).knots, (hreg t ht).values⟩ (hw t ht) le_rfl
      (hsteep t ht)
  have e1 : wsum ps = wsum parts := by simp only [wsum, hps, List.map_map, Function.comp_def]
  have e2 : osum ps = 0 := by simp [osum, hps, List.map_map, Function.comp_def]
  have e3 : ∀ n, blend ps n = blend parts n := fun n => by
    simp only [blend, hps, List.map_map, Function.comp_def]
  obtain ⟨p, G, h1, h2, h3⟩ := merge_near hval rnd hn (by rw [e1, hsum]; norm_num [tol])
  refine ⟨p, ?_, fun n => ?_⟩
  · simpa only [hps, List.map_map, Function.comp_def] using h1
  · rw [h2 n]
    rcases h3 n with ⟨h4, h5⟩ | ⟨h4, h5⟩
    · rw [e2, add_zero, e3] at h5
      rw [e3] at h4
      rw [le_antisymm h5 h4]
    · rw [h5, ← e3, h4, e1, hsum]

/-- Weights that sum to 1 up to `1e-8`: the mixture, except that the merged cdf ends with 1. -/
theorem C38_merge_rounded_weights_partial {val : ℤ → ℚ} (hval : StrictMono val) (rnd : ℚ → ℤ) (parts : List Part)
    (hreg : ∀ q ∈ parts, Regular val q) (hw : ∀ q ∈ parts, 0 ≤ q.w)
    (hsteep : ∀ q ∈ parts, 0 < q.w → ∀ s ∈ q.cdf, ∀ m c, s.2 = .lin m c → tol < q.w * m)
    (hsum : |wsum parts - 1| ≤ 1 / 10 ^ 8) :
    ∃ (p : PF) (G : ℤ → ℚ), merge val rnd (parts.map (·.cdf)) (some (parts.map (fun q => some q.w))) = .ok p ∧
      (∀ n, p.eval val n = .ok (some (G n))) ∧
      ∀ n, G n = blend parts n ∨ (blend parts n = wsum parts ∧ G n = 1) := by
  set ps : List Part := parts.map (fun q => { q with over := 0 }) with hps
  have hn : ∀ q ∈ ps, q.Near val := by
    intro q hq
    obtain ⟨t, ht, rfl⟩ := List.mem_map.1 hq
    exact Regular.toNear hval (q := { t with over := 0 }) ⟨(hreg t ht).knots, (hreg t ht).values⟩ (hw t ht) le_rfl
      (hsteep t ht)
  have e1 : wsum ps = wsum parts := by simp only [wsum, hps, List.map_map, Function.comp_def]
  have e2 : osum ps = 0 := by simp [osum, hps, List.map_map, Function.comp_def]
  have e3 : ∀ n, blend ps n = blend parts n := fun n => by
    simp only [blend, hps, List.map_map, Function.comp_def]
  obtain ⟨p, G, h1, h2, h3⟩ := merge_near hval rnd hn (by rw [e1]; refine hsum.trans ?_; norm_num [tol])
  refine ⟨p, G, ?_, h2, fun n => ?_⟩
  · simpa only [hps, List.map_map, Function.comp_def] using h1
  · rcases h3 n with ⟨h4, h5⟩ | ⟨h4, h5⟩
    · rw [e2, add_zero, e3] at h5
      rw [e3] at h4
      exact .inl (le_antisymm h5 h4)
    · exact .inr ⟨by rw [← e3, h4, e1], h5⟩

/-- The default weights are equal. -/
theorem C38_default_weights {val : ℤ → ℚ} (rnd : ℚ → ℤ) (ds : List PF) (h : ds ≠ []) :
    merge val rnd ds none = merge val rnd ds (some (List.replicate ds.length (some (1 / (ds.length : ℚ))))) := by
  simp [merge, weightsOf, h, bind, Except.bind]

theorem fit_near {val : ℤ → ℚ} (hval : StrictMono val) {eps : ℚ} {q : Part} (h : IsFit val eps q)
    (hw : 0 ≤ q.w) (hs : 0 < q.w → ∀ s ∈ q.cdf, ∀ m c, s.2 = .lin m c → tol < q.w * m) : q.Near val := by
  cases h with
  | single data x hfit values mem all over =>
    rw [fit_single (s := data) (by simp [loadBuffer]) mem all] at hfit
    simp only [Except.ok.injEq] at hfit
    have htile : q.cdf = tile ninf (.const 0) [(x, .const 1)] pinf := by rw [← hfit]; rfl
    exact Regular.toNear hval ⟨⟨[(x, .const 1)], htile, by simp, by simp, ⟨x, rfl⟩, .inl rfl⟩, values⟩ hw over.ge hs
  | line data lo k hi hfit values hlo once hhi hlok hk all over =>
    obtain ⟨pts, p, F, hp, hshape, heval, hthr, hrise, hlen, hhead, hlast, hpts⟩ :=
      fit_spec hval (eps := eps) (data := data) (s := data) (l := none) (r := none) (by simp [loadBuffer]) hlo hhi
        (by omega) (fun x hx => (all x hx).1) (fun x hx => by have := (all x hx).2; omega)
    rw [hfit] at hp
    simp only [Except.ok.injEq] at hp
    have hF : ∀ n, q.F n = F n := by
      intro n
      have h1 := values n
      rw [hp, heval] at h1
      simpa using h1.symm
    have hr0 : rank data lo = 0 := by
      have : data.countP (fun v => decide (v ≤ lo)) = data.count lo := by
        rw [List.count]
        refine List.countP_congr fun x hx => ?_
        have := (all x hx).1
        simp only [decide_eq_true_eq, beq_iff_eq]; omega
      rw [rank, this, once]; simp
    rw [hr0] at hhead
    have h2 := length_two hlo hhi (by omega)
    have hpos : ∀ t ∈ pts, 0 ≤ t.2 := fun t ht => by
      rw [(hpts t ht).2]; exact rank_nonneg (hpts t ht).1 h2
    obtain ⟨hmg, hmass⟩ := mass_fit hval hrise hlen hhead hlast
    obtain ⟨ho1, ho2⟩ := overshoot_le hval hrise hlen hpos hlast hk (fun t ht => (all _ (hpts t ht).1).2)
    have hmono : Monotone F := hthr.monotone hval hrise hhead hlast le_rfl hlen
    have hF1 : ∀ n, hi ≤ n → F n = 1 := fun n hn => hthr.after n fun t ht => by
      have := (all _ (hpts t ht).1).2; omega
    have hFm : ∀ n, ev (tileAt (.const 0) (segs val pts ++ [(hi + 1, .const 1)]) n) (val n) = F n := by
      intro n
      have h1 := heval n
      have hL : ∀ s ∈ segs val pts ++ [(hi + 1, .const 1)], IsPl s.2 := by
        intro s hs
        rcases List.mem_append.1 hs with hs | hs
        · obtain ⟨i, a, b, h1, h2, rfl⟩ := segs_get hs
          have := rising_get hrise h1 h2
          exact lineOf_pl hval this.1 this.2
        · simp only [List.mem_singleton] at hs; subst hs; trivial
      rw [hshape, tile_eval, (tileAt_pl (f := .const 0) trivial hL).eval] at h1
      simpa using h1
    refine ⟨by rw [hp, hshape]; exact hmg, hw, hs, fun n => ?_, overshoot val pts, ho1.le, by rw [over]; exact ho2,
      fun n => ?_, hi + 1, fun n hn => ?_⟩
    · rw [hF, ← hF1 (max n hi) (le_max_right _ _)]; exact hmono (le_max_left _ _)
    · rw [hp, hshape, hmass, hFm, hF]
      split_ifs <;> constructor <;> linarith
    · rw [hp, hshape, hmass, hFm, hF1 n (by omega), if_pos hn]

/-- Merging fitted distributions with any weights that sum to 1.  The merged cdf is the mixture up to the
amount by which lines of slope at most 1 per gap between the greatest two samples rise over one float.

Partial: the full claim is equality, see `C38_violated_exceeds_one`, without the hypotheses that the least
sample occurs once (in `IsFit`), see `C38_violated_duplicated_minimum`, and on the slopes, see
`C38_violated_small_slopes`. -/
theorem C38_merge_fitted_partial {val : ℤ → ℚ} (hval : StrictMono val) (rnd : ℚ → ℤ) (eps : ℚ) (parts : List Part)
    (hfit : ∀ q ∈ parts, IsFit val eps q) (hw : ∀ q ∈ parts, 0 ≤ q.w)
    (hsteep : ∀ q ∈ parts, 0 < q.w → ∀ s ∈ q.cdf, ∀ m c, s.2 = .lin m c → tol < q.w * m)
    (hsum : wsum parts = 1) :
    ∃ (p : PF) (G : ℤ → ℚ), merge val rnd (parts.map (·.cdf)) (some (parts.map (fun q => some q.w))) = .ok p ∧
      (∀ n, p.eval val n = .ok (some (G n))) ∧
      ∀ n, blend parts n ≤ G n ∧ G n ≤ blend parts n + osum parts := by
  have hn : ∀ q ∈ parts, q.Near val := fun q hq => fit_near hval (hfit q hq) (hw q hq) (hsteep q hq)
  obtain ⟨p, G, h1, h2, h3⟩ := merge_near hval rnd hn (by rw [hsum]; norm_num [tol])
  refine ⟨p, G, h1, h2, fun n => ?_⟩
  rcases h3 n with h4 | ⟨h4, h5⟩
  · exact h4
  · have ho : 0 ≤ osum parts := by
      refine List.sum_nonneg fun x hx => ?_
      obtain ⟨q, hq, rfl⟩ := List.mem_map.1 hx
      obtain ⟨o, h6, h7, -⟩ := (hn q hq).near
      exact mul_nonneg (hw q hq) (h6.trans h7)
    rw [h5, h4, hsum]
    exact ⟨le_rfl, by linarith⟩

/-- Weights whose sum differs from 1 by more than `1e-8`, and weights that are NaN, are refused, whatever
the distributions are. -/
theorem C38_rejects {val : ℤ → ℚ} (rnd : ℚ → ℤ) (ds : List PF) :
    (∀ ws : List ℚ, |ws.sum - 1| > 1 / 10 ^ 8 → merge val rnd ds (some (ws.map some)) = .error .valueError) ∧
    (∀ ws : List (Option ℚ), none ∈ ws → merge val rnd ds (some ws) = .error .valueError) ∧
    merge val rnd [] none = .error .zeroDivision := by
  refine ⟨fun ws h => ?_, fun ws h => ?_, rfl⟩
  · simp only [merge, weightsOf, bind, Except.bind]
    rw [mapM_some]
    simp only
    rw [if_pos]
    have : tol = 1 / 10 ^ 8 := by norm_num [tol]
    rw [this]; exact h
  · have : ws.mapM id = none := by
      induction ws with
      | nil => simp at h
      | cons w r ih =>
        cases w with
        | none => rfl
        | some w =>
          have h' : none ∈ r := by simpa using h
          simp [List.mapM_cons, ih h']
    simp only [merge, weightsOf, bind, Except.bind, this]

/-! ### Where the code does not give the mixture -/

/-- If the least sample occurs more than once, its mass is lost, and appears at the greatest sample:
merging the single distribution fitted to `1, 1, 4, 9, 20` changes its cdf, at 4 from 1/2 to 1/4, and at 20
from 1 to 3/4. -/
theorem C38_violated_duplicated_minimum :
    ∃ p p', fit ival (1 / 100) [1, 1, 4, 9, 20] = .ok p ∧ merge ival Rat.floor [p] none = .ok p' ∧
      p.eval ival 4 = .ok (some (1 / 2)) ∧ p'.eval ival 4 = .ok (some (1 / 4)) ∧
      p.eval ival 20 = .ok (some 1) ∧ p'.eval ival 20 = .ok (some (3 / 4)) := by
  refine ⟨[(⟨ninf, fin 1, .exc, .exc⟩, .const 0), (co 1 4, .lin (1 / 12) (1 / 6)),
    (co 4 9, .lin (1 / 20) (3 / 10)), (co 9 21, .lin (1 / 44) (6 / 11)), (⟨fin 21, pinf, .inc, .exc⟩, .const 1)],
    [(⟨ninf, fin 1, .exc, .exc⟩, .const 0), (co 1 4, .lin (1 / 12) (-1 / 12)),
    (co 4 9, .lin (1 / 20) (1 / 20)), (co 9 21, .lin (1 / 44) (13 / 44)), (⟨fin 21, pinf, .inc, .exc⟩, .const 1)],
    ?_, ?_, ?_, ?_, ?_, ?_⟩ <;> decide +kernel

/-- The merged cdf of two fitted distributions exceeds 1 and then falls. -/
theorem C38_violated_exceeds_one :
    ∃ p q r, fit ival (1 / 100) [0, 10] = .ok p ∧ fit ival (1 / 100) [0, 20] = .ok q ∧
      merge ival Rat.floor [p, q] none = .ok r ∧
      r.eval ival 20 = .ok (some (21 / 20)) ∧ r.eval ival 21 = .ok (some 1) := by
  refine ⟨[(⟨ninf, fin 0, .exc, .exc⟩, .const 0), (co 0 11, .lin (1 / 10) 0), (⟨fin 11, pinf, .inc, .exc⟩, .const 1)],
    [(⟨ninf, fin 0, .exc, .exc⟩, .const 0), (co 0 21, .lin (1 / 20) 0), (⟨fin 21, pinf, .inc, .exc⟩, .const 1)],
    [(⟨ninf, fin 0, .exc, .exc⟩, .const 0), (co 0 11, .lin (3 / 40) 0), (co 11 21, .lin (1 / 40) (11 / 20)),
      (⟨fin 21, pinf, .inc, .exc⟩, .const 1)], ?_, ?_, ?_, ?_, ?_⟩ <;> decide +kernel

/-- A slope of at most `1e-8` is dropped: merging the uniform distribution on `[0, 2e8]` alone gives a
"cdf" that is 1 at every number. -/
theorem C38_violated_small_slopes :
    merge ival Rat.floor [tile ninf (.const 0) [(0, .lin (1 / 200000000) 0), (200000000, .const 1)] pinf] none =
      .ok [(⟨ninf, pinf, .inc, .exc⟩, .const 1)] := by decide +kernel

/-- The same happens to a cdf with two jumps. -/
theorem C38_violated_jumps :
    merge ival Rat.floor [tile ninf (.const 0) [(0, .const (1 / 2)), (5, .const 1)] pinf] none =
      .ok [(⟨ninf, pinf, .inc, .exc⟩, .const 1)] := by decide +kernel

/-! ### The hypotheses can be met -/

/-- Knots of two uniform distributions. -/
def uniA : List (ℤ × Fn) := [(0, .lin (1 / 4) 0), (4, .const 1)]
def uniB : List (ℤ × Fn) := [(2, .lin (1 / 4) (-1 / 2)), (6, .const 1)]

def partOf (L : List (ℤ × Fn)) (w : ℚ) : Part :=
  ⟨tile ninf (.const 0) L pinf, fun n => ((tileAt (.const 0) L n).eval (ival n)).getD 0, 0, w⟩

example : ∃ p, merge ival Rat.floor [tile ninf (.const 0) uniA pinf, tile ninf (.const 0) uniB pinf, jumpCdf 3]
      (some [some (1 / 4), some (1 / 4), some (1 / 2)]) = .ok p ∧
    p.eval ival 2 = .ok (some (1 / 8)) ∧ p.eval ival 3 = .ok (some (3 / 4)) ∧ p.eval ival 6 = .ok (some 1) := by
  have hregular : ∀ L w, (L.Pairwise (fun s t => s.1 < t.1)) →
      (∀ s ∈ L, (∃ v, s.2 = .const v) ∨ ∃ m c, s.2 = .lin m c ∧ 0 < m) →
      (∃ z, L.getLast? = some (z, .const 1)) →
      (L.length = 1 ∨ ∀ s ∈ L, (tileAt (.const 0) L (s.1 - 1)).eval (ival s.1) = s.2.eval (ival s.1)) →
      Regular ival (partOf L w) := by
    intro L w h1 h2 h3 h4
    refine ⟨⟨L, rfl, h1, h2, h3, h4⟩, fun n => ?_⟩
    have hL : ∀ s ∈ L, IsPl s.2 := by
      intro s hs
      rcases h2 s hs with ⟨v, h⟩ | ⟨m, c, h, hm⟩
      · rw [h]; trivial
      · rw [h]; exact hm
    show (tile ninf (.const 0) L pinf).eval ival n = _
    rw [tile_eval, (tileAt_pl (f := .const 0) trivial hL).eval]
    rfl
  obtain ⟨p, h1, h2⟩ := C38_merge_partial ival_strictMono Rat.floor
    [partOf uniA (1 / 4), partOf uniB (1 / 4), partOf [(3, .const 1)] (1 / 2)]
    (by
      simp only [List.mem_cons, List.not_mem_nil, or_false]
      rintro q (rfl | rfl | rfl)
      · refine hregular _ _ (by decide) (by simp [uniA]) ⟨4, rfl⟩ (.inr ?_)
        simp only [uniA, List.mem_cons, List.not_mem_nil, or_false]
        rintro s (rfl | rfl) <;> decide +kernel
      · refine hregular _ _ (by decide) (by simp [uniB]) ⟨6, rfl⟩ (.inr ?_)
        simp only [uniB, List.mem_cons, List.not_mem_nil, or_false]
        rintro s (rfl | rfl) <;> decide +kernel
      · exact hregular _ _ (by simp) (by simp) ⟨3, rfl⟩ (.inl rfl))
    (by
      simp only [List.mem_cons, List.not_mem_nil, or_false]
      rintro q (rfl | rfl | rfl) <;> simp [partOf])
    (by
      simp only [List.mem_cons, List.not_mem_nil, or_false]
      rintro q (rfl | rfl | rfl) _ <;> simp [partOf, uniA, uniB, tile, tol] <;> norm_num)
    (by simp [wsum, partOf]; norm_num)
  refine ⟨p, ?_, ?_, ?_, ?_⟩
  · exact h1
  · rw [h2]; decide +kernel
  · rw [h2]; decide +kernel
  · rw [h2]; decide +kernel

/-- Fitted distributions. -/
example : ∃ (p q r : PF) (G : ℤ → ℚ), fit ival (1 / 100) [0, 10] = .ok p ∧ fit ival (1 / 100) [0, 20] = .ok q ∧
    merge ival Rat.floor [p, q] (some [some (1 / 3), some (2 / 3)]) = .ok r ∧
    (∀ n, r.eval ival n = .ok (some (G n))) ∧ 2 / 3 ≤ G 10 ∧ G 10 ≤ 2 / 3 + 1 / 15 := by
  obtain ⟨p, F, h1, h2, -, -, -, -⟩ := C35_fit ival_strictMono (1 / 100) [0, 10] none none (by simp) (by simp)
    (lo := 0) (hi := 10) (by decide) (by decide) (by decide) (by decide) (by decide)
  obtain ⟨q, H, h3, h4, -, -, -, -⟩ := C35_fit ival_strictMono (1 / 100) [0, 20] none none (by simp) (by simp)
    (lo := 0) (hi := 20) (by decide) (by decide) (by decide) (by decide) (by decide)
  have ep : p = [(⟨ninf, fin 0, .exc, .exc⟩, .const 0), (co 0 11, .lin (1 / 10) 0),
      (⟨fin 11, pinf, .inc, .exc⟩, .const 1)] := by
    have : fit ival (1 / 100) [0, 10] = .ok [(⟨ninf, fin 0, .exc, .exc⟩, .const 0), (co 0 11, .lin (1 / 10) 0),
      (⟨fin 11, pinf, .inc, .exc⟩, .const 1)] := by decide +kernel
    rw [this] at h1
    exact (Except.ok.inj h1).symm
  have eq : q = [(⟨ninf, fin 0, .exc, .exc⟩, .const 0), (co 0 21, .lin (1 / 20) 0),
      (⟨fin 21, pinf, .inc, .exc⟩, .const 1)] := by
    have : fit ival (1 / 100) [0, 20] = .ok [(⟨ninf, fin 0, .exc, .exc⟩, .const 0), (co 0 21, .lin (1 / 20) 0),
      (⟨fin 21, pinf, .inc, .exc⟩, .const 1)] := by decide +kernel
    rw [this] at h3
    exact (Except.ok.inj h3).symm
  obtain ⟨r, G, h5, h6, h7⟩ := C38_merge_fitted_partial ival_strictMono Rat.floor (1 / 100)
    [⟨p, F, 1 / 10, 1 / 3⟩, ⟨q, H, 1 / 20, 2 / 3⟩]
    (by
      simp only [List.mem_cons, List.not_mem_nil, or_false]
      rintro t (rfl | rfl)
      · exact .line [0, 10] 0 0 10 h1 h2 (by simp) (by decide) (by simp) (by simp) (by simp) (by simp)
          (by norm_num [ival])
      · exact .line [0, 20] 0 0 20 h3 h4 (by simp) (by decide) (by simp) (by simp) (by simp) (by simp)
          (by norm_num [ival]))
    (by
      simp only [List.mem_cons, List.not_mem_nil, or_false]
      rintro t (rfl | rfl) <;> norm_num)
    (by
      simp only [List.mem_cons, List.not_mem_nil, or_false]
      rintro t (rfl | rfl) _ <;> simp [ep, eq, tol] <;> norm_num)
    (by simp [wsum]; norm_num)
  have e1 : F 10 = 1 := by
    have := h2 10
    rw [ep, show PF.eval ival _ 10 = .ok (some 1) by decide +kernel] at this
    simpa using this.symm
  have e2 : H 10 = 1 / 2 := by
    have := h4 10
    rw [eq, show PF.eval ival _ 10 = .ok (some (1 / 2)) by decide +kernel] at this
    simpa using this.symm
  have h8 := h7 10
  simp only [blend, osum, List.map_cons, List.map_nil, List.sum_cons, List.sum_nil, e1, e2] at h8
  exact ⟨p, q, r, G, h1, h3, h5, h6, by linarith [h8.1], by linarith [h8.2]⟩

example : merge ival Rat.floor [tile ninf (.const 0) uniA pinf] (some ([1 / 2].map some)) = .error .valueError :=
  (C38_rejects Rat.floor _).1 [1 / 2] (by norm_num [abs_of_neg])

end Verif.Num
