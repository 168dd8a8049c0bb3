import Verif.Numeric.CropLemmas9
import Verif.Numeric.Props

/-!
# Properties of cropping

C37 (cropping a numeric distribution conditions it).

`val n` is the number of the `n`-th finite float.
-/

namespace Verif.Num

open Iv Iv.FP Fun

/-! ## C37 -/

/-- Any piecewise linear cdf, given by its knots: 0 before the first, constant or increasing from knot to
knot, 1 from the last on.  Cropping it to an interval `I` over which it increases gives the cdf of the
conditional distribution: 0 below `I`, 1 from its greatest float on, and
`(F n - F (min I)) / (F (max I) - F (min I))` for `n` in `I`.

Partial, three hypotheses cannot be dropped: `hcont`, no jumps at a knot in `I` (except its least float),
see `C37_violated_jump`; `hsize`, no linear piece that consists of a single float of `I`, see
`C37_violated_single_float`; and the mass of `I` is taken to be `F (max I) - F (min I)`, which leaves out
mass on the least float of `I`, see `C37_violated_mass_at_lower_end`. -/
theorem C37_crop_conditions_partial {val : ℤ → ℚ} (hval : StrictMono val) (knots : List (ℤ × Fn)) (F : ℤ → ℚ)
    (I : CS) (hincr : knots.Pairwise (fun s t => s.1 < t.1))
    (hpieces : ∀ s ∈ knots, (∃ c, s.2 = .const c) ∨ ∃ m c, 0 < m ∧ s.2 = .lin m c)
    (hone : ∃ z, knots.getLast? = some (z, .const 1))
    (hF : ∀ n, (tile ninf (.const 0) knots pinf).eval val n = .ok (some (F n)))
    {y0 y1 : ℚ} (hy0 : LowEnd F I y0) (hy1 : HighEnd F I y1) (hy : y0 < y1) {m : ℤ} (hm : I.Mem (fin m))
    (hcont : ∀ s ∈ knots, I.Mem (fin s.1) → I.Mem (fin (s.1 - 1)) →
      (tileAt (.const 0) knots (s.1 - 1)).eval (val s.1) = s.2.eval (val s.1))
    (hsize : ∀ s ∈ knots, I.Mem (fin s.1) → I.Mem (fin (s.1 - 1)) →
      (∃ m c, tileAt (.const 0) knots (s.1 - 1) = .lin m c) →
      I.Mem (fin (s.1 - 2)) ∧ ∀ t ∈ knots, t.1 ≠ s.1 - 1) :
    ∃ (p' : PF) (G : ℤ → ℚ), crop val (tile ninf (.const 0) knots pinf) I = .ok p' ∧
      (∀ n, p'.eval val n = .ok (some (G n))) ∧ Conditioned F I y0 y1 G := by
  have hL : ∀ s ∈ knots, IsPl s.2 := by
    intro s hs
    rcases hpieces s hs with ⟨c, e⟩ | ⟨m, c, h, e⟩
    · rw [e]; trivial
    · rw [e]; exact h
  have hlast : lastOf (.const 0) knots = .const 1 := by
    obtain ⟨z, hz⟩ := hone
    obtain ⟨l, rfl⟩ := List.getLast?_eq_some_iff.1 hz
    exact lastOf_append _ _ _ _
  have hpl : ∀ n, IsPl (tileAt (.const 0) knots n) := fun n => tileAt_pl (f := .const 0) trivial hL
  have hF' : ∀ n, ev (tileAt (.const 0) knots n) (val n) = F n := by
    intro n
    have h1 := hF n
    rw [tile_eval, (hpl n).eval] at h1
    simpa using h1
  obtain ⟨R, G, -, -, -, -, h3, h4, h5⟩ := crop_conditions hval hincr hL hlast hF' hy0 hy1 hy hm
    (fun s hs h1 h2 => by rw [ev, ev, hcont s hs h1 h2])
    (fun s hs h1 h2 hlin => hsize s hs h1 h2 (by
      revert hlin
      cases tileAt (.const 0) knots (s.1 - 1) with
      | lin m c => exact fun _ => ⟨m, c, rfl⟩
      | _ => exact fun h => h.elim))
  exact ⟨_, G, h3, h4, h5⟩

/-- Two uniform parts with a gap: 0 to 4, nothing up to 10, and 10 to 14. -/
def gapped : List (ℤ × Fn) :=
  [(0, .lin (1 / 8) 0), (4, .const (1 / 2)), (10, .lin (1 / 8) (-3 / 4)), (14, .const 1)]

/-- Cropping at 2 and 12, inside the two parts. -/
example : ∃ (p' : PF) (G : ℤ → ℚ), crop ival (tile ninf (.const 0) gapped pinf) ⟨fin 2, fin 12, .inc, .inc⟩ =
    .ok p' ∧ (∀ n, p'.eval ival n = .ok (some (G n))) ∧ G 1 = 0 ∧ G 3 = 1 / 4 ∧ G 7 = 1 / 2 ∧ G 12 = 1 := by
  obtain ⟨p', G, h1, h2, h3⟩ := C37_crop_conditions_partial ival_strictMono gapped
    (fun n => ((tileAt (.const 0) gapped n).eval (ival n)).getD 0) ⟨fin 2, fin 12, .inc, .inc⟩
    (by decide) (by simp [gapped]) ⟨14, rfl⟩
    (fun n => by
      rw [tile_eval, (tileAt_pl (f := .const 0) (l := gapped) (n := n) trivial (by simp [gapped, IsPl])).eval]
      rfl)
    (y0 := 1 / 4) (y1 := 3 / 4)
    (.inr ⟨2, by simp [CS.Mem, FP.lt_def, leb], fun n => by simp [CS.Mem, FP.lt_def, leb]; omega, by decide +kernel⟩)
    (.inr ⟨12, by simp [CS.Mem, FP.lt_def, leb], fun n => by simp [CS.Mem, FP.lt_def, leb]; omega, by decide +kernel⟩)
    (by norm_num) (m := 2) (by simp [CS.Mem, FP.lt_def, leb])
    (by
      simp only [gapped, List.mem_cons, List.not_mem_nil, or_false]
      rintro s (rfl | rfl | rfl | rfl) _ _ <;> decide +kernel)
    (by
      simp only [gapped, List.mem_cons, List.not_mem_nil, or_false]
      rintro s (rfl | rfl | rfl | rfl) <;> simp [CS.Mem, FP.lt_def, leb])
  refine ⟨p', G, h1, h2, h3.below 1 (fun m hm => ?_), ?_, ?_, ?_⟩
  · simp [CS.Mem, FP.lt_def, leb] at hm; omega
  · rw [h3.inside 3 (by simp [CS.Mem, FP.lt_def, leb])]; decide +kernel
  · rw [h3.inside 7 (by simp [CS.Mem, FP.lt_def, leb])]; decide +kernel
  · rw [h3.inside 12 (by simp [CS.Mem, FP.lt_def, leb])]; decide +kernel

/-- Cropping a distribution that was fitted to any sample with at least two different values, to any
interval `I` that does not exceed the greatest sample and over which the cdf increases.

Partial: if `I` starts below the least sample, that sample must not occur twice (`C37_violated_jump`); `I`
ends at the greatest sample at the latest (`C37_violated_beyond_greatest`); samples in `I` are no
neighbouring floats (`C37_violated_single_float`). -/
theorem C37_crop_fitted_partial {val : ℤ → ℚ} (hval : StrictMono val) (eps : ℚ)
    (data : List ℤ) (leftmost rightmost : Option ℤ) (hl : ∀ v ∈ leftmost, ∀ x ∈ data, v < x)
    (hr : ∀ v ∈ rightmost, ∀ x ∈ data, x < v) {lo hi : ℤ}
    (hlo : lo ∈ sample data leftmost rightmost) (hhi : hi ∈ sample data leftmost rightmost)
    (hlt : lo < hi) (hmin : ∀ x ∈ sample data leftmost rightmost, lo ≤ x)
    (hmax : ∀ x ∈ sample data leftmost rightmost, x ≤ hi) :
    ∃ (p : PF) (F : ℤ → ℚ), fit val eps data leftmost rightmost = .ok p ∧
      (∀ n, p.eval val n = .ok (some (F n))) ∧ StrictMonoOn F (Set.Icc lo hi) ∧
      ∀ (I : CS) (y0 y1 : ℚ), LowEnd F I y0 → HighEnd F I y1 → y0 < y1 → (∃ m, I.Mem (fin m)) →
        (∀ n, I.Mem (fin n) → n ≤ hi) →
        (I.Mem (fin (lo - 1)) → (sample data leftmost rightmost).count lo = 1) →
        (∀ x ∈ sample data leftmost rightmost, x ≠ lo → I.Mem (fin x) → I.Mem (fin (x - 1)) →
          I.Mem (fin (x - 2)) ∧ x - 1 ∉ sample data leftmost rightmost) →
        ∃ (p' : PF) (G : ℤ → ℚ), crop val p I = .ok p' ∧ (∀ n, p'.eval val n = .ok (some (G n))) ∧
          Conditioned F I y0 y1 G := by
  have hs : loadBuffer data leftmost rightmost = .ok (sample data leftmost rightmost) :=
    loadBuffer_ok hl hr
  obtain ⟨pts, p, F, hp, hshape, heval, hthr, hrise, hlen, hhead, hlast, hpts⟩ :=
    fit_spec hval (eps := eps) hs hlo hhi hlt hmin hmax
  have h2 := length_two hlo hhi (by omega)
  refine ⟨p, F, hp, heval, ?_, ?_⟩
  · intro a ha b hb hab
    exact hthr.strict hval hrise hhead hlast (rank_nonneg hlo h2) hlen ha.1 hab hb.2
  · rintro I y0 y1 hy0 hy1 hy ⟨m, hm⟩ htop hdup hsize
    refine crop_fit hval hshape heval hrise hlen hhead hlast htop (fun h => rank_single hmin (hdup h)) ?_ hy0
      hy1 hy hm
    intro q hq hne h1 h3
    obtain ⟨h4, h5⟩ := hsize q.1 (hpts q hq).1 hne h1 h3
    exact ⟨h4, fun t ht e => h5 (by rw [← e]; exact (hpts t ht).1)⟩

example : ∃ (p : PF) (F : ℤ → ℚ) (p' : PF) (G : ℤ → ℚ), fit ival (1 / 100) [0, 4, 10, 20] = .ok p ∧
    crop ival p ⟨fin 1, fin 20, .exc, .exc⟩ = .ok p' ∧ (∀ n, p'.eval ival n = .ok (some (G n))) ∧
    G 1 = 0 ∧ G 10 = (F 10 - F 2) / (F 19 - F 2) ∧ G 19 = 1 := by
  obtain ⟨p, F, h1, h2, h3, h4⟩ := C37_crop_fitted_partial ival_strictMono (1 / 100) [0, 4, 10, 20] none none
    (by simp) (by simp) (lo := 0) (hi := 20) (by decide) (by decide) (by decide) (by decide) (by decide)
  obtain ⟨p', G, h5, h6, h7⟩ := h4 ⟨fin 1, fin 20, .exc, .exc⟩ (F 2) (F 19)
    (.inr ⟨2, by simp [CS.Mem, FP.lt_def, leb], fun n => by simp [CS.Mem, FP.lt_def, leb]; omega, rfl⟩)
    (.inr ⟨19, by simp [CS.Mem, FP.lt_def, leb], fun n => by simp [CS.Mem, FP.lt_def, leb]; omega, rfl⟩)
    (h3 (by simp) (by simp) (by norm_num)) ⟨2, by simp [CS.Mem, FP.lt_def, leb]⟩
    (fun n => by simp [CS.Mem, FP.lt_def, leb]; omega)
    (by simp [CS.Mem, FP.lt_def, leb])
    (by
      simp only [sample, Option.toList_none, List.nil_append, List.append_nil, List.mem_cons, List.not_mem_nil,
        or_false]
      rintro x (rfl | rfl | rfl | rfl) <;> simp [CS.Mem, FP.lt_def, leb])
  refine ⟨p, F, p', G, h1, h5, h6, h7.below 1 (fun m hm => ?_), h7.inside 10 (by simp [CS.Mem, FP.lt_def, leb]),
    h7.above 19 (by simp) (fun m hm => ?_)⟩
  · simp [CS.Mem, FP.lt_def, leb] at hm; omega
  · simp [CS.Mem, FP.lt_def, leb] at hm; omega

/-- Cropping a fitted distribution to an interval below the least sample, or at least two floats above the
greatest, raises `Unsatisfiability`. -/
theorem C37_unsatisfiable {val : ℤ → ℚ} (hval : StrictMono val) (eps : ℚ)
    (data : List ℤ) (leftmost rightmost : Option ℤ) (hl : ∀ v ∈ leftmost, ∀ x ∈ data, v < x)
    (hr : ∀ v ∈ rightmost, ∀ x ∈ data, x < v) {lo hi : ℤ}
    (hlo : lo ∈ sample data leftmost rightmost) (hhi : hi ∈ sample data leftmost rightmost)
    (hlt : lo < hi) (hmin : ∀ x ∈ sample data leftmost rightmost, lo ≤ x)
    (hmax : ∀ x ∈ sample data leftmost rightmost, x ≤ hi) :
    ∃ p, fit val eps data leftmost rightmost = .ok p ∧
      ∀ (I : CS), (∃ m, I.Mem (fin m)) →
        (∀ n, I.Mem (fin n) → n < lo) ∨ (∀ n, I.Mem (fin n) → hi + 1 < n) →
        crop val p I = .error .unsatisfiable := by
  have hs : loadBuffer data leftmost rightmost = .ok (sample data leftmost rightmost) :=
    loadBuffer_ok hl hr
  obtain ⟨pts, p, F, hp, hshape, heval, hthr, hrise, hlen, hhead, hlast, hpts⟩ :=
    fit_spec hval (eps := eps) hs hlo hhi hlt hmin hmax
  exact ⟨p, hp, fun I ⟨m, hm⟩ hout => crop_fit_outside hshape hlen hhead hm hout⟩

example : ∃ p, fit ival (1 / 100) [0, 4, 10, 20] = .ok p ∧
    crop ival p ⟨fin (-7), fin (-2), .inc, .inc⟩ = .error .unsatisfiable := by
  obtain ⟨p, h1, h2⟩ := C37_unsatisfiable ival_strictMono (1 / 100) [0, 4, 10, 20] none none
    (by simp) (by simp) (lo := 0) (hi := 20) (by decide) (by decide) (by decide) (by decide) (by decide)
  refine ⟨p, h1, h2 _ ⟨-3, by simp [CS.Mem, FP.lt_def, leb]⟩ (.inl fun n hn => ?_)⟩
  simp [CS.Mem, FP.lt_def, leb] at hn; omega

/-- A distribution on a single value `x`, cropped to an interval that contains `x` and a float below it, is
unchanged. -/
theorem C37_crop_dirac {val : ℤ → ℚ} (x : ℤ) (I : CS) (h1 : I.Mem (fin x)) (h2 : I.Mem (fin (x - 1))) :
    crop val (jumpCdf x) I = .ok (jumpCdf x) := crop_jump h1 h2

example : crop ival (jumpCdf 5) ⟨fin 2, fin 8, .inc, .inc⟩ = .ok (jumpCdf 5) :=
  C37_crop_dirac 5 _ (by simp [CS.Mem, FP.lt_def, leb]) (by simp [CS.Mem, FP.lt_def, leb])

/-- A jump inside the interval is multiplied with the mass of the interval instead of divided by it: the
least sample 1 occurs twice and has cdf value 1/4, the value at 8 is 7/10, so under the condition `x < 9`
the probability of 1 is 5/14; but the cropped cdf has value 7/40 there. -/
theorem C37_violated_jump :
    ∃ p p', fit ival (1 / 100) [1, 1, 4, 9, 20] = .ok p ∧ p.eval ival 1 = .ok (some (1 / 4)) ∧
      p.eval ival 8 = .ok (some (7 / 10)) ∧ crop ival p ⟨ninf, fin 9, .exc, .exc⟩ = .ok p' ∧
      p'.eval ival 1 = .ok (some (7 / 40)) ∧ (1 / 4 : ℚ) / (7 / 10) ≠ 7 / 40 := by
  refine ⟨[(⟨ninf, fin 1, .exc, .exc⟩, .const 0), (co 1 4, .lin (1 / 12) (1 / 6)),
    (co 4 9, .lin (1 / 20) (3 / 10)), (co 9 21, .lin (1 / 44) (6 / 11)),
    (⟨fin 21, pinf, .inc, .exc⟩, .const 1)],
    [(⟨ninf, fin 1, .exc, .exc⟩, .const 0), (co 1 4, .lin (5 / 42) (47 / 840)),
    (co 4 8, .lin (1 / 14) (69 / 280)), (⟨fin 8, pinf, .inc, .exc⟩, .const 1)], ?_, ?_, ?_, ?_, ?_, ?_⟩ <;>
    decide +kernel

/-- Mass on the least float of the interval is lost: a distribution on the value 5, cropped to `[5, 8]`,
becomes a distribution on the value 8, and cropped to `[5, inf)` it fails. -/
theorem C37_violated_mass_at_lower_end :
    crop ival (jumpCdf 5) ⟨fin 5, fin 8, .inc, .inc⟩ = .ok (jumpCdf 8) ∧
    crop ival (jumpCdf 5) ⟨fin 5, pinf, .inc, .exc⟩ = .error .assertionError := by
  constructor <;> decide +kernel

/-- An interval that exceeds the greatest sample: the cropped cdf is greater than 1. -/
theorem C37_violated_beyond_greatest :
    ∃ p p', fit ival (1 / 100) [1, 4, 9, 20] = .ok p ∧ crop ival p ⟨fin 4, pinf, .inc, .exc⟩ = .ok p' ∧
      p'.eval ival 25 = .ok (some (203 / 198)) := by
  refine ⟨[(⟨ninf, fin 1, .exc, .exc⟩, .const 0), (co 1 4, .lin (1 / 9) (-1 / 9)),
    (co 4 9, .lin (1 / 15) (1 / 15)), (co 9 21, .lin (1 / 33) (13 / 33)),
    (⟨fin 21, pinf, .inc, .exc⟩, .const 1)],
    [(⟨ninf, fin 4, .exc, .exc⟩, .const 0), (co 4 9, .lin (1 / 10) (-2 / 5)),
    (co 9 21, .lin (1 / 22) (1 / 11)), (⟨fin 21, pinf, .inc, .exc⟩, .const (203 / 198))], ?_, ?_, ?_⟩ <;>
    decide +kernel

/-- Linear pieces of a single float become constants, and the mass up to the next float is lost: for the
samples 0, 2, 3, 20, the cdf at 3 drops from 2/3 to 1/3 by cropping to the whole range. -/
theorem C37_violated_single_float :
    ∃ p p', fit ival (1 / 100) [0, 2, 3, 20] = .ok p ∧ p.eval ival 3 = .ok (some (2 / 3)) ∧
      crop ival p ⟨fin 0, fin 20, .inc, .inc⟩ = .ok p' ∧ p'.eval ival 3 = .ok (some (1 / 3)) := by
  refine ⟨[(⟨ninf, fin 0, .exc, .exc⟩, .const 0), (co 0 2, .lin (1 / 6) 0), (co 2 3, .lin (1 / 3) (-1 / 3)),
    (co 3 21, .lin (1 / 51) (31 / 51)), (⟨fin 21, pinf, .inc, .exc⟩, .const 1)],
    [(⟨ninf, fin 0, .exc, .exc⟩, .const 0), (co 0 2, .lin (1 / 6) 0), (co 2 3, .const (1 / 3)),
    (co 3 20, .lin (1 / 51) (14 / 51)), (⟨fin 20, pinf, .inc, .exc⟩, .const 1)], ?_, ?_, ?_, ?_⟩ <;>
    decide +kernel

/-- An interval of mass zero inside a gap is not rejected: the result is a distribution on its greatest
float. -/
theorem C37_violated_zero_mass :
    (tile ninf (.const 0) gapped pinf).eval ival 5 = .ok (some (1 / 2)) ∧
    (tile ninf (.const 0) gapped pinf).eval ival 8 = .ok (some (1 / 2)) ∧
    crop ival (tile ninf (.const 0) gapped pinf) ⟨fin 5, fin 8, .inc, .inc⟩ = .ok (jumpCdf 8) := by
  refine ⟨?_, ?_, ?_⟩ <;> decide +kernel

end Verif.Num
