import Verif.Numeric.MomentLemmas
import Verif.Numeric.PpfLemmas
import Verif.Numeric.Props5

/-!
# Properties of moments of numeric distributions

C75 (moments, expectation and variance).

`val n` is the number of the `n`-th finite float, `lab` maps values to labels, `prev x` is the float before `x`.
-/

namespace Verif.Num

open Iv Iv.FP Fun

/-! ## C75 -/

/-- Moments of a distribution that was fitted to any sample with at least two different values, whose labels
are a linear function of the values: the moment, in labels, of the distribution that is uniform between
neighbouring kept samples, plus what the density contributes up to the float behind the greatest sample.

Partial: the least sample must not be duplicated (`C75_violated_duplicated_minimum`), samples other than the
greatest must not be neighbouring floats (`C75_violated_neighbours`), and the full claim has no remainder.  For
labels, `hprev` supposes that scaling does not round. -/
theorem C75_fit_partial {val : ℤ → ℚ} (hval : StrictMono val) {lab prev : ℚ → ℚ} {s μ : ℚ} (hpos : 0 < s)
    (hlab : ∀ x, lab x = s * x + μ) (hprev : ∀ n, prev (lab (val n)) = lab (val (n - 1))) (eps : ℚ) (data : List ℤ)
    (leftmost rightmost : Option ℤ) (hl : ∀ v ∈ leftmost, ∀ x ∈ data, v < x)
    (hr : ∀ v ∈ rightmost, ∀ x ∈ data, x < v) {lo hi : ℤ}
    (hlo : (sample data leftmost rightmost).count lo = 1) (hhi : hi ∈ sample data leftmost rightmost)
    (hlt : lo < hi) (hmin : ∀ x ∈ sample data leftmost rightmost, lo ≤ x)
    (hmax : ∀ x ∈ sample data leftmost rightmost, x ≤ hi)
    (hgap : ∀ x ∈ sample data leftmost rightmost, x + 1 ∈ sample data leftmost rightmost → x + 1 = hi) :
    ∃ (p : PF) (F : ℤ → ℚ) (K : List ℤ) (k : ℤ), fit val eps data leftmost rightmost = .ok p ∧
      (∀ n, p.eval val n = .ok (some (F n))) ∧ RunsFromTo (K ++ [k, hi]) lo hi ∧
      StraightBetween val (K ++ [k, hi]) F ∧
      ∀ (order : ℕ) (c : ℚ), ∃ q, moment val lab prev p order c = .ok q ∧
        (q : ℝ) = momentOf (fun n => (lab (val n) : ℝ)) (fun n => (F n : ℝ)) c order (K ++ [k, hi]) +
          (F hi - F k) / (lab (val hi) - lab (val k)) *
            ∫ t in (lab (val hi) : ℝ)..(lab (val (hi + 1)) : ℝ), (t - (c : ℝ)) ^ order := by
  have hs : loadBuffer data leftmost rightmost = .ok (sample data leftmost rightmost) := loadBuffer_ok hl hr
  have hlo' : lo ∈ sample data leftmost rightmost := List.count_pos_iff.1 (by omega)
  obtain ⟨pts, p, F, hp, hp', heval, hthr, hrise, hlen, hhead, hlast, hpts⟩ :=
    fit_spec hval (eps := eps) hs hlo' hhi hlt hmin hmax
  have hF : ∀ q ∈ pts, F q.1 = q.2 := fun q hq => hthr.at_mem hval hrise hlen hq
  have hcdf := fitCdf_of hval (eps := eps) hs hlo' hhi hlt hmin hmax
  obtain ⟨p2, F2, hp2, -, -, hfc⟩ := hcdf
  obtain rfl : p = p2 := by rw [hp] at hp2; exact Except.ok.inj hp2
  obtain ⟨l, k, z, e⟩ : ∃ l k z, pts = l ++ [k, z] := by
    obtain ⟨l', rfl⟩ := List.getLast?_eq_some_iff.1 hlast
    rcases List.eq_nil_or_concat l' with rfl | ⟨l, k, rfl⟩
    · simp at hlen
    · exact ⟨l, k, (hi, 1), by simp⟩
  obtain rfl : z = (hi, 1) := by rw [e] at hlast; simpa using hlast
  have hmap : pts.map Prod.fst = l.map Prod.fst ++ [k.1, hi] := by rw [e]; simp
  refine ⟨p, F, l.map Prod.fst, k.1, hp, heval, ?_, ?_, fun order c => ?_⟩
  · rw [← hmap]
    refine ⟨?_, ?_, ?_⟩
    · rw [List.pairwise_map]; exact hrise.imp (fun h => h.1)
    · rw [List.head?_map, hhead]; rfl
    · rw [List.getLast?_map, hlast]; rfl
  · rw [← hmap]
    intro i a b ha hb n hn1 hn2
    rw [List.getElem?_map, Option.map_eq_some_iff] at ha hb
    obtain ⟨a', ha', rfl⟩ := ha
    obtain ⟨b', hb', rfl⟩ := hb
    have hab := rising_get hrise ha' hb'
    have hv : val b'.1 - val a'.1 ≠ 0 := sub_ne_zero.2 (ne_of_gt (hval hab.1))
    rw [hF a' (List.mem_of_getElem? ha'), hF b' (List.mem_of_getElem? hb'), hthr.on i a' b' ha' hb' n hn1 hn2]
    field_simp
    ring
  · obtain ⟨a, b, r, e2⟩ : ∃ a b r, pts = a :: b :: r := by
      match pts, hlen with
      | a :: b :: r, _ => exact ⟨a, b, r, rfl⟩
    rw [e2] at hrise hlast hp' hpts hF hhead
    simp only [List.head?_cons, Option.some.injEq] at hhead
    obtain ⟨q, hq1, hq2⟩ := moment_pieces hval hpos hlab hprev (c := c) (r := order) (hi := hi) hrise
      (by rw [hlast]; rfl) (fun x hx y hy h => by
        have := hgap x.1 (hpts x hx).1 (by rw [h]; exact (hpts y hy).1)
        omega)
    refine ⟨q.sum, ?_, ?_⟩
    · have hd : ((densOf p).drop 1).dropLast =
          densOf (tile (fin a.1) (lineOf val a b) (segs val (b :: r)) (fin (hi + 1))) := by
        rw [hp', ← tile_inner (z := hi + 1) (h := .const 1) (v := pinf)]
        simp only [segs, List.cons_append, tile, densOf, List.map, List.drop_succ_cons, List.drop_zero, List.map_dropLast]
      have hdir : isDirac p = false := by
        rw [hp', isDirac, tile_length]; simp [segs]
      simp only [moment, hfc.dens, bind, Except.bind, hdir, Bool.false_eq_true, false_and, if_false, hd, hq1]
    · rw [hq2, ← e2, e, pieceSum_tail, ← e, momentOf, ← hmap, e2, gapMoments_eq hlast hF, integral_power (fun n => lab (val n))]
      have h0 : F lo = 0 := by
        rw [← rank_single hmin hlo]
        have := hF a (by simp)
        rw [hhead] at this; exact this
      have hFk : F k.1 = k.2 := hF k (by rw [← e2, e]; simp)
      have hFh : F hi = 1 := hF (hi, 1) (List.mem_of_getLast? hlast)
      simp only [List.map_cons, List.head?_cons, Option.map_some, Option.getD_some, hhead, h0, hFk, hFh]
      push_cast
      ring

example : ∃ (p : PF) (q : ℚ), fit ival (1 / 100) [0, 4, 10] = .ok p ∧
    moment ival (fun x => 2 * x + 3) (fun x => x - 2) p 1 0 = .ok q := by
  obtain ⟨p, F, K, k, h1, -, -, -, h2⟩ := C75_fit_partial ival_strictMono (lab := fun x => 2 * x + 3)
    (prev := fun x => x - 2) (s := 2) (μ := 3) (by norm_num) (fun x => rfl)
    (fun n => by simp only [ival]; push_cast; ring) (1 / 100)
    [0, 4, 10] none none (by simp) (by simp) (lo := 0) (hi := 10) (by decide) (by decide) (by decide) (by decide)
    (by decide) (by decide)
  obtain ⟨q, h3, -⟩ := h2 1 0
  exact ⟨p, q, h1, h3⟩

/-- The expectation of a distribution of a single value is that value, and its variance is 0.

Partial: only if labels are the values themselves, see `C75_violated_scaled_value`. -/
theorem C75_dirac_partial (val : ℤ → ℚ) (prev : ℚ → ℚ) (x : ℤ) :
    expectation val id prev (jumpCdf x) = .ok (val x) ∧ variance val id prev (jumpCdf x) = .ok 0 ∧
      ∀ order c, 2 ≤ order → c = val x → moment val id prev (jumpCdf x) order c = .ok 0 := by
  have hp : pdf (jumpCdf x) = .ok (impulse [((⟨ninf, fin x, .exc, .exc⟩ : CS), XQ.fin 0),
      ((⟨fin x, pinf, .inc, .exc⟩ : CS), XQ.fin 0)]) := rfl
  have h2 : isDirac (jumpCdf x) = true := rfl
  have he : expectation val id prev (jumpCdf x) = .ok (val x) := by
    simp only [expectation, moment, hp, bind, Except.bind]
    rfl
  refine ⟨he, ?_, ?_⟩
  · simp only [variance, he, bind, Except.bind, moment, hp]
    rfl
  · intro order c ho _
    simp only [moment, hp, bind, Except.bind]
    rw [if_neg (by omega), if_pos ⟨h2, ho⟩]

example : expectation ival id (fun x => x - 1) (jumpCdf 4) = .ok 4 := (C75_dirac_partial ival _ 4).1

/-- If the least sample is duplicated, the expectation, 17/3 and a bit, lies below every sample, and the moment of
order 0 is not 1. -/
theorem C75_violated_duplicated_minimum :
    ∃ p, fit ival (1 / 100) [10, 10, 10, 20] = .ok p ∧
      expectation ival id (fun x => x - 1) p = .ok (341 / 60) ∧
      moment ival id (fun x => x - 1) p 0 0 = .ok (11 / 30) := by
  refine ⟨[(⟨ninf, fin 10, .exc, .exc⟩, .const 0), (co 10 21, .lin (1 / 30) (1 / 3)),
    (⟨fin 21, pinf, .inc, .exc⟩, .const 1)], ?_, ?_, ?_⟩ <;> decide +kernel

/-- If two samples are neighbouring floats, the mass between them is left out. -/
theorem C75_violated_neighbours :
    ∃ p, fit ival 0 [0, 1, 10] = .ok p ∧
      p.eval ival 1 = .ok (some (1 / 2)) ∧
      moment ival id (fun x => x - 1) p 0 0 = .ok (5 / 9) := by
  refine ⟨[(⟨ninf, fin 0, .exc, .exc⟩, .const 0), (co 0 1, .lin (1 / 2) 0), (co 1 11, .lin (1 / 18) (4 / 9)),
    (⟨fin 11, pinf, .inc, .exc⟩, .const 1)], ?_, ?_, ?_⟩ <;> decide +kernel

/-- The expectation of a single value is the scaled value and not the label: here the label of 4 is 11. -/
theorem C75_violated_scaled_value :
    expectation ival (fun x => 2 * x + 3) (fun x => x - 2) (jumpCdf 4) = .ok 4 ∧
      (fun x : ℚ => 2 * x + 3) (ival 4) = 11 := by
  refine ⟨?_, ?_⟩ <;> decide +kernel

/-- The moment of order 1 of a single value ignores the center, moments of higher order are 0 around every
center, and the moment of order 0 is 0 instead of 1. -/
theorem C75_violated_center :
    moment ival id (fun x => x - 1) (jumpCdf 4) 1 4 = .ok 4 ∧
      moment ival id (fun x => x - 1) (jumpCdf 4) 2 0 = .ok 0 ∧
      moment ival id (fun x => x - 1) (jumpCdf 4) 0 0 = .ok 0 := by
  refine ⟨?_, ?_, ?_⟩ <;> decide +kernel

/-- A merge of two distributions of single values has expectation 0 wherever the values are. -/
theorem C75_violated_merged_values :
    ∃ p, merge ival Rat.floor [jumpCdf 2, jumpCdf 7] none = .ok p ∧
      expectation ival id (fun x => x - 1) p = .ok 0 := by
  refine ⟨[(⟨ninf, fin 2, .exc, .exc⟩, .const 0), (co 2 7, .const (1 / 2)),
    (⟨fin 7, pinf, .inc, .exc⟩, .const 1)], ?_, ?_⟩ <;> decide +kernel

end Verif.Num
