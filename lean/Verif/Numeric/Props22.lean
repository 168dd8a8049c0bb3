import Verif.Numeric.BlurLemmas
import Verif.Numeric.FitLemmas3
import Verif.Numeric.Props2

/-! # Theorems about queries with `blur` -/

namespace Verif.Num

open Iv Iv.FP Fun

/-! ## C109 -/

/-- A single number in a query for a variable with `blur`, whose prior is fitted to any sample with at least two different
values: the query never fails, and it is a closed interval around the number.  The cdf of the prior is a chain of straight
lines; extend the first and the last of them.  Then the extended cdf rises by exactly half of `blur` from the lower bound to
the number, and by exactly half of `blur` from the number to the upper bound.  If the cdf of the number is at least half of
`blur` away from its least positive value and from 1, this is the cdf itself: the interval has exactly the probability `blur`.

Partial: the domain is not scaled (`C109_violated_scaled`), the prior has at least two different values
(`C109_violated_single`) and nowhere a density below 1e-4 (`C109_violated_flat`). -/
theorem C109_blur_partial {val : ℤ → ℚ} (hval : StrictMono val) (eps : ℚ) {ope : ℚ} (hope : 1 < ope)
    (data : List ℤ) (leftmost rightmost : Option ℤ) (hl : ∀ v ∈ leftmost, ∀ x ∈ data, v < x)
    (hr : ∀ v ∈ rightmost, ∀ x ∈ data, x < v) {lo hi : ℤ}
    (hlo : lo ∈ sample data leftmost rightmost) (hhi : hi ∈ sample data leftmost rightmost)
    (hlt : lo < hi) (hmin : ∀ x ∈ sample data leftmost rightmost, lo ≤ x)
    (hmax : ∀ x ∈ sample data leftmost rightmost, x ≤ hi)
    (hsteep : ∀ a ∈ sample data leftmost rightmost, ∀ b ∈ sample data leftmost rightmost, a < b →
      1 / 10000 * (val b - val a) ≤
        rank (sample data leftmost rightmost) b - rank (sample data leftmost rightmost) a)
    {pos : ℚ → ℤ} (hpos : ∀ n, pos (val n) = n) :
    ∃ (p : PF) (F : ℤ → ℚ) (Q : List PPiece) (K : List ℤ), fit val eps data leftmost rightmost = .ok p ∧
      (∀ n, p.eval val n = .ok (some (F n))) ∧ ppf val ope p = .ok Q ∧ RunsFromTo K lo hi ∧ StraightBetween val K F ∧
      ∀ n blur, 0 < blur → ∃ x y q, blurQuery id pos p Q (val n) blur = .ok (some x, some y) ∧ x < val n ∧ val n < y ∧
        OnExtended val K F (val n) q ∧ OnExtended val K F x (q - blur / 2) ∧ OnExtended val K F y (q + blur / 2) ∧
        (lo ≤ n → n ≤ hi → q = F n ∧
          (F lo ≤ F n - blur / 2 → OnGraph val K F x (F n - blur / 2)) ∧
          (F n + blur / 2 ≤ 1 → OnGraph val K F y (F n + blur / 2))) := by
  have hs : loadBuffer data leftmost rightmost = .ok (sample data leftmost rightmost) :=
    loadBuffer_ok hl hr
  obtain ⟨pts, p, F, hp, hshape, heval, hthr, hrise, hlen, hhead, hlast, hpts⟩ :=
    fit_spec hval (eps := eps) hs hlo hhi hlt hmin hmax
  have h2 := length_two hlo hhi (by omega)
  have h0 : 0 ≤ rank (sample data leftmost rightmost) lo := rank_nonneg hlo h2
  have hst : Steep val pts := by
    intro i a b ha hb
    have hab := rising_get hrise ha hb
    have hv : 0 < val b.1 - val a.1 := sub_pos.2 (hval hab.1)
    have h3 := hpts a (List.mem_of_getElem? ha)
    have h4 := hpts b (List.mem_of_getElem? hb)
    rw [slope, le_div_iff₀ hv, h3.2, h4.2]
    exact hsteep _ h3.1 _ h4.1 hab.1
  have hFlo : F lo = rank (sample data leftmost rightmost) lo :=
    hthr.at_mem hval hrise hlen (List.mem_of_head? hhead)
  have hK : (pts.map (·.1)).Pairwise (· < ·) := by rw [List.pairwise_map]; exact hrise.imp (fun h => h.1)
  have hstr : StraightBetween val (pts.map (·.1)) F := by
    intro i a b ha hb n hn1 hn2
    rw [List.getElem?_map, Option.map_eq_some_iff] at ha hb
    obtain ⟨a', ha', rfl⟩ := ha
    obtain ⟨b', hb', rfl⟩ := hb
    have hab := rising_get hrise ha' hb'
    have hv : val b'.1 - val a'.1 ≠ 0 := sub_ne_zero.2 (ne_of_gt (hval hab.1))
    have hat := hthr.at hval hrise ha' hb'
    rw [hat.1, hat.2, hthr.on i a' b' ha' hb' n hn1 hn2]
    field_simp
    ring
  have hFK : ∀ i a b, (pts.map (·.1))[i]? = some a → (pts.map (·.1))[i + 1]? = some b → F a < F b := by
    intro i a b ha hb
    rw [List.getElem?_map, Option.map_eq_some_iff] at ha hb
    obtain ⟨a', ha', rfl⟩ := ha
    obtain ⟨b', hb', rfl⟩ := hb
    have hat := hthr.at hval hrise ha' hb'
    rw [hat.1, hat.2]
    exact (rising_get hrise ha' hb').2
  have hplen : (p.length : ℤ) - 2 = pts.length - 1 := by
    rw [hshape, tile_length]
    simp [segs_len]
    omega
  have hhead' : ∀ a, pts.head? = some a → 0 ≤ a.2 := by
    intro a ha
    rw [hhead, Option.some.injEq] at ha
    rw [← ha]
    exact h0
  have hQlen : ((ppfShape val ope pts).length : ℤ) - 2 = pts.length - 1 := by
    match pts, hlen with
    | a :: b :: r, _ =>
      rw [ppfShape, invP_qtile]
      simp [qtile_length, qsegs_len]
      ring
  -- the point of the quantile function for any number is on the extended graph
  have hinv : ∀ {i : ℕ} {a b : ℤ × ℚ} {y : ℚ}, pts[i]? = some a → pts[i + 1]? = some b → (i = 0 ∨ a.2 ≤ y) →
      (pts[i + 2]? = none ∨ y < b.2) → ∃ x, (invLine val a b).eval y = some x ∧ OnExtended val (pts.map (·.1)) F x y ∧
        (F lo ≤ y → y ≤ 1 → OnGraph val (pts.map (·.1)) F x y) := by
    intro i a b y ha hb hy1 hy2
    have hab := rising_get hrise ha hb
    have hsl : 0 < slope val a b := lt_of_lt_of_le (by norm_num) (hst i a b ha hb)
    have hv : 0 < val b.1 - val a.1 := sub_pos.2 (hval hab.1)
    have hat := hthr.at hval hrise ha hb
    have e : slope val a b * (val b.1 - val a.1) = b.2 - a.2 := by rw [slope, div_mul_cancel₀ _ hv.ne']
    have hline : (y - F a.1) * (val b.1 - val a.1) = (F b.1 - F a.1) * (val a.1 + (y - a.2) / slope val a b - val a.1) := by
      rw [hat.1, hat.2, ← e]
      field_simp
      ring
    have hge : a.2 ≤ y → val a.1 ≤ val a.1 + (y - a.2) / slope val a b := fun h => by
      have : 0 ≤ (y - a.2) / slope val a b := div_nonneg (by linarith) hsl.le
      linarith
    have hle : y ≤ b.2 → val a.1 + (y - a.2) / slope val a b ≤ val b.1 := fun h => by
      have : (y - a.2) / slope val a b ≤ val b.1 - val a.1 := by
        rw [div_le_iff₀ hsl, slope, mul_div_cancel₀ _ hv.ne']; linarith
      linarith
    refine ⟨_, invLine_eval hsl.ne' y, ⟨i, a.1, b.1, by simp [ha], by simp [hb], hy1.imp id hge, ?_, hline⟩, fun h3 h4 =>
      ⟨i, a.1, b.1, by simp [ha], by simp [hb], hge ?_, hle ?_, hline⟩⟩
    · exact hy2.imp (fun h => by simp [h]) (fun h => hle h.le)
    · rcases hy1 with rfl | h
      · rw [List.head?_eq_getElem?, ha] at hhead
        cases hhead
        linarith
      · exact h
    · rcases hy2 with h | h
      · rw [List.getLast?_eq_getElem?] at hlast
        have hl := List.getElem?_eq_none_iff.1 h
        have hl' : i + 1 < pts.length := (List.getElem?_eq_some_iff.1 hb).1
        rw [show pts.length - 1 = i + 1 by omega, hb] at hlast
        cases hlast
        exact h4
      · exact h.le
  refine ⟨p, F, ppfShape val ope pts, pts.map (·.1), hp, heval, ?_, ⟨hK, ?_, ?_⟩, hstr, ?_⟩
  · rw [hshape]
    exact ppf_spec hval hope hrise hst hlen hlast rfl
  · rw [List.head?_map, hhead]; rfl
  · rw [List.getLast?_map, hlast]; rfl
  intro n blur hb
  obtain ⟨i, a, b, ha, hb', hpick, hi1, hi2⟩ := cdf_pick (val := val) hrise hlen (hi := hi) (N := (p.length : ℤ) - 2)
    (by rw [hshape]) n
  rw [← hshape] at hpick
  have hab := rising_get hrise ha hb'
  have hv : 0 < val b.1 - val a.1 := sub_pos.2 (hval hab.1)
  have hat := hthr.at hval hrise ha hb'
  set q := a.2 + (b.2 - a.2) / (val b.1 - val a.1) * (val n - val a.1) with hq
  obtain ⟨i1, a1, b1, g1, g2, g3, -, g5, g6⟩ := ppf_pick (val := val) (ope := ope) hrise hlen hhead' hplen (q - blur / 2)
  obtain ⟨i2, a2, b2, k1, k2, -, k4, k5, k6⟩ := ppf_pick (val := val) (ope := ope) hrise hlen hhead' hQlen (q + blur / 2)
  obtain ⟨x, x1, x2, x3⟩ := hinv g1 g2 g5 g6
  obtain ⟨y, y1, y2, y3⟩ := hinv k1 k2 k5 k6
  have hn : OnExtended val (pts.map (·.1)) F (val n) q := by
    refine ⟨i, a.1, b.1, by simp [ha], by simp [hb'], hi1.imp id (fun h => hval.monotone h),
      hi2.imp (fun h => by simp [h]) (fun h => (hval h).le), ?_⟩
    rw [hat.1, hat.2, hq]
    field_simp
    ring
  have hxn := extended_lt hval hK hFK x2 hn (by linarith)
  have hny := extended_lt hval hK hFK hn y2 (by linarith)
  refine ⟨x, y, q, ?_, hxn, hny, hn, x2, y2, fun n1 n2 => ?_⟩
  · have hnot : ¬ y < x := by linarith
    simp only [blurQuery, id_eq, hpos, hpick, bind, Except.bind, lineOf_eval, ← hq, Option.map_some, g3, k4,
      Option.bind_some, x1, y1, hnot, if_false]
  · have e1 : a.1 ≤ n := by
      rcases hi1 with rfl | h
      · rw [List.head?_eq_getElem?, ha] at hhead
        cases hhead
        exact n1
      · exact h
    have e2 : n ≤ b.1 := by
      rcases hi2 with h | h
      · rw [List.getLast?_eq_getElem?] at hlast
        have hl := List.getElem?_eq_none_iff.1 h
        have hl' : i + 1 < pts.length := (List.getElem?_eq_some_iff.1 hb').1
        rw [show pts.length - 1 = i + 1 by omega, hb'] at hlast
        cases hlast
        exact n2
      · exact h.le
    have hFn : q = F n := by rw [hq, hthr.on i a b ha hb' n e1 e2]
    have hbd := lineOf_bounds hval hab.1 hab.2 e1 e2
    rw [← hq] at hbd
    have hlow : F lo ≤ a.2 := by
      rw [hFlo]
      rcases Nat.eq_zero_or_pos i with rfl | hi0
      · rw [List.head?_eq_getElem?, ha] at hhead
        cases hhead
        exact le_rfl
      · rw [List.head?_eq_getElem?] at hhead
        obtain ⟨j1, j2⟩ := List.getElem?_eq_some_iff.1 hhead
        obtain ⟨j3, rfl⟩ := List.getElem?_eq_some_iff.1 ha
        have := (List.pairwise_iff_getElem.1 hrise 0 i j1 j3 hi0).2
        rw [j2] at this
        exact this.le
    have hup : b.2 ≤ 1 := by
      rw [List.getLast?_eq_getElem?] at hlast
      rcases Nat.eq_or_lt_of_le (show i + 1 ≤ pts.length - 1 by have := (List.getElem?_eq_some_iff.1 hb').1; omega) with h | h
      · rw [← h, hb'] at hlast
        cases hlast
        exact le_rfl
      · obtain ⟨j1, j2⟩ := List.getElem?_eq_some_iff.1 hlast
        obtain ⟨j3, rfl⟩ := List.getElem?_eq_some_iff.1 hb'
        have := (List.pairwise_iff_getElem.1 hrise (i + 1) _ j3 j1 h).2
        rw [j2] at this
        exact this.le
    rw [← hFn]
    exact ⟨rfl, fun h => x3 h (by linarith [hbd.2]), fun h => y3 (by linarith [hbd.1]) h⟩

/-- The prior of 0, 1, 3, 4, 8 and the number 3 with a blur of 1/2: the interval from 1 to 4, which has exactly half of the
probability; and the number 20, far above all samples: the last line of the cdf is extended. -/
example : ((fit ival (1 / 100) [0, 1, 3, 4, 8]).bind fun p => (ppf ival (9 / 8) p).bind fun Q =>
    blurQuery id (fun x => x.floor) p Q 3 (1 / 2)) = .ok (some 1, some 4) ∧
    ((fit ival (1 / 100) [0, 1, 3, 4, 8]).bind fun p => (ppf ival (9 / 8) p).bind fun Q =>
      blurQuery id (fun x => x.floor) p Q 20 (1 / 2)) = .ok (some 16, some 24) := by
  decide +kernel

example : ∃ (p : PF) (F : ℤ → ℚ) (Q : List PPiece), fit ival (1 / 100) [3, 1, 1, 7] none (some 9) = .ok p ∧
    ppf ival (9 / 8) p = .ok Q ∧ (∀ n, p.eval ival n = .ok (some (F n))) ∧
    ∃ x y, blurQuery id (fun x => x.floor) p Q (ival 5) (1 / 10) = .ok (some x, some y) ∧ x < ival 5 ∧ ival 5 < y := by
  obtain ⟨p, F, Q, K, h1, h2, h3, -, -, h4⟩ := C109_blur_partial ival_strictMono (1 / 100) (ope := 9 / 8)
    (by norm_num) [3, 1, 1, 7] none (some 9) (by simp) (by simp) (lo := 1) (hi := 9) (by decide)
    (by decide) (by decide) (by decide) (by decide) (by decide +kernel) (pos := fun x => x.floor) (fun n => by simp [ival])
  obtain ⟨x, y, q, h5, h6, h7, -⟩ := h4 5 (1 / 10) (by norm_num)
  exact ⟨p, F, Q, h1, h3, h2, x, y, h5, h6, h7⟩

/-- With a scaled domain, the interval is not around the number: for the samples 8 and 12, which are scaled to -1 and 1 (mean
10, scale 2), the number 10 with a blur of 1/5 becomes the interval from -7.8 to -7.7.  The cdf of scaled values is evaluated
at the number that is not scaled, its quantiles are scaled as if they were numbers, and the result is scaled once more. -/
theorem C109_violated_scaled : ((fit ival (1 / 100) [-1, 1]).bind fun p => (ppf ival (9 / 8) p).bind fun Q =>
    blurQuery (fun x => (x - 10) / 2) (fun x => x.floor) p Q 10 (1 / 5)) = .ok (some (-39 / 5), some (-77 / 10)) := by
  decide +kernel

/-- If all samples have the same value, every number becomes that value: with the only sample 4, a query for 7 is answered as
a query for 4. -/
theorem C109_violated_single : ((fit ival (1 / 100) [4]).bind fun p => (ppf ival (9 / 8) p).bind fun Q =>
    blurQuery id (fun x => x.floor) p Q 7 (1 / 5)) = .ok (some 4, some 4) := by
  decide +kernel

/-- With a density below 1e-4 there is no quantile function, so that every query for a single number fails. -/
theorem C109_violated_flat : ((fit ival (1 / 100) [0, 20000]).bind fun p => (ppf ival (9 / 8) p).bind fun Q =>
    blurQuery id (fun x => x.floor) p Q 10000 (1 / 5)) = .error .valueError := by
  decide +kernel

end Verif.Num
