import Verif.Numeric.SampleLemmas
import Verif.Numeric.MpeLemmas
import Verif.Numeric.Props5

/-!
# Properties of sampling from numeric distributions

C77 (samples).

`val n` is the number of the `n`-th finite float.
-/

namespace Verif.Num

open Iv Iv.FP Fun

/-! ## C77 -/

/-- Sampling from a distribution that was fitted to any sample with at least two different values: a gap between
neighbouring knots is chosen with the probability that the cdf gives it, the number is drawn from the floats of
the gap (its upper end is left out, except for the greatest sample), and all samples lie between the least and the
greatest sample.

Partial: the least sample must not be duplicated, see `C77_violated_duplicated_minimum`; the last probability is
too great by `tail`, and if `tail` exceeds the tolerance of `numpy.random.choice`, sampling fails, see
`C77_violated_tail`. -/
theorem C77_fit_partial {val : ℤ → ℚ} (hval : StrictMono val) (eps : ℚ) (data : List ℤ)
    (leftmost rightmost : Option ℤ) (hl : ∀ v ∈ leftmost, ∀ x ∈ data, v < x)
    (hr : ∀ v ∈ rightmost, ∀ x ∈ data, x < v) {lo hi : ℤ}
    (hlo : (sample data leftmost rightmost).count lo = 1) (hhi : hi ∈ sample data leftmost rightmost)
    (hlt : lo < hi) (hmin : ∀ x ∈ sample data leftmost rightmost, lo ≤ x)
    (hmax : ∀ x ∈ sample data leftmost rightmost, x ≤ hi) :
    ∃ (p : PF) (F : ℤ → ℚ) (K : List ℤ) (tail : ℚ), fit val eps data leftmost rightmost = .ok p ∧
      (∀ n, p.eval val n = .ok (some (F n))) ∧ RunsFromTo K lo hi ∧ StraightBetween val K F ∧
      (∀ k ∈ K, k ∈ sample data leftmost rightmost ∧ F k = rank (sample data leftmost rightmost) k) ∧
      (∃ k, K.dropLast.getLast? = some k ∧ tail = (F hi - F k) / (val hi - val k) * (val (hi + 1) - val hi)) ∧
      (∃ ps, pieceProbs val p = .ok ps ∧ ps.length + 1 = K.length ∧
        ∀ (i : ℕ) (a b : ℤ), K[i]? = some a → K[i + 1]? = some b →
          ps[i]? = some (F b - F a + if b = hi then tail else 0) ∧
          ∀ u, drawFrom val p i u = .ok (val a + u * (val (if b = hi then hi else b - 1) - val a))) ∧
      (tail ≤ 1 / 2 ^ 26 → ∀ draws : List (ℕ × ℚ), (∀ d ∈ draws, d.1 + 1 < K.length ∧ 0 ≤ d.2 ∧ d.2 ≤ 1) →
        ∃ out, sample' val p draws = .ok out ∧ out.length = draws.length ∧
          ∀ x ∈ out, val lo ≤ x ∧ x ≤ val hi) := by
  have hs : loadBuffer data leftmost rightmost = .ok (sample data leftmost rightmost) := loadBuffer_ok hl hr
  have hlo' : lo ∈ sample data leftmost rightmost := List.count_pos_iff.1 (by omega)
  obtain ⟨pts, p, F, hp, hp', heval, hthr, hrise, hlen, hhead, hlast, hpts⟩ :=
    fit_spec hval (eps := eps) hs hlo' hhi hlt hmin hmax
  have hF : ∀ q ∈ pts, F q.1 = q.2 := fun q hq => hthr.at_mem hval hrise hlen hq
  obtain ⟨l, k, z, e⟩ : ∃ l k z, pts = l ++ [k, z] := by
    obtain ⟨l', rfl⟩ := List.getLast?_eq_some_iff.1 hlast
    rcases List.eq_nil_or_concat l' with rfl | ⟨l, k, rfl⟩
    · simp at hlen
    · exact ⟨l, k, (hi, 1), by simp⟩
  obtain rfl : z = (hi, 1) := by rw [e] at hlast; simpa using hlast
  obtain ⟨a, b, r, e2⟩ : ∃ a b r, pts = a :: b :: r := by
    match pts, hlen with
    | a :: b :: r, _ => exact ⟨a, b, r, rfl⟩
  have hk : k.1 < hi := by
    rw [e] at hrise
    exact ((List.pairwise_append.1 hrise).2.1 |> List.pairwise_cons.1).1 (hi, 1) (by simp) |>.1
  have hF0 : rank (sample data leftmost rightmost) lo = 0 := rank_single hmin hlo
  have hFk : F k.1 = k.2 := hF k (by rw [e]; simp)
  have hFh : F hi = 1 := hF (hi, 1) (List.mem_of_getLast? hlast)
  have hinner : (p.drop 1).dropLast = tile (fin a.1) (lineOf val a b) (segs val (b :: r)) (fin (hi + 1)) := by
    rw [hp', e2, ← tile_inner (z := hi + 1) (h := .const 1) (v := pinf)]
    simp only [segs, List.cons_append, tile, List.drop_succ_cons, List.drop_zero]
  have hinl : (p.drop 1).dropLast.length = r.length + 1 := by
    rw [hinner, tile_length]
    have : ∀ (b : ℤ × ℚ) (r : List (ℤ × ℚ)), (segs val (b :: r)).length = r.length := by
      intro b r
      induction r generalizing b with
      | nil => rfl
      | cons c r ih => simp only [segs, List.length_cons, ih]
    rw [this]
  have hprobs : pieceProbs val p = .ok (probsOf val pts (hi + 1)) := by
    rw [pieceProbs, hinner, e2]
    exact probs_pieces hval (e2 ▸ hrise)
  have hidx : ∀ (i : ℕ) (x y : ℤ × ℚ), pts[i]? = some x → pts[i + 1]? = some y → (y.1 = hi ↔ i = r.length) := by
    intro i x y hx hy
    have hpl : pts.length = r.length + 2 := by rw [e2]; rfl
    constructor
    · intro h
      by_contra hne
      have hi2 : i + 2 < pts.length := by
        have := (List.getElem?_eq_some_iff.1 hy).1
        omega
      have hle := rising_le_last hrise (List.getElem_mem hi2) hlast
      have := (rising_get hrise hy (List.getElem?_eq_getElem hi2)).1
      simp only at hle
      omega
    · intro h
      rw [List.getLast?_eq_getElem?, hpl, show r.length + 2 - 1 = i + 1 by omega, hy] at hlast
      cases hlast; rfl
  have hdraw : ∀ (i : ℕ) (x y : ℤ × ℚ), pts[i]? = some x → pts[i + 1]? = some y → ∀ u,
      drawFrom val p i u = .ok (val x.1 + u * (val (if y.1 = hi then hi else y.1 - 1) - val x.1)) := by
    intro i x y hx hy u
    have h1 := hidx i x y hx hy
    rw [e2] at hx hy
    rw [drawFrom, hinner, piece_get hx hy]
    by_cases h : y.1 = hi
    · simp [h1.1 h, h, CS.lowermost, CS.uppermost, FP.dn]
    · simp [(not_congr h1).1 h, h, CS.lowermost, CS.uppermost, FP.dn]
  refine ⟨p, F, pts.map Prod.fst, (F hi - F k.1) / (val hi - val k.1) * (val (hi + 1) - val hi), hp, heval,
    ⟨?_, ?_, ?_⟩, ?_, ?_, ⟨k.1, ?_, rfl⟩, ⟨_, hprobs, ?_, ?_⟩, ?_⟩
  · rw [List.pairwise_map]; exact hrise.imp (fun h => h.1)
  · rw [List.head?_map, hhead]; rfl
  · rw [List.getLast?_map, hlast]; rfl
  · intro i a b ha hb n hn1 hn2
    rw [List.getElem?_map, Option.map_eq_some_iff] at ha hb
    obtain ⟨a', ha', rfl⟩ := ha
    obtain ⟨b', hb', rfl⟩ := hb
    have hab := rising_get hrise ha' hb'
    have hv : val b'.1 - val a'.1 ≠ 0 := sub_ne_zero.2 (ne_of_gt (hval hab.1))
    rw [hF a' (List.mem_of_getElem? ha'), hF b' (List.mem_of_getElem? hb'), hthr.on i a' b' ha' hb' n hn1 hn2]
    field_simp
    ring
  · intro k hk
    obtain ⟨q, hq, rfl⟩ := List.mem_map.1 hk
    exact ⟨(hpts q hq).1, (hF q hq).trans (hpts q hq).2⟩
  · rw [e]; simp
  · rw [List.length_map, e2, probsOf_length]; rfl
  · intro i x y hx hy
    rw [List.getElem?_map, Option.map_eq_some_iff] at hx hy
    obtain ⟨x, hx', rfl⟩ := hx
    obtain ⟨y, hy', rfl⟩ := hy
    refine ⟨?_, hdraw i x y hx' hy'⟩
    have h1 := hidx i x y hx' hy'
    have hxy : F x.1 = x.2 ∧ F y.1 = y.2 := ⟨hF x (List.mem_of_getElem? hx'), hF y (List.mem_of_getElem? hy')⟩
    have hlastk : y.1 = hi → x = k ∧ y = (hi, 1) := by
      intro h
      have hpl : pts.length = r.length + 2 := by rw [e2]; rfl
      have hll : l.length = r.length := by rw [e] at hpl; simp at hpl; omega
      have hir := h1.1 h
      rw [e, List.getElem?_append_right (by omega)] at hx' hy'
      rw [show i - l.length = 0 by omega] at hx'
      rw [show i + 1 - l.length = 1 by omega] at hy'
      simp at hx' hy'
      exact ⟨hx'.symm, hy'.symm⟩
    have hx2 := hx'
    have hy2 := hy'
    rw [e2] at hx2 hy2 hrise ⊢
    rw [probsOf_get hval hrise hx2 hy2, hxy.1, hxy.2]
    by_cases h : y.1 = hi
    · obtain ⟨rfl, rfl⟩ := hlastk h
      rw [if_pos (h1.1 h), if_pos h, hFk, hFh]
    · rw [if_neg (fun h' => h (h1.2 h')), if_neg h]
  · intro htail draws hdraws
    have hsum : (probsOf val pts (hi + 1)).sum = 1 + (F hi - F k.1) / (val hi - val k.1) * (val (hi + 1) - val hi) := by
      have h1 := probsOf_sum hval (e := hi + 1) (l := l) (k := k) (z := (hi, 1)) (e ▸ hrise)
      rw [← e, hhead] at h1
      rw [h1, hFk, hFh]
      simp [hF0]
    have htail0 : 0 ≤ (F hi - F k.1) / (val hi - val k.1) * (val (hi + 1) - val hi) := by
      have h1 := hval hk
      have h2 := hval (show hi < hi + 1 by omega)
      have h3 : k.2 < 1 := by
        rw [e] at hrise
        exact ((List.pairwise_append.1 hrise).2.1 |> List.pairwise_cons.1).1 (hi, 1) (by simp) |>.2
      refine mul_nonneg (div_nonneg ?_ (by linarith)) (by linarith)
      rw [hFk, hFh]; linarith
    have hcheck : choiceCheck (probsOf val pts (hi + 1)) = .ok () := by
      rw [choiceCheck, if_neg]
      rintro (h | ⟨v, hv, h⟩ | h)
      · have := congrArg List.length h
        rw [e2, probsOf_length] at this
        simp at this
      · have := probsOf_nonneg hval (e := hi + 1) (e2 ▸ hrise) (fun q hq => by
          have := hmax _ (hpts q (e2 ▸ hq)).1
          omega) v (e2 ▸ hv)
        linarith
      · rw [hsum, add_sub_cancel_left, abs_of_nonneg htail0] at h
        linarith
    have hne : (p.drop 1).dropLast.any (fun s => s.1.isempty) = false := by
      rw [List.any_eq_false]
      intro s hs
      obtain ⟨i, hi', rfl⟩ := List.getElem_of_mem hs
      rw [hinl] at hi'
      have hpl : pts.length = r.length + 2 := by rw [e2]; rfl
      have hx : pts[i]? = some pts[i] := List.getElem?_eq_getElem (by omega)
      have hy : pts[i + 1]? = some pts[i + 1] := List.getElem?_eq_getElem (by omega)
      have hxy := (rising_get hrise hx hy).1
      have hxh := hmax _ (hpts _ (List.mem_of_getElem? hx)).1
      have hx3 : (a :: b :: r)[i]? = some pts[i] := by rw [← e2]; exact hx
      have hy3 : (a :: b :: r)[i + 1]? = some pts[i + 1] := by rw [← e2]; exact hy
      have h1 := piece_get (val := val) (e := hi + 1) hx3 hy3
      rw [← hinner, List.getElem?_eq_getElem (by rw [hinl]; exact hi')] at h1
      rw [Option.some.inj h1]
      have : CS.HalfOpen ⟨fin pts[i].1, fin (if i = r.length then hi + 1 else pts[i + 1].1), .inc, .exc⟩ := by
        refine ⟨?_, rfl, .inr ⟨by simp, rfl⟩⟩
        simp only [FP.lt_def, leb]
        split_ifs <;> simp <;> omega
      rw [this.nonempty]
      simp
    have hlen3 : p.length ≠ 2 := by rw [hp', e2, tile_length]; simp [segs]
    have hrun : sample' val p draws = draws.mapM (fun d => drawFrom val p d.1 d.2) := by
      unfold sample'
      split
      · simp at hlen3
      · simp only [hprobs, hcheck, hne, bind, Except.bind, Bool.false_eq_true, if_false]
    rw [hrun]
    clear hrun
    induction draws with
    | nil => exact ⟨[], rfl, rfl, by simp⟩
    | cons d draws ih =>
      obtain ⟨out, h1, h2, h3⟩ := ih (fun d' hd' => hdraws d' (by simp [hd']))
      obtain ⟨hd1, hd2, hd3⟩ := hdraws d (by simp)
      rw [List.length_map] at hd1
      have hx : pts[d.1]? = some pts[d.1] := List.getElem?_eq_getElem (by omega)
      have hy : pts[d.1 + 1]? = some pts[d.1 + 1] := List.getElem?_eq_getElem (by omega)
      have hxy := (rising_get hrise hx hy).1
      have hyh := hmax _ (hpts _ (List.mem_of_getElem? hy)).1
      have hxl := hmin _ (hpts _ (List.mem_of_getElem? hx)).1
      have h4 := hdraw _ _ _ hx hy d.2
      generalize pts[d.1] = x at h4 hxy hxl
      generalize pts[d.1 + 1] = y at h4 hxy hyh
      set w := (if y.1 = hi then hi else y.1 - 1) with hw
      have hw1 : x.1 ≤ w := by rw [hw]; split_ifs <;> omega
      have hw2 : w ≤ hi := by rw [hw]; split_ifs <;> omega
      have m1 := hval.monotone hw1
      have m2 := hval.monotone hw2
      have m3 := hval.monotone hxl
      refine ⟨(val x.1 + d.2 * (val w - val x.1)) :: out, ?_, by simp [h2], ?_⟩
      · rw [List.mapM_cons, h1, h4]; rfl
      · intro v hv
        rcases List.mem_cons.1 hv with rfl | hv
        · constructor <;> nlinarith
        · exact h3 v hv

/-- Floats that are half of `2^-26` apart. -/
def fine (n : ℤ) : ℚ := n / 2 ^ 27

theorem fine_strictMono : StrictMono fine := fun a b h => by
  have : (a : ℚ) < b := by exact_mod_cast h
  unfold fine
  linarith

example : ∃ (p : PF) (out : List ℚ), fit fine (1 / 100) [0, 2 ^ 28] = .ok p ∧
    sample' fine p [(0, 1 / 3), (0, 2 / 3)] = .ok out ∧ ∀ x ∈ out, fine 0 ≤ x ∧ x ≤ fine (2 ^ 28) := by
  obtain ⟨p, F, K, tail, h1, -, hK, hS, hmem, ⟨k, hk, ht⟩, -, h2⟩ := C77_fit_partial fine_strictMono (1 / 100)
    [0, 2 ^ 28] none none (by simp) (by simp) (lo := 0) (hi := 2 ^ 28) (by decide) (by decide) (by decide)
    (by decide) (by decide)
  have hF : F (2 ^ 28) = 1 := by
    rw [(hmem _ (List.mem_of_getLast? hK.2.2)).2]; decide +kernel
  have hkK : k ∈ K := List.dropLast_subset _ (List.mem_of_getLast? hk)
  have h3 : tail ≤ 1 / 2 ^ 26 := by
    rcases (show k = 0 ∨ k = 2 ^ 28 by simpa [sample] using (hmem k hkK).1) with rfl | rfl
    · have : F 0 = 0 := by rw [(hmem 0 hkK).2]; decide +kernel
      rw [ht, hF, this]
      decide +kernel
    · rw [ht, sub_self, zero_div, zero_mul]; norm_num
  obtain ⟨out, h4, -, h5⟩ := h2 h3 [(0, 1 / 3), (0, 2 / 3)] (by
    have : 2 ≤ K.length := by
      have := congrArg List.length (List.dropLast_append_getLast? (l := K) _ hK.2.2)
      have h6 : K.dropLast ≠ [] := fun h => by rw [h] at hk; simp at hk
      have := List.length_pos_iff.2 h6
      rw [List.length_dropLast] at this
      omega
    simp only [List.mem_cons, List.not_mem_nil, or_false]
    rintro d (rfl | rfl) <;> refine ⟨by omega, ?_, ?_⟩ <;> norm_num)
  exact ⟨p, out, h1, h4, h5⟩

/-- All samples of a distribution of a single value are that value. -/
theorem C77_dirac (val : ℤ → ℚ) (x : ℤ) (draws : List (ℕ × ℚ)) :
    sample' val (jumpCdf x) draws = .ok (draws.map (fun _ => val x)) := rfl

/-- If the least sample is duplicated, the probabilities do not sum to 1 and nothing can be sampled. -/
theorem C77_violated_duplicated_minimum :
    ∃ p, fit fine (1 / 100) [0, 0, 2 ^ 27, 2 ^ 28] = .ok p ∧ ∀ draws, sample' fine p draws = .error .valueError := by
  refine ⟨[(⟨ninf, fin 0, .exc, .exc⟩, .const 0), (co 0 268435457, .lin (1 / 3) (1 / 3)),
    (⟨fin 268435457, pinf, .inc, .exc⟩, .const 1)], by decide +kernel, fun draws => ?_⟩
  have : pieceProbs fine [(⟨ninf, fin 0, .exc, .exc⟩, .const 0), (co 0 268435457, .lin (1 / 3) (1 / 3)),
    (⟨fin 268435457, pinf, .inc, .exc⟩, .const 1)] = .ok [268435457 / 402653184] := by decide +kernel
  have h2 : choiceCheck [268435457 / 402653184] = .error .valueError := by decide +kernel
  simp only [sample', this, h2, bind, Except.bind]

/-- Nothing can be sampled either if the samples are two neighbouring floats. -/
theorem C77_violated_tail :
    ∃ p, fit ival (1 / 100) [0, 1] = .ok p ∧ pieceProbs ival p = .ok [2] ∧
      ∀ draws, sample' ival p draws = .error .valueError := by
  refine ⟨[(⟨ninf, fin 0, .exc, .exc⟩, .const 0), (co 0 2, .lin 1 0), (⟨fin 2, pinf, .inc, .exc⟩, .const 1)],
    by decide +kernel, by decide +kernel, fun draws => ?_⟩
  have : pieceProbs ival [(⟨ninf, fin 0, .exc, .exc⟩, .const 0), (co 0 2, .lin 1 0),
      (⟨fin 2, pinf, .inc, .exc⟩, .const 1)] = .ok [2] := by decide +kernel
  have h2 : choiceCheck [2] = .error .valueError := by decide +kernel
  simp only [sample', this, h2, bind, Except.bind]

end Verif.Num
