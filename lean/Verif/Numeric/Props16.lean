import Verif.Numeric.Props13
import Verif.Numeric.Props6
import Verif.Numeric.Props15

/-!
# Variances, and densities with an impulse: C75, C82
-/

namespace Verif.Num

open Iv Iv.FP Fun

/-! ## C75 -/

/-- The variance of a distribution that was fitted to any sample with at least two different values is its second moment
around its own expectation, both in labels, up to what the density contributes beyond the greatest sample.

Partial: as `C75_fit_partial`. -/
theorem C75_variance_partial {val : ℤ → ℚ} (hval : StrictMono val) {lab prev : ℚ → ℚ} {s μ : ℚ} (hpos : 0 < s)
    (hlab : ∀ x, lab x = s * x + μ) (hprev : ∀ n, prev (lab (val n)) = lab (val (n - 1))) (eps : ℚ) (data : List ℤ)
    (leftmost rightmost : Option ℤ) (hl : ∀ v ∈ leftmost, ∀ x ∈ data, v < x)
    (hr : ∀ v ∈ rightmost, ∀ x ∈ data, x < v) {lo hi : ℤ}
    (hlo : (sample data leftmost rightmost).count lo = 1) (hhi : hi ∈ sample data leftmost rightmost)
    (hlt : lo < hi) (hmin : ∀ x ∈ sample data leftmost rightmost, lo ≤ x)
    (hmax : ∀ x ∈ sample data leftmost rightmost, x ≤ hi)
    (hgap : ∀ x ∈ sample data leftmost rightmost, x + 1 ∈ sample data leftmost rightmost → x + 1 = hi) :
    ∃ (p : PF) (F : ℤ → ℚ) (K : List ℤ) (k : ℤ) (e q : ℚ), fit val eps data leftmost rightmost = .ok p ∧
      (∀ n, p.eval val n = .ok (some (F n))) ∧ RunsFromTo (K ++ [k, hi]) lo hi ∧
      StraightBetween val (K ++ [k, hi]) F ∧ expectation val lab prev p = .ok e ∧ variance val lab prev p = .ok q ∧
      (e : ℝ) = momentOf (fun n => (lab (val n) : ℝ)) (fun n => (F n : ℝ)) 0 1 (K ++ [k, hi]) +
        (F hi - F k) / (lab (val hi) - lab (val k)) *
          ∫ t in (lab (val hi) : ℝ)..(lab (val (hi + 1)) : ℝ), t ∧
      (q : ℝ) = momentOf (fun n => (lab (val n) : ℝ)) (fun n => (F n : ℝ)) e 2 (K ++ [k, hi]) +
        (F hi - F k) / (lab (val hi) - lab (val k)) *
          ∫ t in (lab (val hi) : ℝ)..(lab (val (hi + 1)) : ℝ), (t - (e : ℝ)) ^ 2 := by
  obtain ⟨p, F, K, k, h1, h2, h3, h4, h5⟩ := C75_fit_partial hval hpos hlab hprev eps data leftmost rightmost hl hr hlo
    hhi hlt hmin hmax hgap
  obtain ⟨e, he1, he2⟩ := h5 1 0
  obtain ⟨q, hq1, hq2⟩ := h5 2 e
  refine ⟨p, F, K, k, e, q, h1, h2, h3, h4, he1, ?_, ?_, hq2⟩
  · simp only [variance, expectation, he1, bind, Except.bind, hq1]
  · rw [he2]
    simp only [Rat.cast_zero, sub_zero, pow_one]

/-- The samples 0, 4 and 10 with the labels `2 * x + 3`: the distribution is uniform between 0 and 4 and between 4 and
10, and reaches one float further. -/
example : ((fit ival (1 / 100) [0, 4, 10]).bind (fun p =>
    expectation ival (fun x => 2 * x + 3) (fun x => x - 2) p)).toOption = some 14 ∧
    ((fit ival (1 / 100) [0, 4, 10]).bind (fun p =>
      variance ival (fun x => 2 * x + 3) (fun x => x - 2) p)).toOption = some (1657 / 36) := by
  constructor <;> decide +kernel

theorem momentPiece_nonneg {val : ℤ → ℚ} (hval : StrictMono val) {lab prev : ℚ → ℚ} {s μ : ℚ} (hpos : 0 < s)
    (hlab : ∀ x, lab x = s * x + μ) (hprev : ∀ n, prev (lab (val n)) = lab (val (n - 1))) {c : ℚ} {t : CS × XQ} {y : ℚ}
    (ht : ∀ v, t.2 = .fin v → v = 0 ∨ 0 < v ∧ ∀ a b, t.1.lower = fin a → t.1.upper = fin b → a < b)
    (h : momentPiece val lab prev 2 c t = .ok y) : 0 ≤ y := by
  unfold momentPiece at h
  split at h
  · rename_i a b v
    dsimp only at h ht
    by_cases hw : prev (lab (val b)) - lab (val a) = 0
    · rw [if_pos hw] at h
      obtain rfl := Except.ok.inj h; exact le_rfl
    · rw [if_neg hw] at h
      cases v with
      | fin v =>
        obtain rfl := Except.ok.inj h
        rcases ht v rfl with rfl | ⟨hv, hb⟩
        · simp
        have hab : a < b := hb a b rfl rfl
        have h1 : val a ≤ val (b - 1) := hval.monotone (by omega)
        have h2 : val a < val b := hval hab
        have h3 : 0 ≤ prev (lab (val b)) - lab (val a) := by
          rw [hprev, hlab, hlab]; nlinarith
        have h4 : lab (val a) - c ≤ lab (val b) - c := by rw [hlab, hlab]; nlinarith
        have h5 : 0 ≤ (lab (val b) - c) ^ (2 + 1) - (lab (val a) - c) ^ (2 + 1) :=
          sub_nonneg.2 (Odd.strictMono_pow (by decide) |>.monotone h4)
        push_cast
        refine div_nonneg (mul_nonneg h5 (div_nonneg (mul_nonneg hv.le (by linarith)) h3)) (by norm_num)
      | _ => simp at h
  · cases h

/-- No distribution has a negative variance: for all cdfs that fitting, cropping and merging can give, and for all
scalings. -/
theorem C75_variance_nonneg {val : ℤ → ℚ} (hval : StrictMono val) {lab prev : ℚ → ℚ} {s μ : ℚ} (hpos : 0 < s)
    (hlab : ∀ x, lab x = s * x + μ) (hprev : ∀ n, prev (lab (val n)) = lab (val (n - 1))) {p : PF} (hp : Cdf p) {q : ℚ}
    (h : variance val lab prev p = .ok q) : 0 ≤ q := by
  simp only [variance, bind, Except.bind] at h
  cases he : expectation val lab prev p with
  | error e => rw [he] at h; cases h
  | ok e =>
    rw [he] at h
    simp only [moment, bind, Except.bind] at h
    cases hd : pdf p with
    | error e => rw [hd] at h; cases h
    | ok d =>
      rw [hd] at h
      simp only [show ¬ (2 : ℕ) = 1 by decide, and_false, if_false] at h
      by_cases hD : isDirac p = true
      · rw [if_pos ⟨hD, le_refl 2⟩] at h
        obtain rfl := Except.ok.inj h; exact le_rfl
      · rw [if_neg (fun h => hD h.1)] at h
        cases hl : (d.drop 1).dropLast.mapM (momentPiece val lab prev 2 e) with
        | error e => rw [hl] at h; cases h
        | ok l =>
          rw [hl] at h
          obtain rfl := Except.ok.inj h
          have hm := hp.mergeable
          have hsim : ∀ t ∈ p, Simple t.2 := by
            intro t ht
            rcases hm.pieces t ht with ⟨v, hv⟩ | ⟨m', c', a, b, e1, -⟩
            · rw [hv]; rfl
            · rw [e1]; rfl
          have hd2 : d = densOf p := by
            rw [pdf_eq hsim (by simpa [isDirac] using hD)] at hd
            exact (Except.ok.inj hd).symm
          refine List.sum_nonneg (fun y hy => ?_)
          obtain ⟨t, ht, hty⟩ := forall₂_mem_right ((mapM_ok_iff _ _ _).1 hl) hy
          have ht2 : t ∈ densOf p := by
            rw [← hd2]; exact List.mem_of_mem_drop (List.dropLast_subset _ ht)
          obtain ⟨u, hu, rfl⟩ := List.mem_map.1 ht2
          refine momentPiece_nonneg hval hpos hlab hprev (fun v hv => ?_) hty
          rcases hm.pieces u hu with ⟨w, hw⟩ | ⟨m', c', a, b, e1, e2, e3, e4, e5⟩
          · left
            rw [hw] at hv
            exact (XQ.fin.inj hv).symm
          · right
            rw [e1] at hv
            obtain rfl := XQ.fin.inj hv
            refine ⟨e2, fun a' b' h1 h2 => ?_⟩
            simp only [e3, e4] at h1 h2
            obtain rfl := FP.fin.inj h1
            obtain rfl := FP.fin.inj h2
            exact e5

example : ∃ p q, fit ival (1 / 100) [0, 4, 10] = .ok p ∧ Cdf p ∧ variance ival id (fun x => x - 1) p = .ok q := by
  refine ⟨[(⟨ninf, fin 0, .exc, .exc⟩, .const 0), (co 0 4, .lin (1 / 8) 0), (co 4 11, .lin (1 / 12) (1 / 6)),
    (⟨fin 11, pinf, .inc, .exc⟩, .const 1)], 26215 / 2304, by decide +kernel,
    ⟨[(0, .lin (1 / 8) 0), (4, .lin (1 / 12) (1 / 6))], 11, 1, rfl, by decide, ?_⟩, by decide +kernel⟩
  intro s hs
  simp only [List.mem_cons, List.not_mem_nil, or_false] at hs
  rcases hs with rfl | rfl <;> exact .inr ⟨_, _, rfl, by norm_num⟩

/-! ## C82 -/

/-- A state of the loop in which no impulse was seen. -/
def NoImpulse (s : Integral) : Prop := s.dirac = none ∧ s.last = none

theorem integrate_plain {val : ℤ → ℚ} {s t : Integral} {p : CS × XQ} (hs : NoImpulse s) {v : ℚ} (hp : p.2 = .fin v)
    (h : integrate val s p = .ok t) : NoImpulse t := by
  obtain ⟨c, hd, di, la⟩ := s
  obtain ⟨rfl, rfl⟩ := hs
  simp only [integrate, hp, Integral.push] at h
  split at h
  · obtain rfl := Except.ok.inj h; exact ⟨rfl, rfl⟩
  · split at h
    · obtain rfl := Except.ok.inj h; exact ⟨rfl, rfl⟩
    · cases h

theorem fold_plain {val : ℤ → ℚ} : ∀ {d : Dens} {s t : Integral}, (∀ p ∈ d, ∃ v, p.2 = .fin v) → NoImpulse s →
    d.foldlM (integrate val) s = .ok t → NoImpulse t
  | [], s, t, _, hs, h => by
    obtain rfl := Except.ok.inj h; exact hs
  | p :: d, s, t, hd, hs, h => by
    rw [List.foldlM_cons] at h
    simp only [bind, Except.bind] at h
    cases h1 : integrate val s p with
    | error e => rw [h1] at h; cases h
    | ok u =>
      rw [h1] at h
      obtain ⟨v, hv⟩ := hd p (by simp)
      exact fold_plain (fun q hq => hd q (by simp [hq])) (integrate_plain hs hv h1) h

theorem stepDens_fin : ∀ (K : List (ℤ × ℚ)) (lo : FP) (v : ℚ), ∀ p ∈ stepDens lo v K, ∃ w, p.2 = .fin w
  | [], _, _, p, hp => by
    simp only [stepDens, List.mem_singleton] at hp
    exact ⟨_, by rw [hp]⟩
  | (k, w) :: r, lo, v, p, hp => by
    rcases List.mem_cons.1 hp with rfl | hp
    · exact ⟨_, rfl⟩
    · exact stepDens_fin r (fin k) w p hp

theorem stepDens_last {z : ℤ} : ∀ (K : List (ℤ × ℚ)) (lo : FP) (v : ℚ), K.getLast? = some (z, 0) →
    stepDens lo v K = (stepDens lo v K).dropLast ++ [(⟨fin z, pinf, .inc, .exc⟩, .fin 0)]
  | [], _, _, h => by simp at h
  | [(k, w)], lo, v, h => by
    simp only [List.getLast?_singleton, Option.some.injEq, Prod.mk.injEq] at h
    obtain ⟨rfl, rfl⟩ := h
    simp [stepDens, brOf]
  | (k, w) :: (k', w') :: r, lo, v, h => by
    rw [List.getLast?_cons_cons] at h
    have ih := stepDens_last ((k', w') :: r) (fin k) w h
    have hne : stepDens (fin k) w ((k', w') :: r) ≠ [] := by simp [stepDens]
    rw [stepDens]
    conv_lhs => rw [ih]
    rw [List.dropLast_cons_of_ne_nil hne, List.cons_append]

/-- A density with the steps `K`, of area `T`, and an impulse at the last of the knots, behind which it is 0.  If `T`
exceeds 1 by more than `1e-8`, it is refused.  If `T` is less than 1, the cdf is the area up to a value below the impulse,
and 1 from the impulse on: the impulse has the rest `1 - T` of the probability. -/
theorem C82_impulse {val : ℤ → ℚ} (pick : CS → ℤ) (hpick : ∀ z, z ≤ pick ⟨fin z, pinf, .inc, .exc⟩)
    (K : List (ℤ × ℚ)) (hK : K.Pairwise (fun s t => s.1 < t.1)) (z : ℤ) (hz : K.getLast? = some (z, 0)) (d : Dens)
    (hd : d = (stepDens ninf 0 K).dropLast ++
      [(⟨fin z, fin (z + 1), .inc, .exc⟩, .pinf), (⟨fin (z + 1), pinf, .inc, .exc⟩, .fin 0)]) :
    (1 + tol < areaAll val K → pdfToCdf val pick d = .error .valueError) ∧
    (areaAll val K < 1 → ∃ p, pdfToCdf val pick d = .ok p ∧
      (∀ n, n < z → p.eval val n = .ok (some (area val n K))) ∧ (∀ n, z ≤ n → p.eval val n = .ok (some 1))) := by
  obtain ⟨l, hl⟩ := integL_split (val := val) hz
  have hkn : Knots (integL val 0 K) := by
    have h1 : ((integL val 0 K).map Prod.fst).Pairwise (· < ·) := by
      rw [integL_fst]; exact List.pairwise_map.2 hK
    exact List.pairwise_map.1 h1
  have hraw : (stepDens ninf 0 K).foldlM (integrate val) ⟨[], 0, none, none⟩ =
      .ok ⟨rawCdf val K, areaAll val K, none, none⟩ := raw_fold hz
  have hcdf : rawCdf val K = tile ninf (.const 0) l (fin z) ++ [(⟨fin z, pinf, .inc, .exc⟩, .const (areaAll val K))] := by
    rw [rawCdf, hl, tile_append]
  rw [stepDens_last K ninf 0 hz, List.foldlM_append] at hraw
  simp only [bind, Except.bind] at hraw
  cases hf : (stepDens ninf 0 K).dropLast.foldlM (integrate val) ⟨[], 0, none, none⟩ with
  | error e => rw [hf] at hraw; cases hraw
  | ok u =>
    have hu := fold_plain (fun p hp => stepDens_fin K ninf 0 p (List.dropLast_subset _ hp))
      (show NoImpulse ⟨[], 0, none, none⟩ from ⟨rfl, rfl⟩) hf
    obtain ⟨cu, hdu, di, la⟩ := u
    obtain ⟨rfl, rfl⟩ := hu
    rw [hf] at hraw
    simp only [List.foldlM_cons, List.foldlM_nil, integrate, if_true, Integral.push, bind, Except.bind, pure,
      Except.pure, Except.ok.injEq, Integral.mk.injEq, and_true] at hraw
    obtain ⟨h1, rfl⟩ := hraw
    rw [hcdf] at h1
    obtain ⟨rfl, -⟩ := List.append_inj' h1 rfl
    set T := areaAll val K with hT
    have hlast : lastValue val pick (rawCdf val K) = .ok T := raw_last hpick hK hz
    have hjoin : join ⟨fin z, fin (z + 1), .inc, .exc⟩ ⟨fin (z + 1), pinf, .inc, .exc⟩ = ⟨fin z, pinf, .inc, .exc⟩ := by
      simp [join, FP.le_def, FP.lt_def, leb]
    have hcont : CS.contiguous ⟨fin z, fin (z + 1), .inc, .exc⟩ ⟨fin (z + 1), pinf, .inc, .exc⟩ = true := by
      simp [CS.contiguous, Br.code]
    have hfold : d.foldlM (integrate val) ⟨[], 0, none, none⟩ =
        .ok ⟨rawCdf val K, T, some ((tile ninf (.const 0) l (fin z)).length, true), none⟩ := by
      rw [hd, List.foldlM_append]
      simp only [hf, bind, Except.bind, List.foldlM_cons, List.foldlM_nil, integrate, if_true, Integral.push, pure,
        Except.pure, hcont, hjoin, Option.isNone_none, hcdf]
    have ht : (0 : ℚ) < tol := by norm_num [tol]
    simp only [pdfToCdf, hfold, hlast, bind, Except.bind]
    refine ⟨fun h => if_pos (by linarith), fun h => ?_⟩
    rw [if_neg (by linarith)]
    have hoff : offsets (1 - T) ⟨rawCdf val K, T, some ((tile ninf (.const 0) l (fin z)).length, true), none⟩ =
        .ok (tile ninf (.const 0) (l ++ [(z, .const 1)]) pinf) := by
      simp only [offsets, if_pos (show 1 - T > 0 by linarith)]
      rw [hcdf, List.take_left, List.drop_left, ← tile_append]
      simp only [List.map_cons, List.map_nil, lift, add_sub_cancel]
    have hk1 : Knots (l ++ [(z, Fn.const 1)]) := by
      rw [hl] at hkn
      refine List.pairwise_append.2 ⟨(List.pairwise_append.1 hkn).1, by simp, fun a ha b hb => ?_⟩
      simp only [List.mem_singleton] at hb
      subst hb
      exact (List.pairwise_append.1 hkn).2.2 a ha (z, .const T) (by simp)
    have hev : ∀ n, (tile ninf (.const 0) (l ++ [(z, .const 1)]) pinf).eval val n =
        .ok (some (if n < z then area val n K else 1)) := by
      intro n
      have h2 := rawCdf_at (val := val) hK hz n
      rw [rawCdf, hl, tile_eval, tileAt_append (by rw [← hl]; exact hkn)] at h2
      rw [tile_eval, tileAt_append hk1]
      split
      · rename_i hn
        rwa [if_pos hn] at h2
      · simp [Fn.eval]
    have hlast2 : lastValue val pick (tile ninf (.const 0) (l ++ [(z, .const 1)]) pinf) = .ok 1 := by
      simp only [lastValue, tile_getLast.1, hev, bind, Except.bind]
      rw [if_neg (by have := hpick z; omega)]
    simp only [hoff, hlast2, one_ne_zero, if_false]
    have hs1 : ∀ f : Fn, f.stretch (1 / 1) = f := by
      intro f; cases f <;> simp [Fn.stretch]
    refine ⟨_, rfl, fun n hn => ?_, fun n hn => ?_⟩
    · simp only [PF.stretch, hs1, Prod.mk.eta, List.map_id']
      rw [hev, if_pos hn]
    · simp only [PF.stretch, hs1, Prod.mk.eta, List.map_id']
      rw [hev, if_neg (by omega)]

/-- If the steps already have the area 1, the impulse nevertheless gets the weight 1, so that it has half of the
probability. -/
theorem C82_violated_whole :
    ((pdfToCdf ival pickLower [(⟨ninf, fin 0, .exc, .exc⟩, .fin 0), (⟨fin 0, fin 4, .inc, .exc⟩, .fin (1 / 4)),
      (⟨fin 4, fin 5, .inc, .exc⟩, .pinf), (⟨fin 5, pinf, .inc, .exc⟩, .fin 0)]).bind
        (fun p => p.eval ival 3)).toOption = some (some (3 / 8)) := by
  decide +kernel

example : ∃ p, pdfToCdf ival pickLower [(⟨ninf, fin 0, .exc, .exc⟩, .fin 0), (⟨fin 0, fin 4, .inc, .exc⟩, .fin (1 / 8)),
    (⟨fin 4, fin 5, .inc, .exc⟩, .pinf), (⟨fin 5, pinf, .inc, .exc⟩, .fin 0)] = .ok p ∧
    p.eval ival 3 = .ok (some (3 / 8)) ∧ p.eval ival 4 = .ok (some 1) := by
  obtain ⟨p, h1, h2, h3⟩ := (C82_impulse (val := ival) pickLower (fun z => le_rfl)
    [(0, 1 / 8), (4, 0)] (by decide) 4 rfl _ rfl).2 (by norm_num [areaAll, ival])
  refine ⟨p, h1, ?_, h3 4 le_rfl⟩
  rw [h2 3 (by decide)]
  norm_num [area, ival]

end Verif.Num
