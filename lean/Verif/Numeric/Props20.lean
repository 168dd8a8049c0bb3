import Verif.Numeric.SumLemmas5

/-!
# C102: the sum of two numeric distributions

The floats are a grid with the distance `u` here: `val n = u * n`.  `pick` is `any_point`.
-/

namespace Verif.Num

open Iv Iv.FP Fun Fun.PF

/-- **C102** (partial) The sum of two independent numeric variables whose densities are step functions with area 1, neither of
them a single step of at most two floats.  Let `δ` be a bound of the distance of two floats times the maximum of the first
density times the total variation of the second one times the width of the support of the sum, and not greater than the
tolerance `1e-8` of `pdf_to_cdf`.  Then the sum has a cdf.  It is defined everywhere, does not decrease, is 0 to the left of all
sums of knots and 1 to the right of them.  Wherever it bends, it is the probability that the sum is less than a number between
this float and the one before, up to `2 * δ`; elsewhere it is a straight line.

What is missing for the property is the exact value between the bends: the true cdf is quadratic there, the computed one is
linear.  Adding a constant does not work at all (`C102_violated_constant`). -/
theorem C102_sum_partial {val : ℤ → ℚ} {u : ℚ} (hval : ∀ n, val n = u * n) (hu : 0 < u) {pick : CS → ℤ}
    (hpick : ∀ z, z ≤ pick ⟨fin z, pinf, .inc, .exc⟩) {Lf Lg : List (ℤ × ℚ)} (hf : IsBump Lf) (hg : IsBump Lg)
    (pf : ∀ s ∈ Lf, 0 ≤ s.2) (pg : ∀ s ∈ Lg, 0 ≤ s.2) (af : areaAll val Lf = 1) (ag : areaAll val Lg = 1)
    (nf : ¬ Narrow Lf) (ng : ¬ Narrow Lg) {M δ : ℚ} (hM : ∀ s ∈ Lf, s.2 ≤ M)
    (hδ : ∀ a ∈ Lf, ∀ b ∈ Lg, ∀ a' ∈ Lf, ∀ b' ∈ Lg,
      (val (a'.1 + b'.1) - val (a.1 + b.1)) * (u * M * variation 0 Lg) ≤ δ) (htol : δ ≤ tol) :
    ∃ (c : PF) (y : ℤ → ℚ), sumDist val pick (stepDens ninf 0 Lf) (stepDens ninf 0 Lg) = .ok c ∧
      (∀ n, c.eval val n = .ok (some (y n))) ∧ Monotone y ∧
      (∀ n, (∀ a ∈ Lf, ∀ b ∈ Lg, n < a.1 + b.1) → y n = 0) ∧
      (∀ n, (∀ a ∈ Lf, ∀ b ∈ Lg, a.1 + b.1 < n) → y n = 1) ∧
      ∀ n, y (n + 1) - y n ≠ y n - y (n - 1) →
        sumProb (PF.real val (stepFn Lf)) (PF.real val (stepFn Lg)) (val (n - 1)) - 2 * δ ≤ (y n : ℝ) ∧
        (y n : ℝ) ≤ sumProb (PF.real val (stepFn Lf)) (PF.real val (stepFn Lg)) (val n) + 2 * δ := by
  obtain ⟨A, B, fA, fB, fr, f0⟩ := bump_range hf
  obtain ⟨C, D, gC, gD, gr, g0⟩ := bump_range hg
  have h2 : 2 ≤ Lf.length := by
    match Lf, af with
    | _ :: _ :: _, _ => simp
    | [_], h => simp [areaAll] at h
    | [], h => simp [areaAll] at h
  have hAB := (fr A fA).2
  have hCD := (gr C gC).2
  obtain ⟨r, W, hr, hsort, hpl, hW, hW0, hWp, hclose⟩ := convolution_values hval hu hf hg h2 nf ng pf pg hM fr f0 gr
  set F := PF.stepAt 0 Lf
  set G := PF.stepAt 0 Lg
  have hfc : Cells u (PF.real val (stepFn Lf)) F := fun k x h1 h2 => (stepFn_isStep hf.1).real hval hu h1 h2
  have hgc : Cells u (PF.real val (stepFn Lg)) G := fun k x h1 h2 => (stepFn_isStep hg.1).real hval hu h1 h2
  have hF0 : ∀ k, 0 ≤ F k := fun k => stepAt_nonneg le_rfl pf
  have hG0 : ∀ k, 0 ≤ G k := fun k => stepAt_nonneg le_rfl pg
  rw [areaAll_cumul hval hf fr f0] at af
  rw [areaAll_cumul hval hg gr g0] at ag
  have hδ0 : u * ((((B + D : ℤ) : ℚ) - ((A + C : ℤ) : ℚ)) * (u * M * variation 0 Lg)) ≤ δ := by
    obtain ⟨a, ha, rfl⟩ := List.mem_map.1 fA
    obtain ⟨a', ha', rfl⟩ := List.mem_map.1 fB
    obtain ⟨b, hb, rfl⟩ := List.mem_map.1 gC
    obtain ⟨b', hb', rfl⟩ := List.mem_map.1 gD
    have := hδ a ha b hb a' ha' b' hb'
    rw [hval, hval, ← mul_sub, mul_assoc] at this
    exact this
  -- the distance from the sum on the grid
  have hD0 : ∀ n, ¬ (A + C ≤ n ∧ n < B + D) → discrete u F G A B (n - 1) = 0 := fun n hn => by
    unfold discrete
    rw [Finset.sum_eq_zero, mul_zero]
    intro k hk
    rw [Finset.mem_Ico] at hk
    rw [g0 _ (by omega), mul_zero]
  have hraw : ∀ n, |u * cumul W (A + C - 1) n - gridProb u F G A B C (n - 1)| ≤ δ := fun n => by
    rw [gridProb_pred g0, ← mul_sub, abs_mul, abs_of_pos hu]
    refine le_trans (mul_le_mul_of_nonneg_left ?_ hu.le) hδ0
    exact cumul_close (by omega) hclose hW0 hD0
  have hWall : cumul W (A + C - 1) (B + D + 1) = cumul W (A + C) (B + D) := by
    rw [cumul_shift (b := A + C) (fun j hj => hW0 j (by omega)) (fun j hj => hW0 j (by omega)),
      cumul_split (by omega : A + C ≤ B + D) (by omega : B + D ≤ B + D + 1),
      cumul_const (F := W) (a := B + D) (v := 0) (by omega) (fun j h1 _ => hW0 j (by omega)), mul_zero, add_zero]
  set T := u * cumul W (A + C) (B + D) with hT
  have hT1 : |T - 1| ≤ δ := by
    have := hraw (B + D + 1)
    rw [hWall, show B + D + 1 - 1 = B + D by ring, gridProb_all (D := D) hCD g0 (by omega), af, ag, one_mul] at this
    exact this
  have htl : tol < 1 := by norm_num [tol]
  have hT0 : 0 < T := by have := (abs_le.1 hT1).1; linarith
  obtain ⟨c, Q, S, hc, q1, q2, q3, q4, q5, q6⟩ := fromRectified_spec hval hu hpick hsort hpl hW hW0 hWp hT0
    (by have := (abs_le.1 hT1).2; linarith)
  have hQb : ∀ j, j < A + C - 1 → Q j = 0 := fun j hj => q2 j (.inl hj)
  have hQT : ∀ n, B + D < n → u * cumul Q (A + C - 1) n = T := fun n hn => by
    rw [cumul_split (by omega : A + C - 1 ≤ B + D + 1) (by omega : B + D + 1 ≤ n), q5,
      cumul_const (F := Q) (a := B + D + 1) (v := 0) (by omega) (fun j h1 _ => q2 j (by omega)), mul_zero, add_zero]
  have hrm : Monotone (fun n => u * cumul Q (A + C - 1) n) := fun m n h => mul_le_mul_of_nonneg_left (cumul_mono q1 h) hu.le
  refine ⟨c, fun n => u * cumul Q (A + C - 1) n / T, ?_, q6, fun m n h => ?_, fun n hn => ?_, fun n hn => ?_, fun n hn => ?_⟩
  · unfold sumDist
    simp only [impulse_step, Bool.false_eq_true, if_false, toPF_step]
    have hr' : convolution val (tile ninf (.const 0) (Lf.map (fun s => (s.1, .const s.2))) pinf)
      (tile ninf (.const 0) (Lg.map (fun s => (s.1, .const s.2))) pinf) = .ok r := hr
    simp only [hr', bind, Except.bind, hc]
  · exact div_le_div_of_nonneg_right (hrm h) hT0.le
  · obtain ⟨a, ha, rfl⟩ := List.mem_map.1 fA
    obtain ⟨b, hb, rfl⟩ := List.mem_map.1 gC
    have := hn a ha b hb
    simp only
    rw [cumul_empty (by omega), mul_zero, zero_div]
  · obtain ⟨a, ha, rfl⟩ := List.mem_map.1 fB
    obtain ⟨b, hb, rfl⟩ := List.mem_map.1 gD
    simp only
    rw [hQT n (hn a ha b hb), div_self (ne_of_gt hT0)]
  · simp only at hn
    have hS : n ∈ S := by
      by_contra hS
      have h3 := q3 n hS
      have e1 := cumul_step hQb n
      have e2 := cumul_step hQb (n - 1)
      rw [show n - 1 + 1 = n by ring] at e2
      apply hn
      rw [← sub_div, ← sub_div, ← mul_sub, ← mul_sub, e1, e2, h3]
    have h4 := hraw n
    rw [← q4 n hS] at h4
    set x := u * cumul Q (A + C - 1) n with hx
    have hx0 : 0 ≤ x := mul_nonneg hu.le (Finset.sum_nonneg (fun j _ => q1 j))
    have hxT : x ≤ T := by
      have := hrm (le_max_left n (B + D + 1))
      simp only at this
      rw [hQT (max n (B + D + 1)) (by omega)] at this
      exact this
    have hxd : |x / T - x| ≤ δ := by
      have e : x / T - x = x / T * (1 - T) := by field_simp
      rw [e, abs_mul, abs_of_nonneg (div_nonneg hx0 hT0.le), abs_sub_comm]
      have : x / T ≤ 1 := (div_le_one hT0).2 hxT
      calc x / T * |T - 1| ≤ 1 * |T - 1| := mul_le_mul_of_nonneg_right this (abs_nonneg _)
        _ ≤ δ := by rw [one_mul]; exact hT1
    obtain ⟨a1, a2⟩ := abs_le.1 h4
    obtain ⟨a3, a4⟩ := abs_le.1 hxd
    have k1 := (sumProb_between hu hfc hgc f0 g0 hF0 hG0 (n - 1)).2
    have k2 := (sumProb_between hu hfc hgc f0 g0 hF0 hG0 n).1
    have b1 : gridProb u F G A B C (n - 1) - 2 * δ ≤ x / T := by linarith
    have b2 : x / T ≤ gridProb u F G A B C (n - 1) + 2 * δ := by linarith
    have b1' : (gridProb u F G A B C (n - 1) : ℝ) - 2 * δ ≤ ((x / T : ℚ) : ℝ) := by exact_mod_cast b1
    have b2' : ((x / T : ℚ) : ℝ) ≤ (gridProb u F G A B C (n - 1) : ℝ) + 2 * δ := by exact_mod_cast b2
    have v1 : ((val (n - 1) : ℚ) : ℝ) = (u : ℝ) * ((n - 1 : ℤ) : ℝ) := by rw [hval]; push_cast; rfl
    have v2 : ((val n : ℚ) : ℝ) = (u : ℝ) * ((n : ℤ) : ℝ) := by rw [hval]; push_cast; rfl
    rw [v1, v2]
    constructor <;> linarith

/-- The uniform distribution on `[0, 10⁹)`, where the distance of two floats is 1. -/
abbrev wide : List (ℤ × ℚ) := [(0, 1 / 10 ^ 9), (10 ^ 9, 0)]

/-- The sum of two uniform distributions meets the conditions of `C102_sum_partial`. -/
example : IsBump wide ∧ (∀ s ∈ wide, 0 ≤ s.2) ∧ areaAll ival wide = 1 ∧ ¬ Narrow wide ∧ (∀ s ∈ wide, s.2 ≤ 1 / 10 ^ 9) ∧
    (∀ a ∈ wide, ∀ b ∈ wide, ∀ a' ∈ wide, ∀ b' ∈ wide,
      (ival (a'.1 + b'.1) - ival (a.1 + b.1)) * (1 * (1 / 10 ^ 9) * variation 0 wide) ≤ tol) := by
  refine ⟨⟨by simp, rfl⟩, by simp, by norm_num [areaAll, ival], ?_, by simp, ?_⟩
  · rintro ⟨a, b, v, w, e, h⟩
    simp only [wide, List.cons.injEq, Prod.mk.injEq, and_true] at e
    omega
  · intro a ha b hb a' ha' b' hb'
    simp only [wide, List.mem_cons, List.not_mem_nil, or_false] at ha hb ha' hb'
    rcases ha with rfl | rfl <;> rcases hb with rfl | rfl <;> rcases ha' with rfl | rfl <;> rcases hb' with rfl | rfl <;>
      norm_num [ival, variation, tol, abs_of_pos, abs_of_neg]

/-- The cdf of this sum at some floats: 0 up to 0, almost 1/2 in the middle, 1 from `2 * 10⁹` on. -/
example : ((sumDist ival pickLower (stepDens ninf 0 wide) (stepDens ninf 0 wide)).toOption.map (fun c =>
    [-5, 0, 10 ^ 9, 2 * 10 ^ 9 + 1].map (fun n => (c.eval ival n).toOption))) =
    some [some (some 0), some (some 0),
      some (some (999999999000000002 / 1999999999000000001)), some (some 1)] := by decide +kernel

/-- The density of the constant `k`. -/
def constDens (k : ℤ) : Dens := [(⟨ninf, fin k, .exc, .exc⟩, .fin 0), (⟨fin k, fin (k + 1), .inc, .exc⟩, .pinf),
  (⟨fin (k + 1), pinf, .inc, .exc⟩, .fin 0)]

/-- The sum of a constant and a variable whose density is a step function with area 1, in both orders: the result does not
depend on the constant, and its cdf at `n` is the area under the density of the variable to the left of `n`. -/
theorem C102_constant {val : ℤ → ℚ} {u : ℚ} (hval : ∀ n, val n = u * n) {pick : CS → ℤ}
    (hpick : ∀ z, z ≤ pick ⟨fin z, pinf, .inc, .exc⟩) {K : List (ℤ × ℚ)} (hK : IsBump K) (hA : areaAll val K = 1) :
    ∃ c : PF, (∀ k, sumDist val pick (constDens k) (stepDens ninf 0 K) = .ok c ∧
        sumDist val pick (stepDens ninf 0 K) (constDens k) = .ok c) ∧
      ∀ n, c.eval val n = .ok (some (area val n K)) := by
  obtain ⟨A, B, -, -, fr, f0⟩ := bump_range hK
  obtain ⟨K', d1, d2, d3⟩ := simplify_step hK.1
  have hfun : PF.stepAt 0 K' = PF.stepAt 0 K := funext d3
  have hT : u * cumul (PF.stepAt 0 K) A B = 1 := by rw [← areaAll_cumul hval hK fr f0, hA]
  have hbump : IsBump K' := by
    refine ⟨d2, ?_⟩
    cases hl : K'.getLast? with
    | none =>
      exfalso
      rw [List.getLast?_eq_none_iff] at hl
      subst hl
      have : cumul (PF.stepAt 0 K) A B = 0 := Finset.sum_eq_zero (fun n _ => (d3 n).symm)
      rw [this, mul_zero] at hT
      exact zero_ne_one hT
    | some z =>
      obtain ⟨n, hn1, hn2⟩ := int_above (K'.map Prod.fst) B
      have e := d3 n
      rw [f0 n (by omega), stepAt_after (fun s hs => hn2 _ (List.mem_map_of_mem hs)), hl] at e
      simp only [Option.map_some, Option.getD_some] at e
      simp [e]
  have harea : ∀ n, area val n K' = area val n K := fun n => by
    rw [area_step hval hbump (a := A) (fun j hj => by rw [hfun]; exact f0 j (by omega)),
      area_step hval hK (a := A) (fun j hj => f0 j (by omega)), hfun]
  have hall : areaAll val K' = 1 := by
    obtain ⟨n, hn1, hn2⟩ := int_above (K'.map Prod.fst ++ K.map Prod.fst) B
    rw [← area_end (n := n) K' d2 (fun s hs => hn2 _ (List.mem_append_left _ (List.mem_map_of_mem hs))), harea,
      area_end (n := n) K hK.1 (fun s hs => hn2 _ (List.mem_append_right _ (List.mem_map_of_mem hs))), hA]
  obtain ⟨z, hz⟩ : ∃ z, K'.getLast? = some (z, 0) := by
    have := hbump.2
    cases hl : K'.getLast? with
    | none => simp [hl] at this
    | some z => rw [hl] at this; simp only [Option.map_some, Option.some.injEq] at this; exact ⟨z.1, by rw [← this]⟩
  obtain ⟨c, hc1, hc2, -⟩ := (C82_density (val := val) pick hpick K' d2 z hz).2.2
    (by rw [hall]; norm_num [tol]) (by rw [hall]; exact one_ne_zero)
  have hrect : ∀ (L : List (ℤ × ℚ)) (lo : FP) (v : ℚ), rectify val (tile lo (.const v) (L.map (fun s => (s.1, .const s.2))) pinf) =
      .ok (tile lo (.const v) (L.map (fun s => (s.1, .const s.2))) pinf) := by
    intro L
    induction L with
    | nil => intro lo v; rfl
    | cons s r ih =>
      intro lo v
      have := ih (fin s.1) s.2
      unfold rectify at this ⊢
      simp only [List.map_cons, tile, List.mapM_cons, this, bind, Except.bind, pure, Except.pure, rectifyPiece]
  have hfr : fromRectified val pick (tile ninf (.const 0) (K.map (fun s => (s.1, .const s.2))) pinf) = .ok c := by
    have ht : toDens (stepFn K') = .ok (stepDens ninf 0 K') := toDens_step
    have d1' : simplify (tile ninf (.const 0) (K.map (fun s => (s.1, .const s.2))) pinf) = .ok (stepFn K') := d1
    simp only [fromRectified, hrect, d1', ht, bind, Except.bind, hc1]
  have himp : ∀ k, impulseDens (constDens k) = true := fun k => by
    simp [impulseDens, constDens, CS.isninf, CS.ispinf, CS.isempty, CS.lowermost, FP.up, FP.dn, FP.le_def, FP.lt_def, leb,
      FP.isInf, CS.itype, Br.code]
  refine ⟨c, fun k => ⟨?_, ?_⟩, fun n => ?_⟩
  · unfold sumDist
    simp only [himp, if_true, toPF_step, hfr]
  · unfold sumDist
    simp only [impulse_step, himp, Bool.false_eq_true, if_false, if_true, toPF_step, hfr]
  · rw [hc2, harea, hall, div_one]

/-- A uniform distribution meets the conditions; the cdf of its sum with the constant 5. -/
example : IsBump [((0 : ℤ), (1 / 10 : ℚ)), (10, 0)] ∧ areaAll ival [(0, 1 / 10), (10, 0)] = 1 ∧
    ((sumDist ival pickLower (constDens 5) (stepDens ninf 0 [(0, 1 / 10), (10, 0)])).toOption.map (fun c =>
      [-5, 0, 5, 10].map (fun n => (c.eval ival n).toOption))) =
      some [some (some 0), some (some 0), some (some (1 / 2)), some (some 1)] :=
  ⟨⟨by simp, rfl⟩, by norm_num [areaAll, ival], by decide +kernel⟩

/-- The sum of a constant and a variable is the variable itself: the constant is not added.  Here the constant is 5 and the
variable is uniform on `[0, 10)`; the sum should be uniform on `[5, 15)`. -/
theorem C102_violated_constant : ¬ ∀ (k : ℤ) (K : List (ℤ × ℚ)) (c c' : PF), IsBump K → areaAll ival K = 1 →
    pdfToCdf ival pickLower (stepDens ninf 0 K) = .ok c →
    sumDist ival pickLower (constDens k) (stepDens ninf 0 K) = .ok c' → ∀ n, c'.eval ival (n + k) = c.eval ival n := by
  intro h
  have h1 : (match pdfToCdf ival pickLower (stepDens ninf 0 [(0, 1 / 10), (10, 0)]),
      sumDist ival pickLower (constDens 5) (stepDens ninf 0 [(0, 1 / 10), (10, 0)]) with
    | .ok c, .ok c' => decide ((c'.eval ival 10).toOption = (c.eval ival 5).toOption)
    | _, _ => true) = false := by decide +kernel
  cases hc : pdfToCdf ival pickLower (stepDens ninf 0 [(0, 1 / 10), (10, 0)]) with
  | error e => rw [hc] at h1; simp at h1
  | ok c =>
    cases hc' : sumDist ival pickLower (constDens 5) (stepDens ninf 0 [(0, 1 / 10), (10, 0)]) with
    | error e => rw [hc, hc'] at h1; simp at h1
    | ok c' =>
      rw [hc, hc'] at h1
      have := h 5 _ c c' ⟨by simp, rfl⟩ (by norm_num [areaAll, ival]) hc hc' 5
      rw [show (5 : ℤ) + 5 = 10 by norm_num] at this
      simp [this] at h1

end Verif.Num
