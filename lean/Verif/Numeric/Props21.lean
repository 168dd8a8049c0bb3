import Verif.Numeric.ApproxDistLemmas

/-!
# C103: the approximation of a numeric distribution

The floats are a grid with the distance `u` here: `val n = u * n`.  `pick` is `any_point`; `rnd` rounds to a nearest float, and
`least` says which item the heap returns.
-/

namespace Verif.Num

open Iv Iv.FP Fun Fun.PF

theorem stepsOf_mem {g : ℤ → ℤ → ℚ} : ∀ {ks : List ℤ}, ks.Pairwise (· < ·) → ∀ s ∈ stepsOf g ks,
    s.2 = 0 ∨ ∃ a ∈ ks, ∃ b ∈ ks, a < b ∧ s.2 = g a b
  | [], _, s, hs => by simp [stepsOf] at hs
  | [z], _, s, hs => by
    simp only [stepsOf, List.mem_singleton] at hs
    exact .inl (by rw [hs])
  | a :: b :: r, hp, s, hs => by
    obtain ⟨h1, h2⟩ := List.pairwise_cons.1 hp
    rw [stepsOf] at hs
    rcases List.mem_cons.1 hs with rfl | hs
    · exact .inr ⟨a, by simp, b, by simp, h1 b (by simp), rfl⟩
    · rcases stepsOf_mem h2 s hs with h | ⟨x, hx, y, hy, h3, h4⟩
      · exact .inl h
      · exact .inr ⟨x, List.mem_cons_of_mem _ hx, y, List.mem_cons_of_mem _ hy, h3, h4⟩

theorem stepDens_length : ∀ {K : List (ℤ × ℚ)} {lo : FP} {v : ℚ}, (stepDens lo v K).length = K.length + 1
  | [], _, _ => rfl
  | (k, w) :: r, _, _ => by simp [stepDens, stepDens_length (K := r)]

/-- **C103** (partial) The approximation of a numeric distribution whose density is a step function with area 1.  It has a cdf,
which does not decrease, is 0 up to the first knot of the density and 1 from the last one on.  It bends only at knots of the given
density; there its value is that of the given cdf, up to the distance of two floats times the sum of the values of the density.
Without a maximal error its density has as many pieces as asked for (or as many as the given one, if these are fewer), and never
fewer.

What is missing for the property are densities in which two of the possible means are equal, and the exact value at the
bends (`C103_violated_exact`). -/
theorem C103_approximation_partial {val : ℤ → ℚ} {u : ℚ} (hval : ∀ n, val n = u * n) (hu : 0 < u) {rnd : ℚ → ℤ}
    (hr : Nearest val rnd) {least : List (Fn.Fl × ℕ) → ℕ} (hleast : ∀ l, l ≠ [] → least l < l.length) {pick : CS → ℤ}
    (hpick : ∀ z, z ≤ pick ⟨fin z, pinf, .inc, .exc⟩) {K : List (ℤ × ℚ)} (hK : IsBump K) (h0 : ∀ s ∈ K, 0 ≤ s.2)
    (hA : areaAll val K = 1) (hg : Generic val (stepFn K) 0 (K.map Prod.fst)) (hε : u * (K.map Prod.snd).sum < 1)
    {emax : Option ℚ} {k : Option ℕ} (hk : ∀ m, k = some m → 3 ≤ m) :
    ∃ (c : PF) (y : ℤ → ℚ) (d : Dens), approxDist val rnd least pick (stepDens ninf 0 K) emax k = .ok c ∧
      (∀ n, c.eval val n = .ok (some (y n))) ∧ Monotone y ∧
      (∀ n, (∀ s ∈ K, n ≤ s.1) → y n = 0) ∧ (∀ n, (∀ s ∈ K, s.1 ≤ n) → y n = 1) ∧
      (∀ n, y (n + 1) - y n ≠ y n - y (n - 1) → n ∈ K.map Prod.fst ∧ |y n - area val n K| ≤ u * (K.map Prod.snd).sum) ∧
      pdf c = .ok d ∧ (emax = none → d.length = min (K.length + 1) (k.getD 3)) ∧ min (K.length + 1) (k.getD 3) ≤ d.length := by
  have hmono : StrictMono val := by
    intro a b hab
    rw [hval, hval]
    have : (a : ℚ) < b := by exact_mod_cast hab
    exact mul_lt_mul_of_pos_left this hu
  have hKs : (K.map Prod.fst).Pairwise (· < ·) := List.pairwise_map.2 hK.1
  obtain ⟨r, ks, h1, h2, h3, h4, h5, h6, h7, -⟩ := C101_constant_partial hmono hr hKs (stepFn_framed hK) hg hleast hk
    (emax := emax)
  obtain rfl := framed_steps h5
  have hks : ks.Pairwise (· < ·) := hKs.sublist h2
  set g := meanOf val (stepFn K) with hgdef
  set K' := stepsOf g ks with hK'
  have hfst : K'.map Prod.fst = ks := stepsOf_fst g ks
  have hpw : K'.Pairwise (fun s t => s.1 < t.1) := by
    rw [← List.pairwise_map (R := (· < ·)) (f := Prod.fst), hfst]
    exact hks
  obtain ⟨z, hz⟩ := bump_last hK
  have hz' : ks.getLast? = some z := by rw [h4, List.getLast?_map, hz]; rfl
  have hl : K'.getLast? = some (z, 0) := stepsOf_last g ks hz'
  have hbump : IsBump K' := ⟨hpw, by rw [hl]; rfl⟩
  have hlen : (stepFn K').length = K'.length + 1 := by simp [stepFn, tile_length]
  have hlenK : (stepFn K).length = K.length + 1 := by simp [stepFn, tile_length]
  -- the first knot
  obtain ⟨a, ks', rfl⟩ : ∃ a ks', ks = a :: ks' := by
    cases ks with
    | nil => simp at hz'
    | cons a ks' => exact ⟨a, ks', rfl⟩
  have haK : ∀ s ∈ K, a ≤ s.1 := fun s hs => by
    rw [List.head?_cons] at h3
    cases K with
    | nil => simp at hs
    | cons t r =>
      simp only [List.map_cons, List.head?_cons, Option.some.injEq] at h3
      rw [h3]
      rcases List.mem_cons.1 hs with rfl | hs
      · exact le_rfl
      · exact ((List.pairwise_cons.1 hK.1).1 s hs).le
  have hzK : ∀ s ∈ K, s.1 ≤ z := last_ge hK.1 hz
  have haz : a ∈ K.map Prod.fst := h2.subset (by simp)
  have hzm : z ∈ a :: ks' := List.mem_of_getLast? hz'
  have ha0 : area val a K = 0 := by
    rw [area_step hval hK (a := a) (fun j hj => stepAt_before (fun s hs => lt_of_lt_of_le hj (haK s hs))), cumul_empty le_rfl,
      mul_zero]
  have hz1 : area val z K = 1 := by rw [area_end K hK.1 hzK, hA]
  -- the areas at the knots
  have hsum : ∀ n, n ∈ a :: ks' → area val n K' ≤ area val n K ∧ area val n K - u * valueSum a n K ≤ area val n K' := fun n hn => by
    have := steps_area (val := val) (V := fun a b => u * valueSum a b K) (S := fun a b => area val b K - area val a K) (g := g)
      (k := fun x => x ∈ K.map Prod.fst) (fun a b c h1 h2 => by rw [← mul_add, valueSum_add h1 h2]) (fun a b c => by ring)
      (fun a b ha hb hab => (mean_area hval hu hK h0 ha hb hab).2) ks' a hks (fun x hx => h2.subset hx) n hn
    simp only [ha0, sub_zero] at this
    exact this
  set ε := u * (K.map Prod.snd).sum with hεd
  have hVε : ∀ n, u * valueSum a n K ≤ ε := fun n => mul_le_mul_of_nonneg_left (valueSum_le h0) hu.le
  have hT : areaAll val K' = area val z K' := (area_end K' hpw (last_ge hpw hl)).symm
  obtain ⟨t1, t2⟩ := hsum z hzm
  rw [hz1, ← hT] at t1 t2
  have hT0 : 0 < areaAll val K' := by have := hVε z; linarith
  have htol : (0 : ℚ) < tol := by norm_num [tol]
  obtain ⟨c, hc, hev, hpdf⟩ := (C82_density (val := val) pick hpick K' hpw z hl).2.2 (by linarith) (ne_of_gt hT0)
  -- the values of the approximation
  have hpos : ∀ n, 0 ≤ PF.stepAt 0 K' n := fun n => stepAt_nonneg le_rfl (fun s hs => by
    rcases stepsOf_mem hks s hs with h | ⟨x, hx, y, hy, hxy, h⟩
    · rw [h]
    · rw [h]; exact (mean_area hval hu hK h0 (h2.subset hx) (h2.subset hy) hxy).1)
  have hb0 : ∀ j, j < a → PF.stepAt 0 K' j = 0 := fun j hj => stepAt_before (fun s hs => by
    have : s.1 ∈ a :: ks' := by rw [← hfst]; exact List.mem_map_of_mem hs
    rcases List.mem_cons.1 this with h | h
    · rw [h]; exact hj
    · exact lt_trans hj ((List.pairwise_cons.1 hks).1 _ h))
  have harea : ∀ n, area val n K' = u * cumul (PF.stepAt 0 K') a n := fun n => area_step hval hbump hb0 n
  have hend : ∀ n, z ≤ n → area val n K' = areaAll val K' := fun n hn =>
    area_end K' hpw (fun s hs => le_trans (last_ge hpw hl s hs) hn)
  have hmon : Monotone (fun n => area val n K') := fun m n h => by
    simp only [harea]
    exact mul_le_mul_of_nonneg_left (cumul_mono hpos h) hu.le
  have hL : (stepDens ninf 0 (K'.map (fun s => (s.1, s.2 / areaAll val K')))).length = (stepFn K').length := by
    rw [stepDens_length, List.length_map, hlen]
  refine ⟨c, fun n => area val n K' / areaAll val K', _, ?_, hev, fun m n h => ?_, fun n hn => ?_, fun n hn => ?_,
    fun n hn => ?_, hpdf, fun he => ?_, ?_⟩
  · have ht : toDens (stepFn K') = .ok (stepDens ninf 0 K') := toDens_step
    have hp : toPF (stepDens ninf 0 K) = some (stepFn K) := toPF_step
    simp only [approxDist, hp, h1, ht, bind, Except.bind, hc]
  · exact div_le_div_of_nonneg_right (hmon h) hT0.le
  · obtain ⟨s, hs, e⟩ := List.mem_map.1 haz
    simp only
    rw [harea, cumul_empty (by rw [← e]; exact hn s hs), mul_zero, zero_div]
  · simp only
    rw [hend n (hn (z, 0) (List.mem_of_getLast? hz)), div_self (ne_of_gt hT0)]
  · have hn' : n ∈ a :: ks' := by
      by_contra hS
      have h8 := step_flat (p := 0) hpw (n := n) (by rw [hfst]; exact hS)
      have e1 := cumul_step hb0 n
      have e2 := cumul_step hb0 (n - 1)
      rw [show n - 1 + 1 = n by ring] at e2
      apply hn
      simp only [harea]
      rw [← sub_div, ← sub_div, ← mul_sub, ← mul_sub, e1, e2, h8]
    refine ⟨h2.subset hn', ?_⟩
    obtain ⟨s1, s2⟩ := hsum n hn'
    have hV := hVε n
    have hVz := hVε z
    have hx0 : 0 ≤ area val n K' := by
      rw [harea]
      exact mul_nonneg hu.le (Finset.sum_nonneg (fun j _ => hpos j))
    have hxT : area val n K' ≤ areaAll val K' := by
      have := hmon (le_max_left n z)
      simp only at this
      rw [hend (max n z) (by omega)] at this
      exact this
    -- the rest of the area
    have hadd := valueSum_add (a := a) (b := n) (c := z) (by
      rcases List.mem_cons.1 hn' with h | h
      · exact le_of_eq h.symm
      · exact ((List.pairwise_cons.1 hks).1 n h).le)
      (by obtain ⟨s, hs, e⟩ := List.mem_map.1 (h2.subset hn'); rw [← e]; exact hzK s hs) K
    have hVn := mul_nonneg hu.le (valueSum_nonneg (a := n) (b := z) h0)
    have hrest : 1 - area val n K - ε ≤ areaAll val K' - area val n K' := by
      have : u * valueSum a z K = u * valueSum a n K + u * valueSum n z K := by rw [← hadd]; ring
      linarith
    set x := area val n K'
    set T := areaAll val K'
    have hup : x / T ≤ area val n K + ε := by
      have e : x / T = 1 - (T - x) / T := by field_simp; ring
      have : T - x ≤ (T - x) / T := by
        rw [le_div_iff₀ hT0]
        have : 0 ≤ T - x := by linarith
        nlinarith
      rw [e]; linarith
    have hlo : area val n K - ε ≤ x / T := by
      have : x ≤ x / T := by
        rw [le_div_iff₀ hT0]
        nlinarith
      linarith
    rw [abs_le]
    constructor <;> linarith
  · rw [hL, h6 he, hlenK]
  · rw [hL, ← hlenK]; exact h7

/-- For the examples: a density with knots at 0, 10, 30, 40 and 50. -/
abbrev stairs : List (ℤ × ℚ) := [(0, 1 / 150), (10, 2 / 150), (30, 6 / 150), (40, 4 / 150), (50, 0)]

/-- It meets the conditions of `C103_approximation_partial`. -/
example : IsBump stairs ∧ (∀ s ∈ stairs, 0 ≤ s.2) ∧ areaAll ival stairs = 1 ∧
    Generic ival (stepFn stairs) 0 (stairs.map Prod.fst) ∧ 1 * (stairs.map Prod.snd).sum < 1 :=
  ⟨⟨by decide, rfl⟩, by decide +kernel, by decide +kernel, by decide +kernel, by decide +kernel⟩

/-- With four pieces the knot 30 is left. -/
example : ((approxDist ival irnd pickLeast pickLower (stepDens ninf 0 stairs) none (some 4)).toOption.map (fun c =>
    ([0, 10, 30, 40, 50].map (fun n => (c.eval ival n).toOption), (pdf c).toOption.map List.length))) =
    some ([some (some 0), some (some (893 / 7899)), some (some (893 / 2633)), some (some (1763 / 2633)), some (some 1)],
      some 4) := by decide +kernel

/-- The value at a bend is not that of the given cdf: at 30 it is 893/2633 instead of 1/3. -/
theorem C103_violated_exact : ¬ ∀ (K : List (ℤ × ℚ)) (k : ℕ) (c : PF), IsBump K → (∀ s ∈ K, 0 ≤ s.2) → areaAll ival K = 1 →
    approxDist ival irnd pickLeast pickLower (stepDens ninf 0 K) none (some k) = .ok c →
    ∀ n x y z, c.eval ival (n - 1) = .ok (some x) → c.eval ival n = .ok (some y) → c.eval ival (n + 1) = .ok (some z) →
      z - y ≠ y - x → y = area ival n K := by
  intro h
  have h1 : (match approxDist ival irnd pickLeast pickLower (stepDens ninf 0 stairs) none (some 4) with
    | .ok c => decide ((c.eval ival 29).toOption = some (some (25897 / 78990)) ∧
        (c.eval ival 30).toOption = some (some (893 / 2633)) ∧ (c.eval ival 31).toOption = some (some (980 / 2633)))
    | _ => false) = true := by decide +kernel
  cases hc : approxDist ival irnd pickLeast pickLower (stepDens ninf 0 stairs) none (some 4) with
  | error e => rw [hc] at h1; simp at h1
  | ok c =>
    rw [hc] at h1
    simp only [decide_eq_true_eq] at h1
    obtain ⟨e1, e2, e3⟩ := h1
    have ok : ∀ {x : Except Err (Option ℚ)} {v : Option ℚ}, x.toOption = some v → x = .ok v := by
      intro x v hx
      cases x with
      | error e => simp [Except.toOption] at hx
      | ok w => simp only [Except.toOption, Option.some.injEq] at hx; rw [hx]
    have := h stairs 4 c ⟨by decide, rfl⟩ (by decide +kernel) (by decide +kernel) hc 30 _ _ _ (ok e1) (ok e2) (ok e3)
      (by norm_num)
    have ha : area ival 30 stairs = 1 / 3 := by decide +kernel
    rw [ha] at this
    norm_num at this

/-- For the examples: a density with a hole. -/
abbrev holed : List (ℤ × ℚ) := [(0, 2 / 85), (10, 1 / 170), (20, 0), (30, 6 / 85), (40, 0)]

/-- A distribution whose density is 0 somewhere within its support cannot be approximated: when the piece with the value 0 is
replaced, the first piece, which has the same value, is removed instead. -/
theorem C103_violated_hole : IsBump holed ∧ (∀ s ∈ holed, 0 ≤ s.2) ∧ areaAll ival holed = 1 ∧
    approxDist ival irnd pickLeast pickLower (stepDens ninf 0 holed) none (some 5) = .error .valueError := by
  refine ⟨⟨by decide, rfl⟩, by decide +kernel, by decide +kernel, ?_⟩
  have h1 : (match approxDist ival irnd pickLeast pickLower (stepDens ninf 0 holed) none (some 5) with
    | .error .valueError => true
    | _ => false) = true := by decide +kernel
  revert h1
  generalize approxDist ival irnd pickLeast pickLower (stepDens ninf 0 holed) none (some 5) = x
  intro h1
  split at h1
  · rfl
  · simp at h1

end Verif.Num
