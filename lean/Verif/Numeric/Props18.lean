import Verif.Numeric.ConvolutionLemmas5

/-!
# C96: the convolution of two step functions

The floats are a grid with the distance `u` here: `val n = u * n`.
-/

namespace Verif.Num

open Iv Iv.FP Fun Fun.PF

/-- **C96 (the convolution, up to one float).** For two step functions with bounded supports, none of which is a single
step of at most two floats, `f.convolution(g)` returns.  At the sum of a knot of `f` and a knot of `g` its value is the
true convolution at the *next* float.  At every float its distance from the true convolution is at most the distance of
two floats times the maximum of `|f|` times the total variation of `g`.  It is 0 to the left of all sums of knots, and
from the greatest such sum on.

What is missing for the property is the exact value (`C96_violated_exact`), and single steps
(`C96_violated_impulse`). -/
theorem C96_convolution_partial {val : ℤ → ℚ} {u : ℚ} (hval : ∀ n, val n = u * n) (hu : 0 < u) {Lf Lg : List (ℤ × ℚ)}
    (hf : IsBump Lf) (hg : IsBump Lg) (h2 : 2 ≤ Lf.length) (nf : ¬ Narrow Lf) (ng : ¬ Narrow Lg) {M : ℚ}
    (hM : ∀ s ∈ Lf, |s.2| ≤ M) :
    ∃ r, convolution val (stepFn Lf) (stepFn Lg) = .ok r ∧
      (∀ n, ∃ w : ℚ, r.eval val n = .ok (some w) ∧
        |(w : ℝ) - conv (PF.real val (stepFn Lf)) (PF.real val (stepFn Lg)) (val n)| ≤ u * M * variation 0 Lg) ∧
      (∀ a ∈ Lf, ∀ b ∈ Lg, ∃ w : ℚ, r.eval val (a.1 + b.1) = .ok (some w) ∧
        (w : ℝ) = conv (PF.real val (stepFn Lf)) (PF.real val (stepFn Lg)) (val (a.1 + b.1 + 1))) ∧
      (∀ n, (∀ a ∈ Lf, ∀ b ∈ Lg, n < a.1 + b.1) ∨ (∀ a ∈ Lf, ∀ b ∈ Lg, a.1 + b.1 ≤ n) →
        r.eval val n = .ok (some 0)) := by
  obtain ⟨A, B, l, r, hF, hr, hd, hs, hm, hv, -⟩ := convolution_spec hval hu hf hg h2 nf ng
  have hmono : StrictMono val := by
    intro a b hab
    rw [hval, hval]
    have : (a : ℚ) < b := by exact_mod_cast hab
    exact mul_lt_mul_of_pos_left this hu
  have hconv : ∀ n, conv (PF.real val (stepFn Lf)) (PF.real val (stepFn Lg)) (val n) =
      (discrete u (stepAt 0 Lf) (stepAt 0 Lg) A B (n - 1) : ℚ) := fun n =>
    conv_step hval hu (stepFn_isStep hf.1) (stepFn_isStep hg.1) hF n
  obtain ⟨lf, rf, f1, f2, f3, f4⟩ := bump_range hf
  obtain ⟨lg, rg, g1, g2, g3, g4⟩ := bump_range hg
  set F := stepAt 0 Lf
  set G := stepAt 0 Lg
  set D := discrete u F G A B with hD
  have hM0 : 0 ≤ M := by
    cases Lf with
    | nil => simp at h2
    | cons a _ => exact le_trans (abs_nonneg _) (hM a (by simp))
  have hD0 : ∀ n, n < lf + lg ∨ rf + rg ≤ n + 1 → D n = 0 := by
    intro n hn
    rw [hD]
    unfold discrete
    rw [Finset.sum_eq_zero, mul_zero]
    intro k _
    by_cases hk : lf ≤ k ∧ k < rf
    · have : G (n - k) = 0 := g4 _ (by omega)
      rw [this, mul_zero]
    · have : F k = 0 := f4 k hk
      rw [this, zero_mul]
  have hl1 : lf + lg ∈ l := (hm _).2 ⟨lf, f1, lg, g1, rfl⟩
  have hl2 : rf + rg ∈ l := (hm _).2 ⟨rf, f2, rg, g2, rfl⟩
  have hK : ∀ n, |growth F (jumps 0 Lg) n| ≤ M * variation 0 Lg := fun n => by
    rw [← jumps_variation]
    exact growth_bound (fun n => stepAt_bound (by simpa using hM0) hM) n
  have hpt : ∀ s ∈ l, ∀ w, OnLine val (l.map (fun s => (s, D s))) s w → w = D s := by
    rintro s hs' w ⟨pre, p, q, post, e, h3, h4, h5⟩
    obtain ⟨pre', t', e1, rfl, e2⟩ := List.map_eq_append_iff.1 e
    obtain ⟨s1, t1, rfl, rfl, e3⟩ := List.map_eq_cons_iff.1 e2
    obtain ⟨s2, t2, rfl, rfl, -⟩ := List.map_eq_cons_iff.1 e3
    simp only at h3 h4 h5
    have hs12 : s1 < s2 := by
      rw [e1] at hs
      exact (List.pairwise_cons.1 (List.pairwise_append.1 hs).2.1).1 s2 (by simp)
    have hne : val s2 - val s1 ≠ 0 := sub_ne_zero.2 (ne_of_gt (hmono hs12))
    have hcase : s = s1 ∨ s = s2 := by
      rw [e1] at hs hs'
      obtain ⟨o1, o2, o3⟩ := List.pairwise_append.1 hs
      rcases List.mem_append.1 hs' with h | h
      · have := o3 s h s1 (by simp); omega
      · rcases List.mem_cons.1 h with h | h
        · exact .inl h
        · rcases List.mem_cons.1 h with h | h
          · exact .inr h
          · have := (List.pairwise_cons.1 (List.pairwise_cons.1 o2).2).1 s h; omega
    rcases hcase with rfl | rfl
    · rw [sub_self, mul_zero] at h5
      have := (mul_eq_zero.1 h5).resolve_right hne
      linarith
    · have := mul_right_cancel₀ hne h5
      linarith
  refine ⟨r, hr, fun n => ?_, fun a ha b hb => ?_, fun n hn => ?_⟩
  · obtain ⟨w, hw, hc⟩ := hv n
    refine ⟨w, hw, ?_⟩
    rw [hconv]
    have key : |w - D (n - 1)| ≤ u * (M * variation 0 Lg) := by
      rcases hc with ⟨pre, p, q, post, e, h3, h4, h5⟩ | ⟨hc, rfl⟩
      · obtain ⟨pre', t', e1, rfl, e2⟩ := List.map_eq_append_iff.1 e
        obtain ⟨s1, t1, rfl, rfl, e3⟩ := List.map_eq_cons_iff.1 e2
        obtain ⟨s2, t2, rfl, rfl, -⟩ := List.map_eq_cons_iff.1 e3
        simp only at h3 h4 h5
        have hs' := hs
        rw [e1] at hs'
        obtain ⟨o1, o2, o3⟩ := List.pairwise_append.1 hs'
        have hs12 : s1 < s2 := (List.pairwise_cons.1 o2).1 s2 (by simp)
        refine between hu hval hF (fun n => jump_sum hg.1) hs12 h3 h4 (fun m h6 h7 => ?_) hK h5
        have hml : m ∉ l := by
          rw [e1]
          intro h
          rcases List.mem_append.1 h with h | h
          · have := o3 m h s1 (by simp); omega
          · rcases List.mem_cons.1 h with h | h
            · omega
            · rcases List.mem_cons.1 h with h | h
              · omega
              · have := (List.pairwise_cons.1 (List.pairwise_cons.1 o2).2).1 m h; omega
        refine growth_const (fun s hs' => ?_)
        have : m - s.1 ∉ Lf.map Prod.fst := fun h => hml ((hm m).2 ⟨_, h, s.1, by
          rw [← jumps_fst 0]; exact List.mem_map_of_mem hs', by ring⟩)
        rw [show F (m - s.1) = F (m - s.1 - 1) from step_flat hf.1 this]
        congr 1; ring
      · have : D (n - 1) = 0 := hD0 _ (by
          rcases hc with hc | hc
          · have := hc _ hl1; omega
          · have := hc _ hl2; omega)
        rw [this, sub_zero, abs_zero]
        exact mul_nonneg hu.le (le_trans (abs_nonneg _) (hK 0))
    rw [← mul_assoc] at key
    exact_mod_cast key
  · obtain ⟨w, hw, hc⟩ := hv (a.1 + b.1)
    have hab : a.1 + b.1 ∈ l := (hm _).2 ⟨a.1, List.mem_map_of_mem ha, b.1, List.mem_map_of_mem hb, rfl⟩
    refine ⟨w, hw, ?_⟩
    rw [hconv, add_sub_cancel_right]
    rcases hc with hc | ⟨hc, -⟩
    · rw [hpt _ hab w hc]
    · rcases hc with hc | hc <;> exact absurd (hc _ hab) (lt_irrefl _)
  · obtain ⟨w, hw, hc⟩ := hv n
    rw [hw]
    rcases hc with hc | ⟨-, rfl⟩
    · have hc' := hc
      obtain ⟨pre, p, q, post, e, h3, h4, h5⟩ := hc'
      obtain ⟨pre', t', e1, rfl, e2⟩ := List.map_eq_append_iff.1 e
      obtain ⟨s1, t1, rfl, rfl, e3⟩ := List.map_eq_cons_iff.1 e2
      obtain ⟨s2, t2, rfl, rfl, -⟩ := List.map_eq_cons_iff.1 e3
      simp only at h3 h4 h5
      have m1 : s1 ∈ l := by rw [e1]; simp
      have m2 : s2 ∈ l := by rw [e1]; simp
      obtain ⟨x1, hx1, y1, hy1, z1⟩ := (hm s1).1 m1
      obtain ⟨x2, hx2, y2, hy2, z2⟩ := (hm s2).1 m2
      obtain ⟨c1, hc1, rfl⟩ := List.mem_map.1 hx1
      obtain ⟨d1, hd1, rfl⟩ := List.mem_map.1 hy1
      obtain ⟨c2, hc2, rfl⟩ := List.mem_map.1 hx2
      obtain ⟨d2, hd2, rfl⟩ := List.mem_map.1 hy2
      rcases hn with hn | hn
      · have := hn c1 hc1 d1 hd1; omega
      · have e4 := hn c2 hc2 d2 hd2
        have e5 : n = s2 := by omega
        subst e5
        rw [hpt n m2 w hc, hD0 n (by
          obtain ⟨c3, hc3, e6⟩ := List.mem_map.1 f2
          obtain ⟨d3, hd3, e7⟩ := List.mem_map.1 g2
          have := hn c3 hc3 d3 hd3
          omega)]
    · rfl

/-- A box of height 1 over `[0, 10)` and a box of height 2 over `[5, 9)`. -/
abbrev box₁ : List (ℤ × ℚ) := [(0, 1), (10, 0)]
abbrev box₂ : List (ℤ × ℚ) := [(5, 2), (9, 0)]

example : IsBump box₁ ∧ IsBump box₂ ∧ 2 ≤ box₁.length ∧ ¬ Narrow box₁ ∧ ¬ Narrow box₂ ∧ (∀ s ∈ box₁, |s.2| ≤ 1) ∧
    variation 0 box₂ = 4 ∧
    ((convolution ival (stepFn box₁) (stepFn box₂)).toOption.map (fun r => ([5, 7, 9, 12, 15, 19].map (fun n =>
      (r.eval ival n).toOption)))) = some [some (some 2), some (some 5), some (some 8), some (some 7), some (some 6),
        some (some 0)] := by
  refine ⟨⟨by simp, rfl⟩, ⟨by simp, rfl⟩, by simp, ?_, ?_, by simp, by norm_num [variation], by decide +kernel⟩
  · rintro ⟨a, b, v, w, e, h⟩
    simp only [List.cons.injEq, Prod.mk.injEq, and_true] at e
    omega
  · rintro ⟨a, b, v, w, e, h⟩
    simp only [List.cons.injEq, Prod.mk.injEq, and_true] at e
    omega

/-- The value of the convolution is not exact: mirroring `[a, b)` gives `(-b, -a]`, which is written as the half-open
interval between the *next* floats, so that the mirrored function lies one float too far to the right.  On a grid of the
integers the convolution of the box over `[0, 10)` with a box of height 2 over `[5, 9)` is 2 at 5, where the true
convolution is 0. -/
theorem C96_violated_exact : ¬ ∀ (val : ℤ → ℚ) (u : ℚ), (∀ n, val n = u * n) → 0 < u → ∀ Lf Lg : List (ℤ × ℚ),
    IsBump Lf → IsBump Lg → 2 ≤ Lf.length → ¬ Narrow Lf → ¬ Narrow Lg → ∀ r n w,
    convolution val (stepFn Lf) (stepFn Lg) = .ok r → r.eval val n = .ok (some w) →
    (w : ℝ) = conv (PF.real val (stepFn Lf)) (PF.real val (stepFn Lg)) (val n) := by
  intro h
  have hn : ∀ n, ival n = 1 * n := fun n => by simp [ival]
  have b1 : IsBump box₁ := ⟨by simp, rfl⟩
  have b2 : IsBump box₂ := ⟨by simp, rfl⟩
  have hr : ∃ r, convolution ival (stepFn box₁) (stepFn box₂) = .ok r ∧ r.eval ival 5 = .ok (some 2) := by
    have : ((convolution ival (stepFn box₁) (stepFn box₂)).toOption.map (fun r => (r.eval ival 5).toOption)) =
        some (some (some 2)) := by decide +kernel
    cases hc : convolution ival (stepFn box₁) (stepFn box₂) with
    | error e => simp [hc, Except.toOption] at this
    | ok r =>
      rw [hc] at this
      simp only [Except.toOption, Option.map_some, Option.some.injEq] at this
      cases he : r.eval ival 5 with
      | error e => simp [he] at this
      | ok v => simp only [he, Option.some.injEq] at this; exact ⟨r, rfl, by rw [he, this]⟩
  obtain ⟨r, hr, he⟩ := hr
  have := h ival 1 hn one_pos box₁ box₂ b1 b2 (by simp) (by
    rintro ⟨a, b, v, w, e, h⟩
    simp only [List.cons.injEq, Prod.mk.injEq, and_true] at e
    omega) (by
    rintro ⟨a, b, v, w, e, h⟩
    simp only [List.cons.injEq, Prod.mk.injEq, and_true] at e
    omega) r 5 2 hr he
  rw [conv_step hn one_pos (A := 0) (B := 10) (stepFn_isStep b1.1) (stepFn_isStep b2.1)] at this
  · rw [discrete, Finset.sum_eq_zero] at this
    · norm_num at this
    · intro k hk
      rw [Finset.mem_Ico] at hk
      rw [stepAt_before (L := box₂) (by
        simp only [List.mem_cons, List.not_mem_nil, or_false, forall_eq_or_imp, forall_eq]
        omega), mul_zero]
  · intro k hk
    simp only [stepAt]
    split_ifs <;> first | rfl | omega

/-- **C96 (single steps).** If one of the functions is a single step of at most two floats, which is not 0, the other
function is returned as it is. -/
theorem C96_impulse {val : ℤ → ℚ} {a b : ℤ} {v : ℚ} (hab : a < b) (hb : b ≤ a + 2) (hv : v ≠ 0) (g : PF) :
    convolution val (stepFn [(a, v), (b, 0)]) g = .ok g ∧
      (isImpulse val g = .ok false → convolution val g (stepFn [(a, v), (b, 0)]) = .ok g) := by
  have hle : (fin b).dn ≤ (fin a).up := by simp [FP.dn, FP.up, FP.le_def, leb]; omega
  have hne : CS.isempty ⟨fin a, fin b, .inc, .exc⟩ = false :=
    CS.HalfOpen.nonempty ⟨by simp [FP.lt_def, leb]; omega, rfl, .inr ⟨by simp, rfl⟩⟩
  have h : isImpulse val (stepFn [(a, v), (b, 0)]) = .ok true := by
    simp only [stepFn, List.map_cons, List.map_nil, tile, isImpulse, bind, Except.bind, Fn.eq, CS.lowermost, brOf,
      CS.isninf, CS.ispinf, FP.isInf, if_true, hne]
    rw [if_pos hle]
    simp [Fn.eval, hv]
  constructor
  · simp only [convolution, bind, Except.bind, h, if_true]
  · intro hg
    simp only [convolution, bind, Except.bind, h, hg, if_true, Bool.false_eq_true, if_false]

example : (5 : ℤ) < 6 ∧ (6 : ℤ) ≤ 5 + 2 ∧ (1 : ℚ) ≠ 0 ∧
    convolution ival (stepFn [(5, 1), (6, 0)]) (stepFn box₁) = .ok (stepFn box₁) :=
  ⟨by decide, by decide, by norm_num, (C96_impulse (by decide) (by decide) (by norm_num) _).1⟩

/-- The position of a single step of at most two floats is lost: `convolution` returns the other function without moving
it.  The convolution of a box of height 1 over `[5, 6)` with a box over `[0, 10)` on the grid of the integers should be
0 to the left of 5, but it is 1 at 0.  Thus the distribution of `c + Y`, with a constant `c`, is that of `Y`. -/
theorem C96_violated_impulse : ¬ ∀ (val : ℤ → ℚ) (u : ℚ), (∀ n, val n = u * n) → 0 < u → ∀ Lf Lg : List (ℤ × ℚ),
    IsBump Lf → IsBump Lg → 2 ≤ Lf.length → 2 ≤ Lg.length → ∀ r n,
    convolution val (stepFn Lf) (stepFn Lg) = .ok r → (∀ a ∈ Lf, ∀ b ∈ Lg, n < a.1 + b.1) →
    r.eval val n = .ok (some 0) := by
  intro h
  have := h ival 1 (fun n => by simp [ival]) one_pos [(5, 1), (6, 0)] box₁ ⟨by simp, rfl⟩ ⟨by simp, rfl⟩ (by simp) (by simp)
    _ 0 (C96_impulse (by decide) (by decide) (by norm_num) _).1 (by simp)
  revert this
  decide +kernel

/-- **C96 (errors).** A line that is not constant is refused, and so is a function without finite bounds. -/
theorem C96_errors {val : ℤ → ℚ} {f g : PF} (hf : isImpulse val f = .ok false) (hg : isImpulse val g = .ok false) :
    ((∃ s ∈ f ++ g, ∃ m c, s.2 = .lin m c ∧ m ≠ 0) → convolution val f g = .error .typeError) ∧
      (∀ c c' : ℚ, f = [(CS.allnumbers, .const c)] → g = [(CS.allnumbers, .const c')] →
        convolution val f g = .error .valueError) := by
  constructor
  · rintro ⟨s, hs, m, c, e, hm⟩
    have : (f ++ g).any (fun s => slanted s.2) = true :=
      List.any_eq_true.2 ⟨s, hs, by rw [e]; simp [slanted, hm]⟩
    simp only [convolution, bind, Except.bind, hf, hg, Bool.false_eq_true, if_false, this, if_true]
  · rintro c c' rfl rfl
    rfl

example : isImpulse ival ramp = .ok false ∧ (∃ s ∈ ramp ++ ramp, ∃ m c, s.2 = .lin m c ∧ m ≠ 0) ∧
    isImpulse ival [(CS.allnumbers, .const 1)] = .ok false :=
  ⟨by decide +kernel, ⟨(co 0 10, .lin (1 / 10) 0), by simp [ramp], _, _, rfl, by norm_num⟩, rfl⟩

end Verif.Num
