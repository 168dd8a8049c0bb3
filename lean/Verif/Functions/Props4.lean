import Verif.Functions.LevelsLemmas

/-!
# C97: where a piecewise function equals, falls below or exceeds a value
-/

namespace Verif.Fun.LF

open Vars (RI)
open Trees (RIMem)
open Iv (Br)

/-- `lt` and `gt` of a function without jumps that is constant up to the first of its bounds, such as a continuous cumulative
distribution function: exactly the numbers at which the function is below, or above, `y`.

Partial: `y` is neither the value of the first piece nor taken at a bound between pieces (`C97_violated_touch`,
`C97_violated_flat`); a function with jumps (`C97_violated_jump`) or with a line at the beginning (`C97_violated_begin`) is
not treated right. -/
theorem C97_continuous_partial {p : LF} {i : RI} {v y : ℚ} (hf : From .ninf ((i, .const v) :: p))
    (hj : Joined ((i, .const v) :: p)) (hl : Lines p) (hv : v ≠ y) (hy : Misses p y) :
    (∃ r, lt ((i, .const v) :: p) y = .ok r ∧ ∀ x, In r x ↔ ∃ w, Has ((i, .const v) :: p) x w ∧ w < y) ∧
    (∃ r, gt ((i, .const v) :: p) y = .ok r ∧ ∀ x, In r x ↔ ∃ w, Has ((i, .const v) :: p) x w ∧ y < w) := by
  have hf' := hf
  obtain ⟨h1, h2, h3, h4, h5⟩ := hf
  simp only at h1 h2 h3 h4 h5
  have hs1 : ltStep y ([], none) (i, .const v)
      = .ok ([], if v < y then some ⟨.ninf, .pinf, .exc, .exc⟩ else none) := by
    simp only [ltStep, Fn.crossing, if_neg hv, bind, Except.bind, pure, Except.pure, Fn.valueAt, Fn.below, XQ.fin_lt, h1,
      decide_eq_true_eq]
    split <;> rfl
  have hs2 : gtStep y ([], none) (i, .const v)
      = .ok ([], if y < v then some ⟨.ninf, .pinf, .inc, .exc⟩ else none) := by
    simp only [gtStep, Fn.crossing, if_neg hv, bind, Except.bind, pure, Except.pure, Fn.valueAt, Fn.above, XQ.fin_lt, h1,
      decide_eq_true_eq]
    split <;> rfl
  constructor
  · have hfold : ((i, Fn.const v) :: p).foldlM (ltStep y) ([], none)
        = p.foldlM (ltStep y) ([], if v < y then some ⟨.ninf, .pinf, .exc, .exc⟩ else none) := by
      rw [List.foldlM_cons, hs1]
      rfl
    have hcur : ∀ x : ℚ, (∃ c, (if v < y then some (⟨.ninf, .pinf, .exc, .exc⟩ : RI) else none) = some c ∧ RIMem c (.fin x)) ↔ v < y := by
      intro x
      split <;> rename_i h <;> simp [h, RIMem]
    cases hu : i.upper with
    | ninf => rw [hu] at h2; exact absurd h2 (by simp)
    | pinf =>
      rw [hu] at h5
      have hpn := from_pinf h5
      subst hpn
      refine ⟨_, by unfold lt; rw [hfold]; rfl, fun x => ?_⟩
      have hfin : In (finish ([], if v < y then some ⟨.ninf, .pinf, .exc, .exc⟩ else none)) x ↔ v < y := by
        unfold finish
        split <;> rename_i h
        · split at h
          · cases h
          · rename_i h'
            simp [In, h']
        · split at h
          · rename_i h'
            obtain rfl := Option.some.inj h
            simp [In, RIMem, h']
          · cases h
      rw [hfin]
      constructor
      · intro h
        exact ⟨v, (has_first hf' x v).2 (Or.inl ⟨by rw [hu]; simp, rfl⟩), h⟩
      · rintro ⟨w, hw, hwy⟩
        rcases (has_first hf' x w).1 hw with ⟨-, h⟩ | ⟨h, -⟩
        · simp only [Fn.eval, Option.some.injEq] at h
          rw [h]
          exact hwy
        · rw [hu] at h
          exact absurd (XQ.fin_lt_pinf x) (not_lt.2 h)
    | fin u =>
      rw [hu] at h5
      obtain ⟨r, hr, hx⟩ := lt_loop p u ([], if v < y then some ⟨.ninf, .pinf, .exc, .exc⟩ else none) h5 hj.2 hl hy (by
        intro s hs w hw
        have hvw := hj.1 s hs u hu
        rw [hw] at hvw
        simp only [Fn.eval, Option.some.injEq] at hvw
        subst hvw
        by_cases h : v < y
        · simp only [if_pos h]
          exact Or.inl ⟨h, _, _, rfl, by simp, fun _ => rfl⟩
        · simp only [if_neg h]
          exact Or.inr ⟨h, rfl⟩)
      refine ⟨finish r, by unfold lt; rw [hfold, hr]; rfl, fun x => ?_⟩
      rw [hx x, hcur x]
      constructor
      · rintro (⟨_, h, -⟩ | ⟨h, h'⟩ | ⟨h, w, hw, hwy⟩)
        · cases h
        · exact ⟨v, (has_first hf' x v).2 (Or.inl ⟨by rw [hu]; simpa using h, rfl⟩), h'⟩
        · exact ⟨w, (has_first hf' x w).2 (Or.inr ⟨by rw [hu]; simpa using h, hw⟩), hwy⟩
      · rintro ⟨w, hw, hwy⟩
        rcases (has_first hf' x w).1 hw with ⟨h, h'⟩ | ⟨h, h'⟩
        · rw [hu] at h
          simp only [Fn.eval, Option.some.injEq] at h'
          exact Or.inr (Or.inl ⟨by simpa using h, by rw [h']; exact hwy⟩)
        · rw [hu] at h
          exact Or.inr (Or.inr ⟨by simpa using h, w, h', hwy⟩)
  · have hfold : ((i, Fn.const v) :: p).foldlM (gtStep y) ([], none)
        = p.foldlM (gtStep y) ([], if y < v then some ⟨.ninf, .pinf, .inc, .exc⟩ else none) := by
      rw [List.foldlM_cons, hs2]
      rfl
    have hcur : ∀ x : ℚ, (∃ c, (if y < v then some (⟨.ninf, .pinf, .inc, .exc⟩ : RI) else none) = some c ∧ RIMem c (.fin x)) ↔ y < v := by
      intro x
      split <;> rename_i h <;> simp [h, RIMem]
    cases hu : i.upper with
    | ninf => rw [hu] at h2; exact absurd h2 (by simp)
    | pinf =>
      rw [hu] at h5
      have hpn := from_pinf h5
      subst hpn
      refine ⟨_, by unfold gt; rw [hfold]; rfl, fun x => ?_⟩
      have hfin : In (finish ([], if y < v then some ⟨.ninf, .pinf, .inc, .exc⟩ else none)) x ↔ y < v := by
        unfold finish
        split <;> rename_i h
        · split at h
          · cases h
          · rename_i h'
            simp [In, h']
        · split at h
          · rename_i h'
            obtain rfl := Option.some.inj h
            simp [In, RIMem, h']
          · cases h
      rw [hfin]
      constructor
      · intro h
        exact ⟨v, (has_first hf' x v).2 (Or.inl ⟨by rw [hu]; simp, rfl⟩), h⟩
      · rintro ⟨w, hw, hwy⟩
        rcases (has_first hf' x w).1 hw with ⟨-, h⟩ | ⟨h, -⟩
        · simp only [Fn.eval, Option.some.injEq] at h
          rw [h]
          exact hwy
        · rw [hu] at h
          exact absurd (XQ.fin_lt_pinf x) (not_lt.2 h)
    | fin u =>
      rw [hu] at h5
      obtain ⟨r, hr, hx⟩ := gt_loop p u ([], if y < v then some ⟨.ninf, .pinf, .inc, .exc⟩ else none) h5 hj.2 hl hy (by
        intro s hs w hw
        have hvw := hj.1 s hs u hu
        rw [hw] at hvw
        simp only [Fn.eval, Option.some.injEq] at hvw
        subst hvw
        by_cases h : y < v
        · simp only [if_pos h]
          exact Or.inl ⟨h, _, _, rfl, by simp, fun _ => rfl⟩
        · simp only [if_neg h]
          exact Or.inr ⟨h, rfl⟩)
      refine ⟨finish r, by unfold gt; rw [hfold, hr]; rfl, fun x => ?_⟩
      rw [hx x, hcur x]
      constructor
      · rintro (⟨_, h, -⟩ | ⟨h, h'⟩ | ⟨h, w, hw, hwy⟩)
        · cases h
        · exact ⟨v, (has_first hf' x v).2 (Or.inl ⟨by rw [hu]; simpa using h, rfl⟩), h'⟩
        · exact ⟨w, (has_first hf' x w).2 (Or.inr ⟨by rw [hu]; simpa using h, hw⟩), hwy⟩
      · rintro ⟨w, hw, hwy⟩
        rcases (has_first hf' x w).1 hw with ⟨h, h'⟩ | ⟨h, h'⟩
        · rw [hu] at h
          simp only [Fn.eval, Option.some.injEq] at h'
          exact Or.inr (Or.inl ⟨by simpa using h, by rw [h']; exact hwy⟩)
        · rw [hu] at h
          exact Or.inr (Or.inr ⟨by simpa using h, w, h', hwy⟩)

/-- `gt` of a step function, such as the density of a fitted distribution: exactly the numbers at which the function exceeds
`y`, for every `y`. -/
theorem C97_gt_steps {p : LF} (hf : From .ninf p) (hc : ∀ s ∈ p, ∃ v, s.2 = .const v) (y : ℚ) :
    ∃ r, gt p y = .ok r ∧ ∀ x, In r x ↔ ∃ w, Has p x w ∧ y < w := by
  cases p with
  | nil => cases hf
  | cons s p =>
    obtain ⟨i, f⟩ := s
    obtain ⟨v, hv⟩ := hc (i, f) (by simp)
    simp only at hv
    subst hv
    have hf' := hf
    obtain ⟨h1, h2, h3, h4, h5⟩ := hf
    simp only at h1 h2 h3 h4 h5
    have hs : gtStep y ([], none) (i, .const v) = .ok ([], if y < v then some ⟨.ninf, .pinf, .inc, .exc⟩ else none) := by
      by_cases hvy : v = y
      · simp [gtStep, Fn.crossing, hvy, bind, Except.bind, pure, Except.pure]
      · simp only [gtStep, Fn.crossing, if_neg hvy, bind, Except.bind, pure, Except.pure, Fn.valueAt, Fn.above, XQ.fin_lt, h1,
          decide_eq_true_eq]
        split <;> rfl
    obtain ⟨r, hr, hx⟩ := gt_steps (y := y) p i.upper ([], if y < v then some ⟨.ninf, .pinf, .inc, .exc⟩ else none)
      (fun h => by rw [h] at h2; exact absurd h2 (by simp)) h5
      (fun s hs => hc s (List.mem_cons_of_mem _ hs)) (by
        intro c h
        by_cases h' : y < v
        · simp only [if_pos h', Option.some.injEq] at h
          exact ⟨.ninf, h.symm, h2⟩
        · simp only [if_neg h'] at h
          cases h)
    refine ⟨finish r, ?_, fun x => ?_⟩
    · unfold gt
      rw [List.foldlM_cons, hs]
      simp only [bind, Except.bind, hr, pure, Except.pure]
    · have hcur : (∃ c, (if y < v then some (⟨.ninf, .pinf, .inc, .exc⟩ : RI) else none) = some c ∧ RIMem c (.fin x)) ↔ y < v := by
        split <;> rename_i h <;> simp [h, RIMem]
      rw [hx x, hcur]
      constructor
      · rintro (⟨_, h, -⟩ | ⟨h, h'⟩ | ⟨h, w, hw, hwy⟩)
        · cases h
        · exact ⟨v, (has_first hf' x v).2 (Or.inl ⟨h, rfl⟩), h'⟩
        · exact ⟨w, (has_first hf' x w).2 (Or.inr ⟨h, hw⟩), hwy⟩
      · rintro ⟨w, hw, hwy⟩
        rcases (has_first hf' x w).1 hw with ⟨h, h'⟩ | ⟨h, h'⟩
        · simp only [Fn.eval, Option.some.injEq] at h'
          exact Or.inr (Or.inl ⟨h, by rw [h']; exact hwy⟩)
        · exact Or.inr (Or.inr ⟨h, w, h', hwy⟩)

/-- `eq` of a function made of constants and lines: the numbers at which the function has the value `y`, and the bounds at
which it jumps over `y` into a piece that does not take the value itself.

Partial: no piece has the constant value `y` (`C97_violated_flat`). -/
theorem C97_eq_partial {p : LF} {y : ℚ} (hl : Lines p) (hy : ∀ s ∈ p, s.2 ≠ .const y) :
    ∃ r, eq p y = .ok r ∧ ∀ x, In r x ↔ Has p x y ∨ ∃ l s t q, p = l ++ s :: t :: q ∧ JumpAt s.2 t y x := by
  obtain ⟨r, hr, hx⟩ := eqLoop_spec (y := y) p none (by simp) (by
    intro s hs
    rcases hl s hs with ⟨v, hv⟩ | h
    · refine Or.inl ⟨v, ?_, hv⟩
      rintro rfl
      exact hy s hs hv
    · exact Or.inr h)
  refine ⟨r, hr, fun x => ?_⟩
  rw [hx x]
  refine or_congr_right ⟨?_, ?_⟩
  · rintro ⟨l, t, q, rfl, g, hg, hgj⟩
    simp only [Option.toList_none, List.nil_append] at hg
    rcases List.eq_nil_or_concat l with rfl | ⟨l', s, rfl⟩
    · simp at hg
    · simp only [List.concat_eq_append, List.map_append, List.map_cons, List.map_nil, List.getLast?_append,
        List.getLast?_singleton, Option.some_or, Option.some.injEq] at hg
      subst hg
      exact ⟨l', s, t, q, by simp, hgj⟩
  · rintro ⟨l, s, t, q, rfl, hgj⟩
    exact ⟨l ++ [s], t, q, by simp, s.2, by simp, hgj⟩

/-- Parabolas cannot be compared with a value. -/
theorem C97_errors {p : LF} (hp : ∃ l s q, p = l ++ s :: q ∧ Lines l ∧ ∃ a b c, s.2 = .quad a b c) (y : ℚ) :
    eq p y = .error .notImplemented ∧ lt p y = .error .notImplemented ∧ gt p y = .error .notImplemented := by
  obtain ⟨l, s, q, rfl, hl, a, b, c, hs⟩ := hp
  have hcr : s.2.crossing y = .error .notImplemented := by rw [hs]; rfl
  have hok : ∀ t ∈ l, ∃ k, t.2.crossing y = .ok k := by
    intro t ht
    rcases hl t ht with ⟨v, hv⟩ | ⟨m, c, -, hv⟩ <;> rw [hv] <;> exact ⟨_, rfl⟩
  refine ⟨?_, ?_, ?_⟩
  · unfold eq
    generalize (none : Option Fn) = prev
    induction l generalizing prev with
    | nil => simp only [List.nil_append, eqLoop, eqStep, hcr, bind, Except.bind]
    | cons t l ih =>
      obtain ⟨k, hk⟩ := hok t (by simp)
      have hi := ih (fun t ht => hl t (List.mem_cons_of_mem _ ht)) (fun t ht => hok t (List.mem_cons_of_mem _ ht)) (some t.2)
      obtain ⟨r, hr⟩ : ∃ r, eqStep y prev t = .ok r := by
        simp only [eqStep, hk, bind, Except.bind, pure, Except.pure]
        cases k <;> exact ⟨_, rfl⟩
      simp only [List.cons_append, eqLoop, hr, hi, bind, Except.bind]
  · have : ∀ st, (l ++ s :: q).foldlM (ltStep y) st = .error .notImplemented := by
      induction l with
      | nil =>
        intro st
        simp only [List.nil_append, List.foldlM_cons, ltStep, hcr, bind, Except.bind]
      | cons t l ih =>
        intro st
        obtain ⟨k, hk⟩ := hok t (by simp)
        obtain ⟨r, hr⟩ : ∃ r, ltStep y st t = .ok r := by
          simp only [ltStep, hk, bind, Except.bind, pure, Except.pure]
          repeat' split
          all_goals exact ⟨_, rfl⟩
        rw [List.cons_append, List.foldlM_cons, hr]
        exact ih (fun t ht => hl t (List.mem_cons_of_mem _ ht)) (fun t ht => hok t (List.mem_cons_of_mem _ ht)) r
    unfold lt
    rw [this]
    rfl
  · have : ∀ st, (l ++ s :: q).foldlM (gtStep y) st = .error .notImplemented := by
      induction l with
      | nil =>
        intro st
        simp only [List.nil_append, List.foldlM_cons, gtStep, hcr, bind, Except.bind]
      | cons t l ih =>
        intro st
        obtain ⟨k, hk⟩ := hok t (by simp)
        obtain ⟨r, hr⟩ : ∃ r, gtStep y st t = .ok r := by
          simp only [gtStep, hk, bind, Except.bind, pure, Except.pure]
          repeat' split
          all_goals exact ⟨_, rfl⟩
        rw [List.cons_append, List.foldlM_cons, hr]
        exact ih (fun t ht => hl t (List.mem_cons_of_mem _ ht)) (fun t ht => hok t (List.mem_cons_of_mem _ ht)) r
    unfold gt
    rw [this]
    rfl

/-- `[a, b)`. -/
abbrev upto (a b : ℚ) : RI := ⟨.fin a, .fin b, .inc, .exc⟩

/-- `(-∞, b)`. -/
abbrev below (b : ℚ) : RI := ⟨.ninf, .fin b, .exc, .exc⟩

/-- `[a, ∞)`. -/
abbrev since (a : ℚ) : RI := ⟨.fin a, .pinf, .inc, .exc⟩

/-- A continuous distribution function on `[0, 10]`. -/
def cdf₁ : LF := [(below 0, .const 0), (upto 0 10, .lin (1 / 10) 0), (since 10, .const 1)]

/-- Rising to 3, falling to 1 and rising again. -/
def hill : LF := [(below 0, .const 0), (upto 0 3, .lin 1 0), (upto 3 5, .lin (-1) 6), (since 5, .lin 2 (-9))]

/-- A density. -/
def dens : LF := [(below 0, .const 0), (upto 0 1, .const (1 / 2)), (upto 1 2, .const (1 / 4)), (upto 2 3, .const 0),
  (upto 3 4, .const (1 / 4)), (since 4, .const 0)]

example : From .ninf hill ∧ From .ninf dens ∧ From .ninf cdf₁ := by
  refine ⟨?_, ?_, ?_⟩ <;> simp [hill, dens, cdf₁, From] <;> norm_num

example : Joined hill ∧ Lines hill ∧ Misses hill 2 := by
  refine ⟨?_, ?_, ?_⟩
  · simp [hill, Joined, Fn.eval]
    norm_num
  · simp [hill, Lines]
  · simp [hill, Misses, Fn.eval]
    norm_num

example : lt hill 2 = .ok [below 2, ⟨.fin 4, .fin (11 / 2), .exc, .exc⟩] ∧
    gt hill 2 = .ok [⟨.fin 2, .fin 4, .exc, .exc⟩, ⟨.fin (11 / 2), .pinf, .exc, .exc⟩] ∧
    (eq hill 2).map (fun l => l.map RI.lower) = .ok [.fin 2, .fin 4, .fin (11 / 2)] ∧
    lt cdf₁ (1 / 2) = .ok [below 5] ∧ gt dens 0 = .ok [upto 0 2, upto 3 4] := by decide +kernel

/-- The same at a jump: `eq` also reports where the value is passed. -/
example : eq [(below 0, .const 0), (since 0, .const 1)] (1 / 2) = .ok [⟨.fin 0, .fin 0, .inc, .inc⟩] := by decide +kernel

/-- `lt` and `gt` go wrong if the function touches the value without crossing it: the function `max(1 - x, x - 1)`, cut off
at 1, is nowhere negative, but `lt(0)` returns all numbers below 1. -/
theorem C97_violated_touch :
    lt [(below 0, .const 1), (upto 0 1, .lin (-1) 1), (upto 1 2, .lin 1 (-1)), (since 2, .const 1)] 0 = .ok [below 1] ∧
    gt [(below 0, .const 0), (upto 0 1, .lin 1 0), (upto 1 2, .lin (-1) 2), (since 2, .const 0)] 1 = .ok [below 1] := by
  decide +kernel

/-- A plateau at the value: `lt(1)` of a distribution function that reaches 1 returns all numbers, and `eq(1)` none. -/
theorem C97_violated_flat :
    lt cdf₁ 1 = .ok [⟨.ninf, .pinf, .exc, .exc⟩] ∧ eq cdf₁ 1 = .ok [] ∧ Has cdf₁ 10 1 := by
  refine ⟨by decide +kernel, by decide +kernel, (since 10, .const 1), by simp [cdf₁], ?_, rfl⟩
  simp [RIMem]

/-- Jumps: `lt` loses the bound at which a step function falls below the value, and `gt` misses a line that begins above the
value after a jump. -/
theorem C97_violated_jump :
    lt [(below 0, .const 1), (since 0, .const 0)] (1 / 2) = .ok [⟨.fin 0, .pinf, .exc, .exc⟩] ∧
    gt [(below 0, .const 0), (upto 0 1, .lin 1 5), (since 1, .const 6)] 1 = .ok [since 1] := by decide +kernel

/-- A function that begins with a line: `lt(1)` of `min(x, 0)` does not contain the negative numbers. -/
theorem C97_violated_begin :
    lt [(below 0, .lin 1 0), (since 0, .const 0)] 1 = .ok [⟨.fin 0, .pinf, .exc, .exc⟩] := by decide +kernel

end Verif.Fun.LF
