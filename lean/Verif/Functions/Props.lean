import Verif.Functions.Lemmas5

/-!
# Properties of functions

C14 (arithmetic with a constant or linear function), C15 (evaluation), C16 (interpolation), C17
(integrals), C18 (shift, crop, stretch, split), C19 (equality).

`val n` is the number of the `n`-th finite float; statements about values range over all `val`, and
need `StrictMono val` only where numbers are compared.
-/

namespace Verif.Fun

open Iv Iv.FP MeasureTheory

/-- For the examples: the floats are the integers. -/
def ival (n : ℤ) : ℚ := n

theorem ival_strictMono : StrictMono ival := fun a b h => by simp [ival, h]

/-- For the examples: `[a, b)`. -/
def co (a b : ℤ) : CS := ⟨fin a, fin b, .inc, .exc⟩

/-- `0` on `(-inf, 0)`, `x/10` on `[0, 10)`, `1` on `[10, inf)`. -/
def ramp : PF := [(⟨ninf, fin 0, .exc, .exc⟩, .const 0), (co 0 10, .lin (1 / 10) 0),
  (⟨fin 10, pinf, .inc, .exc⟩, .const 1)]

instance (p : PF) (q : CS × Fn → Prop) [∀ s, Decidable (q s)] : Decidable (∀ s ∈ p, q s) :=
  List.decidableBAll _ _

theorem ramp_norm : ∀ s ∈ ramp, PF.Norm s.1 := by decide +kernel

theorem ramp_before : ramp.Pairwise (fun s t => s.1.uppermost < t.1.lowermost) := by decide +kernel

theorem ramp_disj : ramp.Disj := PF.sorted_disj (ramp_before.imp (fun h => PF.before_of_lt h))

/-! ## C15 -/

/-- Evaluating a function with disjoint pieces gives the value of the piece that contains the
argument (NaN for an explicitly undefined piece). -/
theorem C15_eval_partial {val : ℤ → ℚ} {p : PF} (hd : p.Disj) (n : ℤ) (v : Option ℚ) :
    p.eval val n = .ok v ↔ ∃ s ∈ p, s.1.Mem (fin n) ∧ s.2.eval (val n) = v :=
  PF.eval_ok_iff hd

example : ramp.eval ival 5 = .ok (some (1 / 2)) ∧ ramp.Disj := ⟨by decide +kernel, ramp_disj⟩

/-- Evaluation fails iff no piece contains the argument. -/
theorem C15_eval_error_partial {val : ℤ → ℚ} (p : PF) (n : ℤ) :
    (∃ e, p.eval val n = .error e) ↔ ∀ s ∈ p, ¬ s.1.Mem (fin n) := by
  constructor
  · rintro ⟨e, he⟩ s hs hm
    exact (PF.eval_error_iff.1 he).2 ⟨s, hs, hm⟩
  · intro h
    exact ⟨_, PF.eval_error_iff.2 ⟨rfl, fun ⟨s, hs, hm⟩ => h s hs hm⟩⟩

example : PF.eval ival [(co 0 10, .const 1)] 10 = .error .attributeError := by decide +kernel

/-- Contrary to the property the value outside all pieces is not NaN: there is no function to call. -/
theorem C15_violated_outside : ¬ ∀ (p : PF) (n : ℤ), (∀ s ∈ p, ¬ s.1.Mem (fin n)) →
    p.eval ival n = .ok none := by
  intro h
  exact absurd (h [] 0 (by simp)) (by decide +kernel)

/-- `interval_at` is the interval of the piece that contains the argument, and empty if there is
none. -/
theorem C15_interval_at {p : PF} (hd : p.Disj) (n : ℤ) :
    (∀ s ∈ p, s.1.Mem (fin n) → p.intervalAt (fin n) = s.1) ∧
    ((∀ s ∈ p, ¬ s.1.Mem (fin n)) → p.intervalAt (fin n) = CS.emptyset) := by
  constructor
  · intro s hs hm
    cases hf : p.find? (fun s => s.1.containsValue (fin n)) with
    | none =>
      rw [List.find?_eq_none] at hf
      exact absurd ((CS.containsValue_iff _ _).2 hm) (hf s hs)
    | some t =>
      have h1 := List.find?_some hf
      have h2 := List.mem_of_find?_eq_some hf
      rw [CS.containsValue_iff] at h1
      rw [PF.intervalAt, hf, PF.disj_unique hd hs h2 hm h1]; rfl
  · intro h
    have : p.find? (fun s => s.1.containsValue (fin n)) = none := by
      rw [List.find?_eq_none]
      intro s hs hc
      exact h s hs ((CS.containsValue_iff _ _).1 hc)
    rw [PF.intervalAt, this]; rfl

example : ramp.intervalAt (fin 10) = ⟨fin 10, pinf, .inc, .exc⟩ := by decide +kernel

/-! ## C14 -/

/-- The sum of two functions is the pointwise sum, undefined where one of them is. -/
theorem C14_function_plus {f g h : Fn} (e : f.plus g = .ok h) (x : ℚ) :
    h.eval x = nanOp (· + ·) (f.eval x) (g.eval x) := Fn.plus_eval e x

example : (Fn.lin 2 1).plus (.lin (-2) 3) = .ok (.const 4) := by decide +kernel

/-- The product of two functions is the pointwise product. -/
theorem C14_function_times {f g h : Fn} (e : f.times g = .ok h) (x : ℚ) :
    h.eval x = nanOp (· * ·) (f.eval x) (g.eval x) := Fn.times_eval e x

example : (Fn.lin 2 1).times (.lin (-2) 3) = .ok (.quad (-4) 4 3) := by decide +kernel

/-- Constant and linear functions can be added and multiplied. -/
theorem C14_function_returns {f g : Fn} (hf : ∃ m c, f = .lin m c ∨ f = .const c)
    (hg : ∃ m c, g = .lin m c ∨ g = .const c) :
    (∃ h, f.plus g = .ok h) ∧ (∃ h, f.times g = .ok h) := by
  obtain ⟨m, c, rfl | rfl⟩ := hf <;> obtain ⟨m', c', rfl | rfl⟩ := hg <;>
    simp [Fn.plus, Fn.times, Fn.add, Fn.mul, Except.map]

/-- Subtracting a number from a linear function is pointwise. -/
theorem C14_function_minus_number {f h : Fn} {x : ℚ} (e : f.subNum x = .ok h) (y : ℚ) :
    h.eval y = (f.eval y).map (· - x) := by
  cases f <;> simp [Fn.subNum] at e
  rw [C14_function_plus e]
  simp [Fn.eval, nanOp, sub_eq_add_neg]

example : (Fn.lin 2 1).subNum 3 = .ok (.lin 2 (-2)) := by decide +kernel

/-- Subtracting a linear function from a number is not: `3 - (2x + 1)` gives `2x - 2`. -/
theorem C14_violated_number_minus_function : ¬ ∀ (f h : Fn) (x : ℚ), f.rsubNum x = .ok h →
    ∀ y, h.eval y = (f.eval y).map (x - ·) := by
  intro h
  exact absurd (h (.lin 2 1) (.lin 2 (-2)) 3 (by decide +kernel) 0) (by decide +kernel)

/-- The sum of a linear and an undefined function raises, though the other order is undefined. -/
theorem C14_violated_undefined : (Fn.lin 1 0).plus .undef = .error .typeError ∧
    Fn.undef.plus (.lin 1 0) = .ok .undef := ⟨by decide +kernel, by decide +kernel⟩

/-- The product of a quadratic and a linear function is `None`. -/
theorem C14_violated_quadratic : (Fn.quad 1 0 0).times (.lin 1 0) = .error .attributeError := by
  decide +kernel

theorem eval_of_value {val : ℤ → ℚ} {p r : PF} (hp : p.Disj) (hr : r.Disj) {n : ℤ}
    {G : Option ℚ → Option ℚ}
    (h : ∀ w, PF.Value val r n w ↔ ∃ v, PF.Value val p n v ∧ w = G v) :
    r.eval val n = (p.eval val n).map G := by
  cases he : p.eval val n with
  | ok v =>
    rw [Except.map, PF.eval_ok_iff hr, h]
    exact ⟨v, (PF.eval_ok_iff hp).1 he, rfl⟩
  | error e =>
    obtain ⟨rfl, hc⟩ := PF.eval_error_iff.1 he
    rw [Except.map, PF.eval_error_iff]
    refine ⟨rfl, fun ⟨s, hs, hm⟩ => ?_⟩
    obtain ⟨v, ⟨t, ht, hm', -⟩, -⟩ := (h _).1 ⟨s, hs, hm, rfl⟩
    exact hc ⟨t, ht, hm'⟩

theorem mapM_fn_eval {val : ℤ → ℚ} {F : Fn → Except Err Fn} {p r : PF}
    (h : p.mapM (fun s => (F s.2).map (fun g => (s.1, g))) = .ok r) {n : ℤ} {G : Option ℚ → Option ℚ}
    (hF : ∀ f g, F f = .ok g → g.eval (val n) = G (f.eval (val n))) (w : Option ℚ) :
    PF.Value val r n w ↔ ∃ v, PF.Value val p n v ∧ w = G v := by
  rw [PF.mapM_fn_value h]
  constructor
  · rintro ⟨s, hs, hm, g, hg, rfl⟩
    exact ⟨_, ⟨s, hs, hm, rfl⟩, hF _ _ hg⟩
  · rintro ⟨v, ⟨s, hs, hm, rfl⟩, rfl⟩
    have h2 := PF.mapM_fn h
    obtain ⟨t, -, ht⟩ : ∃ t ∈ r, t.1 = s.1 ∧ F s.2 = .ok t.2 := by
      clear h
      induction h2 with
      | nil => simp at hs
      | cons hh _ ih =>
        rcases List.mem_cons.1 hs with rfl | hs
        · exact ⟨_, by simp, hh⟩
        · obtain ⟨t, ht, h'⟩ := ih hs; exact ⟨t, by simp [ht], h'⟩
    exact ⟨s, hs, hm, t.2, ht.2, hF _ _ ht.2⟩

/-- `p + f` for a constant or linear function `f` is the pointwise sum wherever `p` is defined. -/
theorem C14_plus_function {val : ℤ → ℚ} {p r : PF} {f : Fn} (hp : ∀ s ∈ p, PF.Norm s.1) (hd : p.Disj)
    (e : p.plusFn f = .ok r) (n : ℤ) :
    r.eval val n = (p.eval val n).map (fun v => nanOp (· + ·) v (f.eval (val n))) := by
  unfold PF.plusFn at e
  simp only [bind, Except.bind] at e
  cases h1 : p.addFn f with
  | error e' => rw [h1] at e; simp at e
  | ok q =>
    rw [h1] at e
    have h2 := PF.addFn_eq h1
    have hq : ∀ s ∈ q, PF.Ne s.1 := PF.mapM_fn_all (F := fun g => g.plus f) h2 (fun s hs => PF.norm_ne (hp s hs))
    obtain ⟨hv, -, hs⟩ := PF.simplify_spec (val := val) hq e
    refine eval_of_value hd (PF.sorted_disj hs) (fun w => ?_)
    rw [hv]
    exact mapM_fn_eval (F := fun g => g.plus f) h2
      (G := fun v => nanOp (· + ·) v (f.eval (val n)))
      (fun f g h => Fn.plus_eval h _) w

/-- `p * f` for a constant or linear function `f` is the pointwise product. -/
theorem C14_times_function {val : ℤ → ℚ} {p r : PF} {f : Fn} (hp : ∀ s ∈ p, PF.Norm s.1) (hd : p.Disj)
    (e : p.timesFn f = .ok r) (n : ℤ) :
    r.eval val n = (p.eval val n).map (fun v => nanOp (· * ·) v (f.eval (val n))) := by
  unfold PF.timesFn at e
  simp only [bind, Except.bind] at e
  cases h1 : p.mulFn f with
  | error e' => rw [h1] at e; simp at e
  | ok q =>
    rw [h1] at e
    have h2 := PF.mulFn_eq h1
    have hq : ∀ s ∈ q, PF.Ne s.1 := PF.mapM_fn_all (F := fun g => g.times f) h2 (fun s hs => PF.norm_ne (hp s hs))
    obtain ⟨hv, -, hs⟩ := PF.simplify_spec (val := val) hq e
    refine eval_of_value hd (PF.sorted_disj hs) (fun w => ?_)
    rw [hv]
    exact mapM_fn_eval (F := fun g => g.times f) h2
      (G := fun v => nanOp (· * ·) v (f.eval (val n)))
      (fun f g h => Fn.times_eval h _) w

/-- These operations return for every function with constant and linear pieces. -/
theorem C14_function_pieces_return {p : PF} {f : Fn} (hp : ∀ s ∈ p, PF.Norm s.1) (hd : p.Disj)
    (hpf : ∀ s ∈ p, ∃ m c, s.2 = .lin m c ∨ s.2 = .const c)
    (hf : ∃ m c, f = .lin m c ∨ f = .const c) :
    (∃ r, p.plusFn f = .ok r) ∧ (∃ r, p.timesFn f = .ok r) := by
  have aux : ∀ (F : Fn → Except Err Fn),
      (∀ g, (∃ m c, g = .lin m c ∨ g = .const c) → ∃ h, F g = .ok h ∧ h ≠ .undef) →
      ∃ q, p.mapM (fun s => (F s.2).map (fun g => (s.1, g))) = .ok q ∧ ∃ r, PF.simplify q = .ok r := by
    intro F hF
    have hq : ∃ q, p.mapM (fun s => (F s.2).map (fun g => (s.1, g))) = .ok q ∧
        ∀ s ∈ q, s.2 ≠ .undef := by
      clear hp hd
      induction p with
      | nil => exact ⟨[], rfl, by simp⟩
      | cons s p ih =>
        obtain ⟨q, hq, hn⟩ := ih (fun t ht => hpf t (by simp [ht]))
        obtain ⟨g, hg, hgn⟩ := hF _ (hpf s (by simp))
        refine ⟨(s.1, g) :: q, ?_, ?_⟩
        · rw [List.mapM_cons, hg, hq]; rfl
        · intro t ht
          rcases List.mem_cons.1 ht with rfl | ht
          · exact hgn
          · exact hn t ht
    obtain ⟨q, hq, hn⟩ := hq
    refine ⟨q, hq, PF.simplify_ok (PF.mapM_fn_all hq (fun s hs => PF.norm_ne (hp s hs)))
      (PF.mapM_fn_disj hq hd) (fun s hs t ht => ?_)⟩
    have := hn s hs
    cases h : s.2 <;> cases h' : t.2 <;> simp_all [Fn.eq]
  have hd : ∀ g h : Fn, (∃ m c, g = .lin m c ∨ g = .const c) → (∃ m c, h = .lin m c ∨ h = .const c) →
      (∃ k, g.plus h = .ok k ∧ k ≠ .undef) ∧ (∃ k, g.times h = .ok k ∧ k ≠ .undef) := by
    rintro g h ⟨m, c, rfl | rfl⟩ ⟨m', c', rfl | rfl⟩ <;>
      simp only [Fn.plus, Fn.times, Fn.add, Fn.mul, Except.map] <;>
      refine ⟨⟨_, rfl, ?_⟩, ⟨_, rfl, ?_⟩⟩ <;> unfold Fn.simplify <;> grind
  obtain ⟨q, hq, r, hr⟩ := aux (fun g => g.plus f) (fun g hg => (hd g f hg hf).1)
  obtain ⟨q', hq', r', hr'⟩ := aux (fun g => g.times f) (fun g hg => (hd g f hg hf).2)
  constructor
  · refine ⟨r, ?_⟩
    have : p.addFn f = .ok q := by obtain ⟨m, c, rfl | rfl⟩ := hf <;> exact hq
    rw [PF.plusFn, this]; exact hr
  · refine ⟨r', ?_⟩
    have : p.mulFn f = .ok q' := by obtain ⟨m, c, rfl | rfl⟩ := hf <;> exact hq'
    rw [PF.timesFn, this]; exact hr'

example : (∀ s ∈ ramp, PF.Norm s.1) ∧ ramp.Disj ∧
    ramp.plusFn (.lin (-1 / 10) 2) = .ok [(⟨ninf, fin 0, .exc, .exc⟩, .lin (-1 / 10) 2),
      (co 0 10, .const 2), (⟨fin 10, pinf, .inc, .exc⟩, .lin (-1 / 10) 3)] ∧
    ramp.timesFn (.const 2) = .ok [(⟨ninf, fin 0, .exc, .exc⟩, .const 0),
      (co 0 10, .lin (1 / 5) 0), (⟨fin 10, pinf, .inc, .exc⟩, .const 2)] :=
  ⟨ramp_norm, ramp_disj, by decide +kernel, by decide +kernel⟩

/-- `p / r` divides every value by `r`; it raises iff `r = 0` or a piece is not supported. -/
theorem C14_divide {val : ℤ → ℚ} {p q : PF} {r : ℚ} (hd : p.Disj) (e : p.divNum r = .ok q) (n : ℤ) :
    r ≠ 0 ∧ q.eval val n = (p.eval val n).map (Option.map (· / r)) := by
  unfold PF.divNum at e
  by_cases h0 : r = 0
  · rw [if_pos h0] at e; simp at e
  · rw [if_neg h0] at e
    refine ⟨h0, ?_⟩
    have h2 := PF.mulFn_eq e
    refine eval_of_value hd (PF.mapM_fn_disj (F := fun g => g.times (.const (1 / r))) h2 hd) (fun w => ?_)
    refine mapM_fn_eval (F := fun g => g.times (.const (1 / r))) h2 (G := Option.map (· / r)) (fun f g h => ?_) w
    rw [Fn.times_eval h]
    cases f.eval (val n) <;> simp [nanOp, Fn.eval, div_eq_mul_inv]

example : ramp.divNum 2 = .ok [(⟨ninf, fin 0, .exc, .exc⟩, .const 0),
      (co 0 10, .lin (1 / 20) 0), (⟨fin 10, pinf, .inc, .exc⟩, .const (1 / 2))] ∧
    ramp.divNum 0 = .error .zeroDivision := ⟨by decide +kernel, by decide +kernel⟩

/-- `simplify` keeps all values of a function. -/
theorem C14_simplify {val : ℤ → ℚ} {p r : PF} (hp : ∀ s ∈ p, PF.Norm s.1) (hd : p.Disj)
    (e : p.simplify = .ok r) (n : ℤ) : r.eval val n = p.eval val n := by
  obtain ⟨hv, -, hs⟩ := PF.simplify_spec (val := val) (fun s h => PF.norm_ne (hp s h)) e
  rw [eval_of_value (G := id) hd (PF.sorted_disj hs) (fun w => by rw [hv]; simp)]
  cases p.eval val n <;> rfl

example : PF.simplify [(co 10 20, .const 1), (co 0 10, .lin 0 1)] = .ok [(co 0 20, .lin 0 1)] := by
  decide +kernel

/-! ## C16 -/

/-- `LinearFunction.from_points` goes through both points, and exists iff the abscissae differ. -/
theorem C16_line (p q : ℚ × ℚ) :
    (∀ f, Fn.fromPoints p q = .ok f → f.eval p.1 = some p.2 ∧ f.eval q.1 = some q.2) ∧
    ((∃ f, Fn.fromPoints p q = .ok f) ↔ p.1 ≠ q.1) := by
  refine ⟨fun f => Fn.fromPoints_hits, ?_⟩
  unfold Fn.fromPoints
  split
  · rename_i h; simp [h]
  · rename_i h; split <;> simp [h]

example : Fn.fromPoints (1, 2) (3, 8) = .ok (.lin 3 (-1)) := by decide +kernel

/-- `QuadraticFunction.fit` goes through all three points, and the parameters are finite iff the
abscissae differ. -/
theorem C16_parabola (p q r : ℚ × ℚ) :
    (∀ f, Fn.fit p q r = .ok f → f.eval p.1 = some p.2 ∧ f.eval q.1 = some q.2 ∧
      f.eval r.1 = some r.2) ∧
    ((∃ f, Fn.fit p q r = .ok f) ↔ p.1 ≠ q.1 ∧ p.1 ≠ r.1 ∧ q.1 ≠ r.1) := by
  refine ⟨fun f => Fn.fit_hits, ?_⟩
  unfold Fn.fit
  simp only
  split
  · rename_i h
    have : p.1 = q.1 ∨ p.1 = r.1 ∨ q.1 = r.1 := by
      simpa [sub_eq_zero, mul_eq_zero, or_assoc] using h
    simp; tauto
  · rename_i h
    have : ¬ (p.1 = q.1 ∨ p.1 = r.1 ∨ q.1 = r.1) := by
      simpa [sub_eq_zero, mul_eq_zero, or_assoc] using h
    simp; tauto

example : Fn.fit (0, 1) (1, 2) (2, 5) = .ok (.quad 1 0 1) := by decide +kernel

/-- `QuadraticFunction.from_points`: for points with different abscissae the parabola through them. -/
theorem C16_quadratic_from_points (p q r : ℚ × ℚ) (h : p.1 ≠ q.1 ∧ p.1 ≠ r.1 ∧ q.1 ≠ r.1) :
    ∃ f, Fn.quadFromPoints p q r = .ok f ∧ f.eval p.1 = some p.2 ∧ f.eval q.1 = some q.2 ∧
      f.eval r.1 = some r.2 := by
  obtain ⟨f, hf⟩ := (C16_parabola p q r).2.2 h
  refine ⟨f, ?_, (C16_parabola p q r).1 f hf⟩
  rw [Fn.quadFromPoints, if_neg, hf]
  rintro (rfl | rfl | rfl)
  · exact h.1 rfl
  · exact h.2.2 rfl
  · exact h.2.1 rfl

/-- Unlike `LinearFunction.from_points`, it does not reject different points with the same abscissa
(`valueError`), but divides by zero. -/
theorem C16_violated_same_abscissa : ¬ ∀ p q r : ℚ × ℚ, p.1 = q.1 ∨ p.1 = r.1 ∨ q.1 = r.1 →
    Fn.quadFromPoints p q r = .error .valueError := by
  intro h
  exact absurd (h (0, 0) (0, 1) (1, 0) (.inl rfl)) (by decide +kernel)

/-- `PiecewiseFunction.from_points` for at least two points with increasing abscissae: it returns, and
its value at any float is the linear interpolation between two neighbouring points; it is defined
exactly between the first and the last point. -/
theorem C16_polyline {val : ℤ → ℚ} (hval : StrictMono val) (p q : ℤ × ℚ) (pts : List (ℤ × ℚ))
    (h : (p :: q :: pts).Pairwise (fun a b => a.1 < b.1)) :
    ∃ r, PF.fromPoints val (p :: q :: pts) = .ok r ∧
      (∀ n v, r.eval val n = .ok v ↔ ∃ w, v = some w ∧ ∃ pre a b post,
        p :: q :: pts = pre ++ a :: b :: post ∧ a.1 ≤ n ∧ n ≤ b.1 ∧
        (w - a.2) * (val b.1 - val a.1) = (b.2 - a.2) * (val n - val a.1)) ∧
      (∀ a ∈ p :: q :: pts, r.eval val a.1 = .ok (some a.2)) := by
  obtain ⟨s, r0, r, h1, h2, h3, -, h5⟩ := PF.fromPoints_spec hval q pts p h
  have key : ∀ n v, r.eval val n = .ok v ↔ ∃ w, v = some w ∧ ∃ pre a b post,
        p :: q :: pts = pre ++ a :: b :: post ∧ a.1 ≤ n ∧ n ≤ b.1 ∧
        (w - a.2) * (val b.1 - val a.1) = (b.2 - a.2) * (val n - val a.1) := by
    intro n v
    rw [PF.eval_ok_iff (PF.sorted_disj h5), h3]
    rfl
  refine ⟨r, ?_, key, ?_⟩
  · rw [PF.fromPoints, h1]; exact h2
  · intro a ha
    rw [key]
    refine ⟨a.2, rfl, ?_⟩
    obtain ⟨pre, post, hsplit⟩ := List.append_of_mem ha
    cases post with
    | cons b post =>
      refine ⟨pre, a, b, post, hsplit, le_rfl, ?_, by ring⟩
      rw [hsplit] at h
      exact le_of_lt ((List.pairwise_cons.1 (List.pairwise_append.1 h).2.1).1 b (by simp))
    | nil =>
      rcases List.eq_nil_or_concat pre with rfl | ⟨pre', b, rfl⟩
      · simp at hsplit
      · refine ⟨pre', b, a, [], by simpa using hsplit, ?_, le_rfl, by ring⟩
        rw [hsplit] at h
        exact le_of_lt ((List.pairwise_append.1 h).2.2 b (by simp) a (by simp))

example : PF.fromPoints ival [(0, 0), (10, 1), (20, 1)] =
    .ok [(co 0 10, .lin (1 / 10) 0), (co 10 21, .const 1)] := by decide +kernel

/-! ## C17 -/

/-- The integral of a constant or linear function between two numbers is the area under it. -/
theorem C17_function {f : Fn} (hf : ∃ m c, f = .lin m c ∨ f = .const c) {a b : ℚ} (hab : a ≤ b) :
    ∃ q, f.integrate (.fin a) (.fin b) = .ok (some (.fin q)) ∧ (q : ℝ) = ∫ x in (a : ℝ)..b, f.real x :=
  Fn.integrate_fin hf hab

example : (Fn.lin 2 1).integrate (.fin 1) (.fin 3) = .ok (some (.fin 10)) := by decide +kernel

/-- The integral of a piecewise function over a range is the area under it within the range,
provided that unbounded pieces in an unbounded range are the constant 0. -/
theorem C17_area_partial {val : ℤ → ℚ} (hval : StrictMono val) {p : PF} (hp : ∀ s ∈ p, PF.Norm s.1)
    (hd : p.Disj) (hf : ∀ s ∈ p, ∃ m c, s.2 = .lin m c ∨ s.2 = .const c) {I : CS} (hI : PF.Norm I)
    (hinf : ∀ s ∈ p, (I.lower = ninf ∧ s.1.lower = ninf ∨ I.upper = pinf ∧ s.1.upper = pinf) →
      s.2 = .const 0) :
    ∃ q, p.integrate val I = .ok (some (.fin q)) ∧
      (q : ℝ) = ∫ x in span val I, PF.real val p x := by
  obtain ⟨-, q, h1, h2⟩ := PF.integrateLoop_spec hval hI 0 hp hd hf hinf
  refine ⟨q, h1, ?_⟩
  rw [h2]; simp

example : ramp.integrate ival (co (-5) 12) = .ok (some (.fin 7)) ∧ PF.Norm (co (-5) 12) ∧
    (∀ s ∈ ramp, PF.Norm s.1) ∧ ramp.Disj := ⟨by decide +kernel, by decide +kernel, ramp_norm, ramp_disj⟩

/-- The integral over `[a, c)` is the sum of the integrals over `[a, b)` and `[b, c)`. -/
theorem C17_additive {val : ℤ → ℚ} (hval : StrictMono val) {p : PF} (hp : ∀ s ∈ p, PF.Norm s.1)
    (hd : p.Disj) (hf : ∀ s ∈ p, ∃ m c, s.2 = .lin m c ∨ s.2 = .const c) {a b c : ℤ}
    (hab : a < b) (hbc : b < c) :
    ∃ q r, p.integrate val ⟨fin a, fin b, .inc, .exc⟩ = .ok (some (.fin q)) ∧
      p.integrate val ⟨fin b, fin c, .inc, .exc⟩ = .ok (some (.fin r)) ∧
      p.integrate val ⟨fin a, fin c, .inc, .exc⟩ = .ok (some (.fin (q + r))) := by
  have hn : ∀ {a b : ℤ}, a < b → PF.Norm ⟨fin a, fin b, .inc, .exc⟩ := by
    intro a b h
    refine ⟨?_, rfl, .inr ⟨by simp, rfl⟩⟩
    simp [FP.lt_def, leb]; omega
  have hno : ∀ a b : ℤ, ∀ s ∈ p, ((⟨fin a, fin b, .inc, .exc⟩ : CS).lower = ninf ∧ s.1.lower = ninf ∨
      (⟨fin a, fin b, .inc, .exc⟩ : CS).upper = pinf ∧ s.1.upper = pinf) → s.2 = .const 0 := by
    intro a b s _ h; simp at h
  obtain ⟨i1, q, h1, e1⟩ := PF.integrateLoop_spec hval (hn hab) 0 hp hd hf (hno a b)
  obtain ⟨i2, r, h2, e2⟩ := PF.integrateLoop_spec hval (hn hbc) 0 hp hd hf (hno b c)
  obtain ⟨i3, t, h3, e3⟩ := PF.integrateLoop_spec hval (hn (hab.trans hbc)) 0 hp hd hf (hno a c)
  refine ⟨q, r, h1, h2, ?_⟩
  have hs : ∀ a b : ℤ, span val ⟨fin a, fin b, .inc, .exc⟩ = Set.Ico (val a : ℝ) (val b) :=
    fun a b => PF.span_fin rfl rfl
  rw [hs] at i1 i2 e1 e2 e3
  have hu : Set.Ico (val a : ℝ) (val c) = Set.Ico (val a : ℝ) (val b) ∪ Set.Ico (val b : ℝ) (val c) := by
    rw [Set.Ico_union_Ico_eq_Ico] <;> exact_mod_cast le_of_lt (hval (by assumption))
  have hdj : Disjoint (Set.Ico (val a : ℝ) (val b)) (Set.Ico (val b : ℝ) (val c)) :=
    Set.Ico_disjoint_Ico_same
  rw [hu, setIntegral_union hdj measurableSet_Ico i1 i2] at e3
  have : t = q + r := by
    have h : (t : ℝ) = ((q + r : ℚ) : ℝ) := by
      rw [e3]; push_cast; rw [e1, e2]; simp
    exact_mod_cast h
  rw [← this]; exact h3

example : ramp.integrate ival (co (-5) 5) = .ok (some (.fin (5 / 4))) ∧
    ramp.integrate ival (co 5 12) = .ok (some (.fin (23 / 4))) := ⟨by decide +kernel, by decide +kernel⟩

/-- The area under `LinearFunction(0, 0)` from `0` to infinity is reported as `+inf`. -/
theorem C17_violated_linear_zero : (Fn.lin 0 0).integrate (.fin 0) .pinf = .ok (some .pinf) ∧
    (Fn.const 0).integrate (.fin 0) .pinf = .ok (some (.fin 0)) := ⟨by decide +kernel, by decide +kernel⟩

/-- The area under `LinearFunction(0, -1)`, a negative constant, is `+inf`, too. -/
theorem C17_violated_linear_sign : (Fn.lin 0 (-1)).integrate (.fin 0) .pinf = .ok (some .pinf) ∧
    (Fn.const (-1)).integrate (.fin 0) .pinf = .ok (some .ninf) := ⟨by decide +kernel, by decide +kernel⟩

/-! ## C18 -/

/-- `xshift`: the value of the shifted function at `x` is the value at `x + delta`, if the bounds of the
pieces can be shifted exactly (`b - delta` is a float). -/
theorem C18_xshift {val : ℤ → ℚ} (hval : StrictMono val) {sub : ℤ → ℤ} {p r : PF} {d : ℚ}
    (h : p.xshift sub d = .ok r)
    (hb : ∀ s ∈ p, ∀ m, s.1.lower = fin m ∨ s.1.upper = fin m → val (sub m) = val m - d)
    {n k : ℤ} (hk : val k = val n + d) : r.eval val n = p.eval val k :=
  PF.xshift_eval hval h hb hk

/-- `xshift` returns for all functions without quadratic pieces. -/
theorem C18_xshift_returns {sub : ℤ → ℤ} {d : ℚ} {p : PF} (h : ∀ s ∈ p, ∀ a b c, s.2 ≠ .quad a b c) :
    ∃ r, p.xshift sub d = .ok r := PF.xshift_ok h

example : ramp.xshift (· - 3) 3 = .ok [(⟨ninf, fin (-3), .exc, .exc⟩, .const 0),
    (co (-3) 7, .lin (1 / 10) (3 / 10)), (⟨fin 7, pinf, .inc, .exc⟩, .const 1)] ∧
    (∀ s ∈ ramp, ∀ m, s.1.lower = fin m ∨ s.1.upper = fin m → ival (m - 3) = ival m - 3) :=
  ⟨by decide +kernel, fun _ _ m _ => by simp [ival]⟩

/-- `crop`: the same values within the interval, no piece elsewhere.  It returns for all pieces and all
intervals. -/
theorem C18_crop {val : ℤ → ℚ} {p : PF} (hp : ∀ s ∈ p, s.1.WF) (hd : p.Disj) {I : CS} (hI : I.WF) :
    ∃ r, p.crop I = .ok r ∧ ∀ n, (I.Mem (fin n) → r.eval val n = p.eval val n) ∧
      (¬ I.Mem (fin n) → ∀ s ∈ r, ¬ s.1.Mem (fin n)) := by
  obtain ⟨r, hr, hv⟩ := PF.crop_value (val := val) hp hI
  refine ⟨r, hr, fun n => ⟨fun hn => ?_, fun hn s hs hm => hn ((hv n _).1 ⟨s, hs, hm, rfl⟩).2⟩⟩
  have hu := fun s hs t ht h1 h2 => PF.crop_disj hp hI hd hr (n := n) (s := s) (t := t) hs ht h1 h2
  cases he : p.eval val n with
  | ok v =>
    rw [PF.eval_ok_iff' hu, hv]
    exact ⟨(PF.eval_ok_iff hd).1 he, hn⟩
  | error e =>
    obtain ⟨rfl, hc⟩ := PF.eval_error_iff.1 he
    rw [PF.eval_error_iff]
    refine ⟨rfl, fun ⟨s, hs, hm⟩ => ?_⟩
    obtain ⟨⟨t, ht, htm, -⟩, -⟩ := (hv n _).1 ⟨s, hs, hm, rfl⟩
    exact hc ⟨t, ht, htm⟩

example : ramp.crop (co 5 12) = .ok [(co 5 10, .lin (1 / 10) 0), (co 10 12, .const 1)] := by
  decide +kernel

/-- `stretch` multiplies the values of all pieces except quadratic ones. -/
theorem C18_stretch_partial {val : ℤ → ℚ} {p : PF} (h : ∀ s ∈ p, ∀ a b c, s.2 ≠ .quad a b c) (al : ℚ)
    (n : ℤ) : (p.stretch al).eval val n = (p.eval val n).map (Option.map (al * ·)) := by
  induction p with
  | nil => rfl
  | cons s p ih =>
    have ih := ih (fun t ht => h t (by simp [ht]))
    unfold PF.eval PF.atPos PF.stretch at ih ⊢
    simp only [List.map_cons, List.find?_cons]
    cases PF.hit (fin n) s.1 with
    | true => simp [Except.map, Fn.stretch_eval _ _ _ (h s (by simp))]
    | false => exact ih

example : ramp.stretch 3 = [(⟨ninf, fin 0, .exc, .exc⟩, .const 0), (co 0 10, .lin (3 / 10) 0),
  (⟨fin 10, pinf, .inc, .exc⟩, .const 3)] := by decide +kernel

/-- Quadratic pieces are not stretched. -/
theorem C18_violated_stretch : ¬ ∀ (p : PF) (al : ℚ) (n : ℤ),
    (p.stretch al).eval ival n = (p.eval ival n).map (Option.map (al * ·)) := by
  intro h
  exact absurd (h [(co 0 10, .quad 1 0 0)] 2 1) (by decide +kernel)

/-- `split(x)`: the first function has the values left of `x`, the second those from `x` on; it returns
iff `x` lies in a piece. -/
theorem C18_split {val : ℤ → ℚ} {p : PF} (hp : p.Pairwise (fun s t => RS.Before s.1 t.1)) (x : ℤ) :
    ((∃ r, p.split (fin x) = .ok r) ↔ ∃ s ∈ p, s.1.Mem (fin x)) ∧
    ∀ a b, p.split (fin x) = .ok (a, b) →
      (∀ n v, PF.Value val a n v ↔ PF.Value val p n v ∧ n < x) ∧
      (∀ n v, PF.Value val b n v ↔ PF.Value val p n v ∧ x ≤ n) := by
  refine ⟨PF.splitLoop_ok, fun a b h => ?_⟩
  exact PF.split_spec hp (by simp) h

example : ramp.split (fin 5) = .ok
    ([(⟨ninf, fin 0, .exc, .exc⟩, .const 0), (co 0 5, .lin (1 / 10) 0)],
      [(co 5 10, .lin (1 / 10) 0), (⟨fin 10, pinf, .inc, .exc⟩, .const 1)]) := by decide +kernel

/-- Mirroring a function: the value at `x` is the value at `-x`. -/
theorem C18_function_xmirror {f g : Fn} (e : f.xmirror = .ok g) (x : ℚ) : g.eval x = f.eval (-x) :=
  Fn.xmirror_eval e x

example : (Fn.lin 2 1).xmirror = .ok (.lin (-2) 1) := by decide +kernel

/-- Shifting a function: the value at `x` is the value at `x + delta`. -/
theorem C18_function_xshift {f g : Fn} {d : ℚ} (e : f.xshift d = .ok g) (x : ℚ) :
    g.eval x = f.eval (x + d) := Fn.xshift_eval e x

example : (Fn.lin 2 1).xshift 3 = .ok (.lin 2 7) := by decide +kernel

/-! ## C19 -/

/-- Functions of the same number of pieces compare equal only if the pieces are the same sets with the
same functions, hence all values are equal. -/
theorem C19_equal_partial {val : ℤ → ℚ} {p q : PF} (hp : ∀ s ∈ p, PF.Norm s.1)
    (hq : ∀ s ∈ q, PF.Norm s.1) (hl : p.length = q.length) (h : PF.eq p q = .ok true) :
    List.Forall₂ (fun s t => (∀ n : ℤ, s.1.Mem (fin n) ↔ t.1.Mem (fin n)) ∧
      ∀ x, s.2.eval x = t.2.eval x) p q ∧
    ∀ n, p.eval val n = q.eval val n := by
  have h2 : List.Forall₂ (fun s t => (∀ n : ℤ, s.1.Mem (fin n) ↔ t.1.Mem (fin n)) ∧
      ∀ x, s.2.eval x = t.2.eval x) p q := by
    have := PF.eq_forall₂ hl h
    clear hl h
    induction this with
    | nil => exact .nil
    | cons hh _ ih =>
      refine .cons ⟨fun n => PF.cs_eq_mem (PF.norm_ne (hp _ (by simp))) (PF.norm_ne (hq _ (by simp)))
        hh.1 n, fun x => Fn.eq_eval hh.2 x⟩
        (ih (fun s hs => hp s (by simp [hs])) (fun s hs => hq s (by simp [hs])))
  refine ⟨h2, fun n => ?_⟩
  have := PF.find?_forall₂ (P := fun s => PF.hit (fin n) s.1) (Q := fun s => PF.hit (fin n) s.1) h2 (by
    intro a _ b hab
    rw [PF.hit_fin, PF.hit_fin, Bool.eq_iff_iff, CS.containsValue_iff, CS.containsValue_iff]
    exact hab.1 n)
  unfold PF.eval PF.atPos
  cases h3 : p.find? (fun s => PF.hit (fin n) s.1) with
  | none =>
    rw [h3] at this
    cases h4 : q.find? (fun s => PF.hit (fin n) s.1) with
    | none => rfl
    | some t => rw [h4] at this; cases this
  | some s =>
    rw [h3] at this
    cases h4 : q.find? (fun s => PF.hit (fin n) s.1) with
    | none => rw [h4] at this; cases this
    | some t =>
      rw [h4] at this
      cases this with
      | some hab => simp [hab.2]

/-- A function equals itself. -/
theorem C19_reflexive (p : PF) : PF.eq p p = .ok true := by
  apply PF.forall₂_eq
  rw [List.forall₂_same]
  intro s hs
  exact ⟨by simp [CS.eq], Fn.eq_self _⟩

example : PF.eq ramp ramp = .ok true ∧ PF.eq ramp [] = .ok true ∧
    PF.eq ramp (ramp.stretch 2) = .ok false :=
  ⟨by decide +kernel, by decide +kernel, by decide +kernel⟩

/-- A function compares equal to any longer one that begins with the same pieces. -/
theorem C19_violated_prefix (p q : PF) : PF.eq p (p ++ q) = .ok true := by
  induction p with
  | nil => rfl
  | cons s p ih =>
    obtain ⟨i, f⟩ := s
    have hi : i.eq i = true := by simp [CS.eq]
    simp only [List.cons_append, PF.eq, hi, not_true_eq_false, if_false, Fn.eq_self]
    exact ih

/-- So equality is not equality of functions. -/
theorem C19_violated_equal : ¬ ∀ p q : PF, PF.eq p q = .ok true → ∀ n, p.eval ival n = q.eval ival n := by
  intro h
  exact absurd (h [] ramp rfl 5) (by decide +kernel)

end Verif.Fun
