import Verif.Functions.ElementaryLemmas
import Mathlib.Algebra.QuadraticDiscriminant
import Mathlib.Tactic.Ring
import Mathlib.Tactic.FieldSimp
import Mathlib.Tactic.Linarith

/-!
# C99: elementary functions
-/

namespace Verif.Fun

/-- `invert` returns for lines that are not level, and undoes the function in both directions. -/
theorem C99_inverse (f : Fn) :
    (∀ g, f.invert = .ok g → ∀ x, (f.eval x).bind g.eval = some x ∧ (g.eval x).bind f.eval = some x) ∧
    ((∃ g, f.invert = .ok g) ↔ ∃ m c, m ≠ 0 ∧ f = .lin m c) := by
  cases f with
  | lin m c =>
    by_cases h : m = 0
    · simp [Fn.invert, h]
    · simp only [Fn.invert, if_neg h, Except.ok.injEq]
      refine ⟨?_, by simp [h]⟩
      rintro g rfl x
      simp only [Fn.eval, Option.bind_some, Option.some.injEq]
      constructor <;> field_simp <;> ring
  | _ => simp [Fn.invert]

example : (Fn.lin 2 3).invert = .ok (.lin (1 / 2) (-3 / 2)) := by decide +kernel

/-- `root` returns for lines that are not level, the one number at which the function is zero. -/
theorem C99_root (f : Fn) :
    (∀ r, f.root = .ok r → ∀ x, f.eval x = some 0 ↔ x = r) ∧
    ((∃ r, f.root = .ok r) ↔ ∃ m c, m ≠ 0 ∧ f = .lin m c) := by
  cases f with
  | lin m c =>
    by_cases h : m = 0
    · simp [Fn.root, h]
    · simp only [Fn.root, if_neg h, Except.ok.injEq]
      refine ⟨?_, by simp [h]⟩
      rintro r rfl x
      simp only [Fn.eval, Option.some.injEq]
      rw [eq_div_iff h]
      constructor <;> intro e <;> linarith
  | _ => simp [Fn.root]

example : (Fn.lin 2 3).root = .ok (-3 / 2) := by decide +kernel

/-- `intersection` of lines and constants returns, and describes exactly the numbers at which both have the same value. -/
theorem C99_intersection {f g : Fn} (hf : f.Straight) (hg : g.Straight) :
    ∃ c, f.intersection g = .ok c ∧ ∀ x, c.Mem x ↔ f.eval x = g.eval x := by
  have key : ∀ m c m' c' : ℚ, m ≠ m' → ∀ x, (x = (c - c') / (m' - m) ↔ m * x + c = m' * x + c') := by
    intro m c m' c' h x
    have h' : m' - m ≠ 0 := sub_ne_zero.2 (Ne.symm h)
    rw [eq_div_iff h']
    constructor <;> intro e <;> linarith
  rcases hf with ⟨m, c, rfl⟩ | ⟨v, rfl⟩ <;> rcases hg with ⟨m', c', rfl⟩ | ⟨w, rfl⟩
  · refine ⟨_, rfl, fun x => ?_⟩
    simp only [Fn.eval, Option.some.injEq]
    by_cases h : m = m'
    · by_cases h2 : c = c'
      · simp [h, h2, Cross.Mem]
      · simp [h, h2, Cross.Mem]
    · rw [if_neg h]
      exact key m c m' c' h x
  · refine ⟨_, rfl, fun x => ?_⟩
    simp only [Fn.eval, Option.some.injEq]
    by_cases h : m = 0
    · by_cases h2 : c = w
      · simp [h, h2, Cross.Mem]
      · simp [h, h2, Cross.Mem]
    · rw [if_neg h]
      have := key m c 0 w h x
      simpa [Cross.Mem] using this
  · refine ⟨_, rfl, fun x => ?_⟩
    simp only [Fn.eval, Option.some.injEq]
    by_cases h : m' = 0
    · by_cases h2 : c' = v
      · simp [h, h2, Cross.Mem]
      · simp [h, h2, Cross.Mem, Ne.symm h2]
    · rw [if_neg h]
      have := key m' c' 0 v h x
      rw [eq_comm (a := v)]
      simpa [Cross.Mem] using this
  · refine ⟨_, rfl, fun x => ?_⟩
    simp only [Fn.eval, Option.some.injEq]
    by_cases h2 : v = w
    · simp [h2, Cross.Mem]
    · simp [h2, Cross.Mem]

example : (Fn.lin 1 0).intersection (.lin 2 (-3)) = .ok (.one 3) ∧ (Fn.lin 1 0).intersection (.lin 1 1) = .ok .no := by
  decide +kernel

/-- `intersects` tells for lines and constants whether they have a value in common.  Partial: not if the functions are the same
everywhere and one of them is a line (`C99_violated_same_line`). -/
theorem C99_intersects_partial {f g : Fn} (hf : f.Straight) (hg : g.Straight)
    (h : (∃ x, f.eval x ≠ g.eval x) ∨ ∃ v w, f = .const v ∧ g = .const w) :
    ∃ b, f.intersects g = .ok b ∧ (b = true ↔ ∃ x, f.eval x = g.eval x) := by
  have key : ∀ m c m' c' : ℚ, (∃ x, m * x + c ≠ m' * x + c') → (m ≠ m' ↔ ∃ x, m * x + c = m' * x + c') := by
    rintro m c m' c' ⟨y, hy⟩
    constructor
    · intro hne
      have h' : m' - m ≠ 0 := sub_ne_zero.2 (Ne.symm hne)
      refine ⟨(c - c') / (m' - m), ?_⟩
      field_simp
      ring
    · rintro ⟨x, hx⟩ rfl
      apply hy
      linarith
  rcases hf with ⟨m, c, rfl⟩ | ⟨v, rfl⟩ <;> rcases hg with ⟨m', c', rfl⟩ | ⟨w, rfl⟩
  · refine ⟨_, rfl, ?_⟩
    simp only [Fn.eval, decide_eq_true_eq, Option.some.injEq] at h ⊢
    exact key m c m' c' (by simpa using h)
  · refine ⟨_, rfl, ?_⟩
    simp only [Fn.eval, decide_eq_true_eq, Option.some.injEq] at h ⊢
    have := key m c 0 w (by simpa using h)
    simpa using this
  · refine ⟨_, rfl, ?_⟩
    simp only [Fn.eval, decide_eq_true_eq, Option.some.injEq] at h ⊢
    have := key m' c' 0 v (by
      rcases h with ⟨x, hx⟩ | h
      · exact ⟨x, fun e => hx (by rw [e]; simp)⟩
      · simp at h)
    simpa [eq_comm (a := v)] using this
  · refine ⟨_, rfl, ?_⟩
    simp [Fn.eval, eq_comm (a := v)]

example : (Fn.lin 1 0).intersects (.lin 1 1) = .ok false ∧ (Fn.lin 1 0).intersects (.const 7) = .ok true := by decide +kernel

/-- A line and itself do not intersect, according to `intersects`, although they have all their values in common and `intersection`
says so. -/
theorem C99_violated_same_line (m c : ℚ) : (Fn.lin m c).intersects (.lin m c) = .ok false ∧
    (Fn.lin m c).intersection (.lin m c) = .ok .all := by
  simp [Fn.intersects, Fn.intersection]

/-- The roots of a parabola are the numbers at which it is zero, each listed once, in increasing order if it opens
upwards. -/
theorem C99_parabola_roots_partial {a b c : ℝ} (ha : a ≠ 0) :
    ∃ l, roots a b c = .ok l ∧ (∀ x, x ∈ l ↔ a * x * x + b * x + c = 0) ∧ l.Nodup ∧ (0 < a → l.Pairwise (· < ·)) := by
  have hd : discrim a b c = b * b - 4 * a * c := by rw [discrim]; ring
  unfold roots
  simp only
  by_cases h : 0 < b * b - 4 * a * c
  · rw [if_pos h, if_neg ha]
    have hs : 0 < √(b * b - 4 * a * c) := Real.sqrt_pos.2 h
    have hne : (-b - √(b * b - 4 * a * c)) / (2 * a) ≠ (-b + √(b * b - 4 * a * c)) / (2 * a) := by
      intro e
      rw [div_left_inj' (by simpa using ha)] at e
      linarith
    refine ⟨_, rfl, fun x => ?_, ?_, fun hp => ?_⟩
    · have := quadratic_eq_zero_iff (b := b) (c := c) ha (s := √(b * b - 4 * a * c))
        (by rw [hd, Real.mul_self_sqrt h.le]) x
      rw [mul_assoc a x x, this]
      simp [or_comm]
    · simpa using hne
    · simp only [List.pairwise_cons, List.mem_cons, List.not_mem_nil, or_false, forall_eq, List.Pairwise.nil, and_true,
        false_implies, implies_true]
      exact div_lt_div_of_pos_right (by linarith) (by linarith)
  · rw [if_neg h]
    by_cases h0 : b * b - 4 * a * c = 0
    · rw [if_pos h0, if_neg ha]
      refine ⟨_, rfl, fun x => ?_, by simp, by simp⟩
      have := quadratic_eq_zero_iff_of_discrim_eq_zero (b := b) (c := c) ha (by rw [hd, h0]) x
      rw [mul_assoc a x x, this]
      simp
    · rw [if_neg h0]
      refine ⟨_, rfl, fun x => ?_, by simp, by simp⟩
      have hneg : b * b - 4 * a * c < 0 := lt_of_le_of_ne (not_lt.1 h) h0
      refine ⟨by simp, fun e => ?_⟩
      exfalso
      have e2 : (2 * a * x + b) ^ 2 = b * b - 4 * a * c := by linear_combination 4 * a * e
      have := sq_nonneg (2 * a * x + b)
      linarith

example : roots 1 (-3) 2 = .ok [1, 2] := by
  have h : √((-3 : ℝ) * (-3) - 4 * 1 * 2) = 1 := by norm_num
  unfold roots
  simp only [h]
  norm_num

/-- The roots of a parabola that is a line (`a = 0`) are not found: the formula divides by zero, whereas `simplify` followed by
`root` would find them. -/
theorem C99_violated_flat_parabola (b c : ℝ) : roots 0 b c = .error .zeroDivision := by
  unfold roots
  by_cases hb : b = 0
  · simp [hb]
  · have : 0 < b * b := mul_self_pos.2 hb
    simp [this]

/-- The vertex of a parabola is where it is least or greatest; it is found unless the parabola is a line. -/
theorem C99_vertex (a b c : ℚ) :
    (∀ v, (Fn.quad a b c).argvertex = .ok v → ∀ x y z, (Fn.quad a b c).eval x = some y → (Fn.quad a b c).eval v = some z →
      (0 < a → z ≤ y) ∧ (a < 0 → y ≤ z) ∧ (y = z → x = v)) ∧
    ((∃ v, (Fn.quad a b c).argvertex = .ok v) ↔ a ≠ 0) := by
  by_cases ha : a = 0
  · simp [Fn.argvertex, Fn.differentiate, Fn.simplify, bind, Except.bind, ha, Fn.root]
  · have h2 : (2 : ℚ) * a ≠ 0 := by simpa using ha
    have e : (Fn.quad a b c).argvertex = .ok (-b / (2 * a)) := by
      simp [Fn.argvertex, Fn.differentiate, Fn.simplify, bind, Except.bind, ha, Fn.root]
    refine ⟨?_, by simp [e, ha]⟩
    rintro v hv x y z hy hz
    rw [e] at hv
    obtain rfl := Except.ok.inj hv
    simp only [Fn.eval, Option.some.injEq] at hy hz
    have hd : y - z = a * (x - -b / (2 * a)) ^ 2 := by
      rw [← hy, ← hz]
      field_simp
      ring
    have hsq := sq_nonneg (x - -b / (2 * a))
    refine ⟨fun hp => ?_, fun hp => ?_, fun hyz => ?_⟩
    · nlinarith [mul_nonneg hp.le hsq]
    · nlinarith [mul_nonneg (neg_nonneg.2 hp.le) hsq]
    · rw [hyz, sub_self] at hd
      have := (mul_eq_zero.1 hd.symm).resolve_left ha
      exact sub_eq_zero.1 (pow_eq_zero_iff (two_ne_zero) |>.1 this)

example : (Fn.quad 1 (-4) 5).argvertex = .ok 2 := by decide +kernel

/-- `hmirror` of a line has the opposite value everywhere. -/
theorem C99_hmirror (m c : ℚ) : ∃ g, (Fn.lin m c).hmirror = .ok g ∧ ∀ x, g.eval x = ((Fn.lin m c).eval x).map (- ·) := by
  refine ⟨_, rfl, fun x => ?_⟩
  simp only [Fn.eval, Option.map_some, Option.some.injEq]
  ring

/-- The derivative of a hinge is its slope, on both sides of the knot: from any point `x` other than the knot, the hinge
follows it up to the knot. -/
theorem C99_hinge (k : Knot) {x z : ℚ} (h : x < k.knot ∧ z ≤ k.knot ∨ k.knot < x ∧ k.knot ≤ z) :
    k.hinge z = k.hinge x + k.differentiate.jump x * (z - x) := by
  obtain ⟨n, l, w⟩ := k
  simp only [Knot.hinge, Knot.jump, Knot.differentiate] at *
  cases l
  · rcases h with ⟨h1, h2⟩ | ⟨h1, h2⟩
    · rw [if_neg (by simp), if_neg (by simp), max_eq_left (by linarith), max_eq_left (by linarith)]
      simp [h1]
    · have h3 : ¬ x - n < 0 := by linarith
      simp only [Bool.false_eq_true, if_false, if_neg h3]
      rw [max_eq_right (by linarith), max_eq_right (by linarith), max_eq_right (by norm_num)]
      ring
  · rcases h with ⟨h1, h2⟩ | ⟨h1, h2⟩
    · have h3 : ¬ n - x < 0 := by linarith
      simp only [if_true, if_neg h3]
      rw [max_eq_right (by linarith), max_eq_right (by linarith), max_eq_right (by norm_num)]
      ring
    · simp only [if_true]
      rw [max_eq_left (by linarith), max_eq_left (by linarith)]
      simp [h1]

example : (Knot.mk 1 true 2).hinge 0 = 2 ∧ (Knot.mk 1 true 2).hinge 3 = 0 ∧
    (Knot.mk 1 true 2).differentiate.jump 0 = -2 := by decide +kernel

/-! ## Text -/

/-- The text of a line can be read again and gives the same function.  Partial: constants cannot (`C99_violated_constant`). -/
theorem C99_text_partial {F : NumFmt} (h : F.Ok) (m c : ℚ) :
    ∃ s g, F.text (.lin m c) = .ok s ∧ F.parse s = .ok g ∧ ∀ x, g.eval x = (Fn.lin m c).eval x := by
  by_cases hm : m = 0
  · subst hm
    obtain ⟨s, h1, h2⟩ := h.text_level c
    exact ⟨s, .const c, h1, h2, fun x => by simp [Fn.eval]⟩
  · obtain ⟨s, h1, h2⟩ := h.text_slope hm c
    exact ⟨s, .lin m c, h1, h2, fun x => rfl⟩

example : NumFmt.tally.text (.lin (1 / 2) (-3)) = .ok "abbx - aaab".toList ∧
    NumFmt.tally.parse "abbx - aaab".toList = .ok (.lin (1 / 2) (-3)) := by decide +kernel

example : NumFmt.tally.Ok := NumFmt.tally_ok

/-- A line may be written without a factor, which is then 1, and without an offset, which is then 0. -/
theorem C99_short_text {F : NumFmt} (h : F.Ok) :
    F.parse ['x'] = .ok (.lin 1 0) ∧ (∀ c, 0 < c → F.parse (['x', '+'] ++ F.write c) = .ok (.lin 1 c) ∧
      F.parse (['x', '-'] ++ F.write c) = .ok (.lin 1 (-c))) ∧ ∀ m, m ≠ 0 → F.parse (F.write m ++ ['x']) = .ok (.lin m 0) := by
  refine ⟨?_, ?_, fun m hm => h.parse_line hm (by simp) (by simp)⟩
  · simp [NumFmt.parse, NumFmt.squeeze, bind, Except.bind, pure, Except.pure]
  · intro c hc
    have hx : 'x' ∉ F.write c := h.no_x c
    have hp := h.plus c hc
    have hm := h.minus c hc
    have hq : ∀ ch ∈ F.write c, ch ≠ ' ' := fun ch hc => (h.plain c ch hc).1
    have e1 : (F.write c).takeWhile (fun ch => !decide (ch = 'x')) = F.write c := by
      have := NumFmt.takeWhile_plain hx
      simp only [ne_eq, decide_not] at this
      exact this
    constructor
    · have h1 : NumFmt.squeeze ('+' :: F.write c) = '+' :: F.write c :=
        NumFmt.squeeze_id (by simpa using hq)
      have h0 : NumFmt.squeeze [] = [] := rfl
      simp only [NumFmt.parse, List.cons_append, List.nil_append]
      rw [if_neg (by simp)]
      simp [e1, h1, h0, hp, bind, Except.bind, pure, Except.pure]
    · have h1 : NumFmt.squeeze ('-' :: F.write c) = '-' :: F.write c :=
        NumFmt.squeeze_id (by simpa using hq)
      have h0 : NumFmt.squeeze [] = [] := rfl
      simp only [NumFmt.parse, List.cons_append, List.nil_append]
      rw [if_neg (by simp)]
      simp [e1, h1, h0, hm, bind, Except.bind, pure, Except.pure]

example : NumFmt.tally.parse "x-aaab".toList = .ok (.lin 1 (-3)) := by decide +kernel

/-- The text of a constant (`5.0 = const.`) cannot be read: `float` fails. -/
theorem C99_violated_constant {F : NumFmt} (h : F.Ok) (v : ℚ) :
    ∃ s, F.text (.const v) = .ok s ∧ F.parse s = .error .valueError := by
  refine ⟨_, rfl, ?_⟩
  exact h.parse_junk v

end Verif.Fun
