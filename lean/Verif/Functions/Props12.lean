import Verif.Functions.Ensure
import Verif.Functions.Spec
import Verif.Functions.Lemmas2
import Mathlib.Tactic.Linarith
import Mathlib.Tactic.FieldSimp
import Mathlib.Tactic.Ring

/-!
# C128: `ensure_left` and `ensure_right`
-/

namespace Verif.Fun.PF

open Iv Iv.FP

/-! ## Specification -/

/-- Constant and linear functions. -/
def Straight (f : Fn) : Prop := (∃ v, f = .const v) ∨ ∃ m c, f = .lin m c

/-- The same value everywhere. -/
def SameValues (f g : Fn) : Prop := ∀ x, f.eval x = g.eval x

/-- `f` and `g` have one common point, the one at `q`. -/
def CrossAt (f g : Fn) (q : ℚ) : Prop := ∀ x, f.eval x = g.eval x ↔ x = q

/-! ## Lemmas -/

theorem intersection_straight {f g : Fn} (hf : Straight f) (hg : Straight g) :
    (f.intersection g = .ok .all ∧ SameValues f g) ∨ (f.intersection g = .ok .no ∧ ∀ x, f.eval x ≠ g.eval x) ∨
      ∃ q, f.intersection g = .ok (.one q) ∧ CrossAt f g q := by
  have key : ∀ m c m' c' : ℚ, m ≠ m' → ∀ x, m * x + c = m' * x + c' ↔ x = (c - c') / (m' - m) := by
    intro m c m' c' h x
    have h' : m' - m ≠ 0 := fun h0 => h (by linarith)
    rw [eq_div_iff h']
    constructor <;> intro e <;> linarith
  rcases hf with ⟨v, rfl⟩ | ⟨m, c, rfl⟩ <;> rcases hg with ⟨w, rfl⟩ | ⟨m', c', rfl⟩
  · by_cases h : v = w
    · left; simp [Fn.intersection, SameValues, Fn.eval, h]
    · right; left; simp [Fn.intersection, Fn.eval, h]
  · by_cases hm : m' = 0
    · by_cases h : c' = v
      · left; simp [Fn.intersection, SameValues, Fn.eval, h, hm]
      · right; left; simp [Fn.intersection, Fn.eval, h, hm, Ne.symm h]
    · right; right
      refine ⟨(c' - v) / -m', by simp only [Fn.intersection, if_neg hm], ?_⟩
      intro x
      have := key m' c' 0 v hm x
      simp only [Fn.eval, Option.some.injEq]
      rw [zero_mul, zero_add, zero_sub] at this
      rw [← this]
      exact eq_comm
  · by_cases hm : m = 0
    · by_cases h : c = w
      · left; simp [Fn.intersection, SameValues, Fn.eval, h, hm]
      · right; left; simp [Fn.intersection, Fn.eval, h, hm]
    · right; right
      refine ⟨(c - w) / -m, by simp only [Fn.intersection, if_neg hm], ?_⟩
      intro x
      have := key m c 0 w hm x
      simp only [Fn.eval, Option.some.injEq]
      rw [zero_mul, zero_add, zero_sub] at this
      exact this
  · by_cases hm : m = m'
    · by_cases h : c = c'
      · left; simp [Fn.intersection, SameValues, Fn.eval, h, hm]
      · right; left; simp [Fn.intersection, Fn.eval, h, hm]
    · right; right
      refine ⟨(c - c') / (m' - m), by simp only [Fn.intersection, if_neg hm], ?_⟩
      intro x
      simp only [Fn.eval, Option.some.injEq]
      exact key m c m' c' hm x

theorem atPos_cons_pos {s : CS × Fn} {r : PF} {n : ℤ} (h : s.1.Mem (fin n)) : atPos (s :: r) (fin n) = some s.2 := by
  have : hit (fin n) s.1 = true := by rw [hit_fin, CS.containsValue_iff]; exact h
  simp [atPos, this]

theorem atPos_cons_neg {s : CS × Fn} {r : PF} {n : ℤ} (h : ¬ s.1.Mem (fin n)) : atPos (s :: r) (fin n) = atPos r (fin n) := by
  have : hit (fin n) s.1 = false := by
    rw [← Bool.not_eq_true, hit_fin, CS.containsValue_iff]; exact h
  simp [atPos, this]

theorem atPos_append_neg {q r : PF} {n : ℤ} (h : ∀ s ∈ q, ¬ s.1.Mem (fin n)) : atPos (q ++ r) (fin n) = atPos r (fin n) := by
  induction q with
  | nil => rfl
  | cons s q ih =>
    rw [List.cons_append, atPos_cons_neg (h s List.mem_cons_self), ih (fun s hs => h s (List.mem_cons_of_mem _ hs))]

theorem atPos_append_congr {q r r' : PF} {n : ℤ} (h : atPos r (fin n) = atPos r' (fin n)) :
    atPos (q ++ r) (fin n) = atPos (q ++ r') (fin n) := by
  induction q with
  | nil => exact h
  | cons s q ih =>
    by_cases hs : s.1.Mem (fin n)
    · rw [List.cons_append, List.cons_append, atPos_cons_pos hs, atPos_cons_pos hs]
    · rw [List.cons_append, List.cons_append, atPos_cons_neg hs, atPos_cons_neg hs, ih]

theorem eval_of_atPos {val : ℤ → ℚ} {p : PF} {n : ℤ} {f : Fn} (h : atPos p (fin n) = some f) : eval val p n = .ok (f.eval (val n)) := by
  simp [eval, h]

theorem eval_congr_at {val : ℤ → ℚ} {p p' : PF} {n : ℤ} (h : atPos p (fin n) = atPos p' (fin n)) : eval val p n = eval val p' n := by
  simp [eval, h]

/-- A piece that may be removed if it is empty. -/
theorem atPos_keep {i : CS} {f : Fn} {r : PF} {n : ℤ} (del : Bool) :
    atPos (if del && i.isempty then r else (i, f) :: r) (fin n) = atPos ((i, f) :: r) (fin n) := by
  split_ifs with h
  · rw [atPos_cons_neg]
    intro hm
    have := CS.isempty_false_of_mem hm
    simp [this] at h
  · rfl

theorem prependAt_spec {i : CS} {f left : Fn} {r : PF} {b : ℤ} {del : Bool} (hi : i.lower = ninf) (n : ℤ) :
    (n < b → atPos (prependAt i f r left (fin b) del) (fin n) = some left) ∧
    (b ≤ n → atPos (prependAt i f r left (fin b) del) (fin n) = atPos ((i, f) :: r) (fin n)) := by
  have h1 : ninf < fin n := by simp [lt_def, leb]
  have h2 : fin n < fin b ↔ n < b := by simp [lt_def, leb]
  constructor
  · intro h
    refine atPos_cons_pos ?_
    simp only [CS.Mem]
    exact ⟨Or.inl h1, Or.inl (h2.2 h)⟩
  · intro h
    have hb : fin b < fin n ∨ fin b = fin n := by
      rcases lt_or_eq_of_le h with h | h
      · left; simpa [lt_def, leb] using h
      · right; rw [h]
    rw [prependAt, atPos_cons_neg (by simp only [CS.Mem]; grind), atPos_keep]
    have : CS.Mem { i with lower := fin b, left := .inc } (fin n) ↔ i.Mem (fin n) := by
      simp only [CS.Mem, hi]; grind
    by_cases hm : i.Mem (fin n)
    · rw [atPos_cons_pos (this.2 hm), atPos_cons_pos hm]
    · rw [atPos_cons_neg (fun h' => hm (this.1 h')), atPos_cons_neg hm]

theorem extendAt_spec {i : CS} {f right : Fn} {q : PF} {b : ℤ} {del : Bool} (hi : i.upper = pinf) (hr : i.right = .exc)
    (hl : i.left = .inc ∨ i.lower = ninf) (hb : i.lower ≤ fin b) (hq : ∀ s ∈ q, ∀ n, s.1.Mem (fin n) → fin n < i.lower) (n : ℤ) :
    (b ≤ n → atPos (extendAt q i f right (fin b) del) (fin n) = some right) ∧
    (n < b → atPos (extendAt q i f right (fin b) del) (fin n) = atPos (q ++ [(i, f)]) (fin n)) := by
  have e : extendAt q i f right (fin b) del = q ++ (if del && CS.isempty { i with upper := fin b, left := .inc } then
      [(⟨fin b, pinf, .inc, .exc⟩, right)]
      else ({ i with upper := fin b, left := .inc }, f) :: [(⟨fin b, pinf, .inc, .exc⟩, right)]) := by
    simp only [extendAt]
    split_ifs <;> simp
  have h1 : ninf < fin n := by simp [lt_def, leb]
  have h2 : fin n < fin b ↔ n < b := by simp [lt_def, leb]
  have h3 : fin n < pinf := by simp [lt_def, leb]
  rw [e]
  constructor
  · intro h
    have hb' : fin b ≤ fin n := by simpa [le_def, leb] using h
    rw [atPos_append_neg, atPos_keep, atPos_cons_neg, atPos_cons_pos]
    · simp only [CS.Mem]
      exact ⟨(lt_or_eq_of_le hb').imp_right (fun h => ⟨h, trivial⟩), Or.inl h3⟩
    · simp only [CS.Mem, hr]
      grind
    · intro s hs hm
      have := hq s hs n hm
      exact absurd (lt_of_lt_of_le this hb) (not_lt.2 hb')
  · intro h
    apply atPos_append_congr
    rw [atPos_keep]
    have : CS.Mem { i with upper := fin b, left := .inc } (fin n) ↔ i.Mem (fin n) := by
      simp only [CS.Mem, hi]; grind
    by_cases hm : i.Mem (fin n)
    · rw [atPos_cons_pos (this.2 hm), atPos_cons_pos hm]
    · rw [atPos_cons_neg (fun h' => hm (this.1 h')), atPos_cons_neg (s := (i, f)) hm, atPos_cons_neg]
      simp only [CS.Mem]
      grind

/-! ## Theorems -/

/-- C128 for `ensure_left`, if the first piece reaches down to `-∞` and does not have the values of `g` already: below `x` the
function has the values of `g`; it changes at `x`, or at a later point where both functions cross, and from there on the function
is what it was.  Missing: first pieces with the values of `g` (`C128_left_same_partial`). -/
theorem C128_left_partial (val : ℤ → ℚ) (rnd : ℚ → ℤ) (i : CS) (f g : Fn) (r : PF) (x : ℤ) (hi : i.lower = ninf)
    (hf : Straight f) (hg : Straight g) (hne : ¬ SameValues f g) :
    ∃ p' cut, ensureLeft rnd ((i, f) :: r) g x = .ok p' ∧ x ≤ cut ∧ (cut ≠ x → ∃ q, CrossAt f g q ∧ cut = rnd q) ∧
      (∀ n < cut, eval val p' n = .ok (g.eval (val n))) ∧ ∀ n, cut ≤ n → eval val p' n = eval val ((i, f) :: r) n := by
  have done : ∀ (b : ℤ) (del : Bool), (∀ n < b, eval val (prependAt i f r g (fin b) del) n = .ok (g.eval (val n))) ∧
      ∀ n, b ≤ n → eval val (prependAt i f r g (fin b) del) n = eval val ((i, f) :: r) n := fun b del =>
    ⟨fun n h => eval_of_atPos ((prependAt_spec hi n).1 h), fun n h => eval_congr_at ((prependAt_spec hi n).2 h)⟩
  rcases intersection_straight hf hg with ⟨h, hs⟩ | ⟨h, -⟩ | ⟨q, h, hq⟩
  · exact absurd hs hne
  · exact ⟨_, x, by simp only [ensureLeft, h], le_rfl, fun h => absurd rfl h, done x true⟩
  · by_cases hc : fin (rnd q) < i.upper ∧ rnd q ≥ x
    · exact ⟨_, rnd q, by simp only [ensureLeft, h, if_pos hc], hc.2, fun _ => ⟨q, hq, rfl⟩, done (rnd q) false⟩
    · exact ⟨_, x, by simp only [ensureLeft, h, if_neg hc], le_rfl, fun h => absurd rfl h, done x true⟩

/-- C128 for `ensure_left`, if the first piece has the values of `g` already: the function stays as it is, and has the values of `g`
on the first piece.  Missing: numbers below `x` which are not in the first piece; there this is false. -/
theorem C128_left_same_partial (val : ℤ → ℚ) (rnd : ℚ → ℤ) (i : CS) (f g : Fn) (r : PF) (x : ℤ)
    (hf : Straight f) (hg : Straight g) (he : SameValues f g) :
    ensureLeft rnd ((i, f) :: r) g x = .ok ((i, f) :: r) ∧
      ∀ n, i.Mem (fin n) → eval val ((i, f) :: r) n = .ok (g.eval (val n)) := by
  refine ⟨?_, fun n hn => by rw [eval_of_atPos (atPos_cons_pos hn), he]⟩
  rcases intersection_straight hf hg with ⟨h, hs⟩ | ⟨h, h'⟩ | ⟨q, h, hq⟩
  · simp only [ensureLeft, h]
  · exact absurd (he 0) (h' 0)
  · have := (hq (q + 1)).1 (he _)
    linarith

/-- C128 for `ensure_right`, if the last piece reaches up to `+∞`, does not have the values of `g` already, and begins at `x` or
below: from `x` on the function has the values of `g`; it changes at `x`, or at an earlier point where both functions cross, and
below this point the function is what it was.  Missing: bounds `x` below the last piece; there this is false. -/
theorem C128_right_partial (val : ℤ → ℚ) (rnd : ℚ → ℤ) (q : PF) (i : CS) (f g : Fn) (x : ℤ) (hi : i.HalfOpen)
    (hu : i.upper = pinf) (hx : i.lower ≤ fin x) (hq : ∀ s ∈ q, ∀ n, s.1.Mem (fin n) → fin n < i.lower)
    (hf : Straight f) (hg : Straight g) (hne : ¬ SameValues f g) :
    ∃ p' cut, ensureRight rnd (q ++ [(i, f)]) g x = .ok p' ∧ cut ≤ x ∧ (cut ≠ x → ∃ z, CrossAt f g z ∧ cut = rnd z) ∧
      (∀ n, cut ≤ n → eval val p' n = .ok (g.eval (val n))) ∧ ∀ n < cut, eval val p' n = eval val (q ++ [(i, f)]) n := by
  have hr : i.right = .exc := by unfold CS.HalfOpen at hi; grind
  have hl : i.left = .inc ∨ i.lower = ninf := by unfold CS.HalfOpen at hi; grind
  have done : ∀ (b : ℤ) (del : Bool), i.lower ≤ fin b →
      (∀ n, b ≤ n → eval val (extendAt q i f g (fin b) del) n = .ok (g.eval (val n))) ∧
      ∀ n < b, eval val (extendAt q i f g (fin b) del) n = eval val (q ++ [(i, f)]) n := fun b del hb =>
    ⟨fun n h => eval_of_atPos ((extendAt_spec hu hr hl hb hq n).1 h), fun n h => eval_congr_at ((extendAt_spec hu hr hl hb hq n).2 h)⟩
  rcases intersection_straight hf hg with ⟨h, hs⟩ | ⟨h, -⟩ | ⟨z, h, hz⟩
  · exact absurd hs hne
  · exact ⟨_, x, by simp [ensureRight, h], le_rfl, fun h => absurd rfl h, done x true hx⟩
  · by_cases hc : fin (rnd z) > i.lower ∧ rnd z ≤ x
    · exact ⟨extendAt q i f g (fin (rnd z)) false, rnd z, by simp only [ensureRight, List.getLast?_append, List.getLast?_singleton,
        Option.some_or, List.dropLast_concat, h, if_pos hc],
        hc.2, fun _ => ⟨z, hz, rfl⟩, done (rnd z) false (le_of_lt hc.1)⟩
    · exact ⟨extendAt q i f g (fin x) true, x, by simp only [ensureRight, List.getLast?_append, List.getLast?_singleton,
        Option.some_or, List.dropLast_concat, h, if_neg hc], le_rfl, fun h => absurd rfl h, done x true hx⟩

/-- C128: both methods succeed exactly if there is a piece and both functions are constant or linear. -/
theorem C128_succeeds (rnd : ℚ → ℤ) (q : PF) (i : CS) (f g : Fn) (x : ℤ) :
    ((∃ p', ensureLeft rnd ((i, f) :: q) g x = .ok p') ↔ Straight f ∧ Straight g) ∧
    ((∃ p', ensureRight rnd (q ++ [(i, f)]) g x = .ok p') ↔ Straight f ∧ Straight g) ∧
    ensureLeft rnd [] g x = .error .indexError ∧ ensureRight rnd [] g x = .error .indexError := by
  have hfail : ¬ (Straight f ∧ Straight g) → ∃ e, f.intersection g = .error e := by
    intro h
    cases f <;> cases g <;> simp [Straight, Fn.intersection] at h ⊢
  refine ⟨⟨?_, ?_⟩, ⟨?_, ?_⟩, rfl, rfl⟩
  · rintro ⟨p', hp⟩
    by_contra hc
    obtain ⟨e, he⟩ := hfail hc
    simp [ensureLeft, he] at hp
  · rintro ⟨hf, hg⟩
    rcases intersection_straight hf hg with ⟨h, -⟩ | ⟨h, -⟩ | ⟨z, h, -⟩ <;> simp only [ensureLeft, h]
    · exact ⟨_, rfl⟩
    · exact ⟨_, rfl⟩
    · split_ifs <;> exact ⟨_, rfl⟩
  · rintro ⟨p', hp⟩
    by_contra hc
    obtain ⟨e, he⟩ := hfail hc
    simp [ensureRight, he] at hp
  · rintro ⟨hf, hg⟩
    rcases intersection_straight hf hg with ⟨h, -⟩ | ⟨h, -⟩ | ⟨z, h, -⟩ <;> simp only [ensureRight, List.getLast?_append,
      List.getLast?_singleton, Option.some_or, h]
    · exact ⟨_, rfl⟩
    · exact ⟨_, rfl⟩
    · split_ifs <;> exact ⟨_, rfl⟩

/-- A ramp from 0 to 1 between 0 and 10. -/
def ramp : PF := [(⟨ninf, fin 0, .exc, .exc⟩, .const 0), (⟨fin 0, fin 10, .inc, .exc⟩, .lin (1 / 10) 0),
  (⟨fin 10, pinf, .inc, .exc⟩, .const 1)]

example : ∃ p', ensureLeft (fun q => ⌊q⌋) ramp (.const 2) (-3) = .ok p' ∧ eval (fun n => n) p' (-4) = .ok (some 2) ∧
    eval (fun n => n) p' (-3) = .ok (some 0) ∧ eval (fun n => n) p' 5 = .ok (some (1 / 2)) :=
  ⟨_, rfl, by decide +kernel, by decide +kernel, by decide +kernel⟩

example : ensureRight (fun q => ⌊q⌋) [(⟨ninf, fin 0, .exc, .exc⟩, .const 0), (⟨fin 0, pinf, .inc, .exc⟩, .lin (1 / 10) 0)] (.const 2) 25 =
    .ok [(⟨ninf, fin 0, .exc, .exc⟩, .const 0), (⟨fin 0, fin 20, .inc, .exc⟩, .lin (1 / 10) 0), (⟨fin 20, pinf, .inc, .exc⟩, .const 2)] := by
  decide +kernel

/-- Disagreement: if `x` is below the last piece, `ensure_right(g, x)` does not give the function the values of `g` from `x` on: after
`ensure_right(ConstantFunction(2), 5)` the ramp from 0 to 1 still has the value 7/10 at 7. -/
theorem C128_violated_right : ∃ p', ensureRight (fun q => ⌊q⌋) ramp (.const 2) 5 = .ok p' ∧
    eval (fun n => n) p' 7 = .ok (some (7 / 10)) :=
  ⟨_, rfl, by decide +kernel⟩

/-- Disagreement: if the first piece has the values of `g` already, `ensure_left(g, x)` does nothing, although other pieces may begin
below `x`: after `ensure_left(ConstantFunction(0), 5)` the ramp from 0 to 1 has the value 3/10 at 3. -/
theorem C128_violated_left : ∃ p', ensureLeft (fun q => ⌊q⌋) ramp (.const 0) 5 = .ok p' ∧
    eval (fun n => n) p' 3 = .ok (some (3 / 10)) :=
  ⟨_, rfl, by decide +kernel⟩

/-- Disagreement: `ensure_right` closes the last piece at its lower bound, even if this was open: a function that is 0 on `(0, ∞)` and
undefined at 0 has the value 0 at 0 after `ensure_right(ConstantFunction(1), 3)`, and the interval of the zero function becomes
`[-∞, 3)`. -/
theorem C128_violated_closed :
    eval (fun n => n) [(⟨fin 0, pinf, .exc, .exc⟩, .const 0)] 0 = .error .attributeError ∧
    (∃ p', ensureRight (fun q => ⌊q⌋) [(⟨fin 0, pinf, .exc, .exc⟩, .const 0)] (.const 1) 3 = .ok p' ∧
      eval (fun n => n) p' 0 = .ok (some 0)) ∧
    ensureRight (fun q => ⌊q⌋) [(CS.allnumbers, .const 0)] (.const 1) 3 =
      .ok [(⟨ninf, fin 3, .inc, .exc⟩, .const 0), (⟨fin 3, pinf, .inc, .exc⟩, .const 1)] :=
  ⟨by decide +kernel, ⟨_, rfl, by decide +kernel⟩, by decide +kernel⟩

end Verif.Fun.PF
