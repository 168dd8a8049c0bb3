import Verif.Functions.Props
import Verif.Functions.Lemmas8

/-!
# Sums, differences and products of two piecewise functions (C14)
-/

namespace Verif.Fun

open Iv Iv.FP

/-- What the value of `p op q` at a point should be, given the values (or failures) of `p` and `q`:
the operation where both are defined, NaN where only one of them is, and no value where none is. -/
def bothOp (op : ℚ → ℚ → ℚ) : Except Err (Option ℚ) → Except Err (Option ℚ) → Except Err (Option ℚ)
  | .ok v, .ok w => .ok (nanOp op v w)
  | .error e, .error _ => .error e
  | _, _ => .ok none

/-- `mid a b` lies in `[a, b)` for the bounds of the pieces.  In the code it is `(a + b) * .5`, which
rounds to `b` for some neighbouring floats. -/
def MidOk (mid : ℤ → ℤ → ℤ) (p q : PF) : Prop :=
  ∀ s ∈ p ++ q, ∀ t ∈ p ++ q, ∀ a b : ℤ, s.1.lower = fin a → t.1.upper = fin b → a < b →
    a ≤ mid a b ∧ mid a b < b

theorem midOk_selects {mid : ℤ → ℤ → ℤ} {p q : PF} (hmid : MidOk mid p q) :
    ∀ s ∈ p, ∀ t ∈ q, ∀ d : CS, d.HalfOpen → d.lower = max s.1.lower t.1.lower →
      d.upper = min s.1.upper t.1.upper → PF.Selects d (PF.middle mid d) := by
  intro s hs t ht d hd h1 h2
  refine PF.middle_selects hd (fun a b ha hb => ?_)
  have hlt := hd.1
  rw [ha, hb, PF.fin_lt] at hlt
  have h3 : ∃ s' ∈ p ++ q, s'.1.lower = fin a := by
    rw [ha] at h1
    rcases max_choice s.1.lower t.1.lower with e | e
    · exact ⟨s, by simp [hs], by rw [← e, ← h1]⟩
    · exact ⟨t, by simp [ht], by rw [← e, ← h1]⟩
  have h4 : ∃ s' ∈ p ++ q, s'.1.upper = fin b := by
    rw [hb] at h2
    rcases min_choice s.1.upper t.1.upper with e | e
    · exact ⟨s, by simp [hs], by rw [← e, ← h2]⟩
    · exact ⟨t, by simp [ht], by rw [← e, ← h2]⟩
  obtain ⟨s', hs', e1⟩ := h3
  obtain ⟨t', ht', e2⟩ := h4
  exact hmid s' hs' t' ht' a b e1 e2 hlt

theorem bothOp_of_value {val : ℤ → ℚ} {op : ℚ → ℚ → ℚ} {fop : Fn → Fn → Except Err Fn} {p q r : PF}
    (dp : p.Disj) (dq : q.Disj) (dr : r.Disj)
    (hop : ∀ f g h : Fn, fop f g = .ok h → ∀ x, h.eval x = nanOp op (f.eval x) (g.eval x)) {n : ℤ}
    (hall : ∀ s ∈ p, ∀ t ∈ q, s.1.Mem (fin n) → t.1.Mem (fin n) → ∃ f, fop s.2 t.2 = .ok f)
    (h : ∀ v, PF.Value val r n v ↔
      (∃ s ∈ p, ∃ t ∈ q, s.1.Mem (fin n) ∧ t.1.Mem (fin n) ∧ ∃ f, fop s.2 t.2 = .ok f ∧ f.eval (val n) = v) ∨
      (v = none ∧ (p.Covers n ∧ ¬ q.Covers n ∨ q.Covers n ∧ ¬ p.Covers n))) :
    r.eval val n = bothOp op (p.eval val n) (q.eval val n) := by
  cases hp : p.eval val n with
  | ok v =>
    obtain ⟨s, hs, hsn, hv⟩ := (PF.eval_ok_iff dp).1 hp
    cases hq : q.eval val n with
    | ok w =>
      obtain ⟨t, ht, htn, hw⟩ := (PF.eval_ok_iff dq).1 hq
      obtain ⟨f, hf⟩ := hall s hs t ht hsn htn
      rw [bothOp, PF.eval_ok_iff dr, h]
      exact .inl ⟨s, hs, t, ht, hsn, htn, f, hf, by rw [hop _ _ _ hf, hv, hw]⟩
    | error e =>
      rw [bothOp, PF.eval_ok_iff dr, h]
      · exact .inr ⟨rfl, .inl ⟨⟨s, hs, hsn⟩, (PF.eval_error_iff.1 hq).2⟩⟩
      all_goals simp
  | error e =>
    obtain ⟨rfl, hpn⟩ := PF.eval_error_iff.1 hp
    cases hq : q.eval val n with
    | ok w =>
      obtain ⟨t, ht, htn, hw⟩ := (PF.eval_ok_iff dq).1 hq
      rw [bothOp, PF.eval_ok_iff dr, h]
      · exact .inr ⟨rfl, .inr ⟨⟨t, ht, htn⟩, hpn⟩⟩
      all_goals simp
    | error e =>
      obtain ⟨rfl, hqn⟩ := PF.eval_error_iff.1 hq
      rw [bothOp, PF.eval_error_iff]
      refine ⟨rfl, ?_⟩
      rintro ⟨s, hs, hsn⟩
      rcases (h _).1 ⟨s, hs, hsn, rfl⟩ with ⟨s', hs', _, _, h', _⟩ | ⟨-, h' | h'⟩
      · exact hpn ⟨s', hs', h'⟩
      · exact hpn h'.1
      · exact hqn h'.1

/-- The pieces of a sum or product are disjoint and its values are those of `bothOp`. -/
theorem pointwise_eval {val : ℤ → ℚ} {op : ℚ → ℚ → ℚ} {fop : Fn → Fn → Except Err Fn} {pv : CS → FP}
    {und : List CS → List CS} {p q r : PF}
    (hund : ∀ l, und l = l ∨ (und l = [] ∧ ∀ c ∈ l, c.isempty = true))
    (hp : ∀ s ∈ p, PF.Norm s.1) (hq : ∀ s ∈ q, PF.Norm s.1) (dp : p.Disj) (dq : q.Disj)
    (np : p ≠ []) (nq : q ≠ [])
    (hpv : ∀ s ∈ p, ∀ t ∈ q, ∀ d : CS, d.HalfOpen → d.lower = max s.1.lower t.1.lower →
      d.upper = min s.1.upper t.1.upper → PF.Selects d (pv d))
    (hop : ∀ f g h : Fn, fop f g = .ok h → ∀ x, h.eval x = nanOp op (f.eval x) (g.eval x))
    (h : PF.pointwise fop pv und p q = .ok r) (n : ℤ) :
    r.eval val n = bothOp op (p.eval val n) (q.eval val n) ∧ r.Disj ∧ (∀ s ∈ r, PF.Ne s.1) := by
  obtain ⟨h1, h2, h3, h4⟩ := PF.pointwise_spec hund hp hq dp dq np nq hpv h
  exact ⟨bothOp_of_value dp dq (PF.sorted_disj h1) hop (fun s hs t ht => h3 s hs t ht n) (h4 val n),
    PF.sorted_disj h1, h2⟩

theorem simplify_eval {val : ℤ → ℚ} {p r : PF} (hp : ∀ s ∈ p, PF.Ne s.1) (hd : p.Disj)
    (e : p.simplify = .ok r) (n : ℤ) : r.eval val n = p.eval val n := by
  obtain ⟨hv, -, hs⟩ := PF.simplify_spec (val := val) hp e
  rw [eval_of_value (G := id) hd (PF.sorted_disj hs) (fun w => by rw [hv]; simp)]
  cases p.eval val n <;> rfl

/-- **C14 (sum of two piecewise functions).** If `p + q` returns, its value is the sum of the values
where both are defined, NaN where only one of them is, and there is none where neither is. -/
theorem C14_plus_piecewise {val : ℤ → ℚ} {mid : ℤ → ℤ → ℤ} {p q r : PF} (hp : ∀ s ∈ p, PF.Norm s.1)
    (hq : ∀ s ∈ q, PF.Norm s.1) (dp : p.Disj) (dq : q.Disj) (np : p ≠ []) (nq : q ≠ [])
    (hmid : MidOk mid p q) (e : p.plus mid q = .ok r) (n : ℤ) :
    r.eval val n = bothOp (· + ·) (p.eval val n) (q.eval val n) := by
  simp only [PF.plus, PF.add, bind, Except.bind] at e
  cases h : PF.pointwise Fn.plus (PF.middle mid) id p q with
  | error er => simp [h] at e
  | ok r1 =>
    simp only [h] at e
    obtain ⟨h1, h2, h3⟩ := pointwise_eval (val := val) (fun l => .inl rfl) hp hq dp dq np nq
      (midOk_selects hmid) (fun f g h e x => Fn.plus_eval e x) h n
    rw [simplify_eval h3 h2 e, h1]

/-- **C14 (difference of two piecewise functions).** -/
theorem C14_minus_piecewise {val : ℤ → ℚ} {mid : ℤ → ℤ → ℤ} {p q r : PF} (hp : ∀ s ∈ p, PF.Norm s.1)
    (hq : ∀ s ∈ q, PF.Norm s.1) (dp : p.Disj) (dq : q.Disj) (np : p ≠ []) (nq : q ≠ [])
    (hmid : MidOk mid p q) (e : p.sub mid q = .ok r) (n : ℤ) :
    r.eval val n = bothOp (· - ·) (p.eval val n) (q.eval val n) := by
  simp only [PF.sub, PF.add, bind, Except.bind] at e
  cases hm : q.mulFn (.const (-1)) with
  | error er => simp [hm] at e
  | ok q1 =>
    simp only [hm] at e
    have hm' := PF.mulFn_eq hm
    have hf := PF.mapM_fn (F := fun g => g.times (.const (-1))) hm'
    have hq1 : ∀ s ∈ q1, PF.Norm s.1 := PF.mapM_fn_all (F := fun g => g.times (.const (-1))) hm' hq
    have dq1 : q1.Disj := PF.mapM_fn_disj (F := fun g => g.times (.const (-1))) hm' dq
    have nq1 : q1 ≠ [] := by
      rintro rfl
      cases hf; exact nq rfl
    have hmid1 : MidOk mid p q1 := by
      have aux : ∀ s ∈ p ++ q1, ∃ t ∈ p ++ q, s.1 = t.1 := by
        intro s hs
        rcases List.mem_append.1 hs with hs | hs
        · exact ⟨s, by simp [hs], rfl⟩
        · obtain ⟨t, ht, h⟩ := forall₂_mem_right hf hs
          exact ⟨t, by simp [ht], h.1⟩
      intro s hs t ht a b ha hb
      obtain ⟨s', hs', e1⟩ := aux s hs
      obtain ⟨t', ht', e2⟩ := aux t ht
      exact hmid s' hs' t' ht' a b (e1 ▸ ha) (e2 ▸ hb)
    obtain ⟨h1, -, -⟩ := pointwise_eval (val := val) (fun l => .inl rfl) hp hq1 dp dq1 np nq1
      (midOk_selects hmid1) (fun f g h e x => Fn.plus_eval e x) e n
    have hq2 : q1.eval val n = (q.eval val n).map (Option.map (fun x => -x)) := by
      refine eval_of_value dq dq1 (fun w => ?_)
      refine mapM_fn_eval (F := fun g => g.times (.const (-1))) hm' (G := Option.map (fun x => -x))
        (fun f g h => ?_) w
      rw [Fn.times_eval h]
      cases f.eval (val n) <;> simp [nanOp, Fn.eval]
    rw [h1, hq2]
    cases p.eval val n <;> cases q.eval val n <;> simp only [Except.map, bothOp]
    rename_i a b
    cases a <;> cases b <;> simp [nanOp, sub_eq_add_neg]

/-- **C14 (product of two piecewise functions).** No assumption on the position at which the pieces are
looked up is needed: the lowest or highest float of the common interval always lies in it. -/
theorem C14_times_piecewise {val : ℤ → ℚ} {p q r : PF} (hp : ∀ s ∈ p, PF.Norm s.1)
    (hq : ∀ s ∈ q, PF.Norm s.1) (dp : p.Disj) (dq : q.Disj) (np : p ≠ []) (nq : q ≠ [])
    (e : p.times q = .ok r) (n : ℤ) :
    r.eval val n = bothOp (· * ·) (p.eval val n) (q.eval val n) := by
  simp only [PF.times, PF.mul, bind, Except.bind] at e
  cases h : PF.pointwise Fn.times PF.pivot (fun l => if RS.isempty l then [] else l) p q with
  | error er => simp [h] at e
  | ok r1 =>
    simp only [h] at e
    obtain ⟨h1, h2, h3⟩ := pointwise_eval (val := val) (fun l => by
        by_cases hl : RS.isempty l = true
        · exact .inr ⟨by simp [hl], by simpa [RS.isempty] using hl⟩
        · exact .inl (by simp [hl])) hp hq dp dq np nq
      (fun s _ t _ d hd _ _ => PF.pivot_selects hd) (fun f g h e x => Fn.times_eval e x) h n
    rw [simplify_eval h3 h2 e, h1]

/-- **C14 (when sums and products exist).** For constant and linear pieces and two functions that are
defined at the same points, `p + q` and `p * q` return. -/
theorem C14_piecewise_return {mid : ℤ → ℤ → ℤ} {p q : PF} (hp : ∀ s ∈ p, PF.Norm s.1)
    (hq : ∀ s ∈ q, PF.Norm s.1) (dp : p.Disj) (dq : q.Disj) (np : p ≠ [])
    (hpf : ∀ s ∈ p, ∃ m c, s.2 = .lin m c ∨ s.2 = .const c)
    (hqf : ∀ s ∈ q, ∃ m c, s.2 = .lin m c ∨ s.2 = .const c)
    (hcov : ∀ n, p.Covers n ↔ q.Covers n) (hmid : MidOk mid p q) :
    (∃ r, p.plus mid q = .ok r) ∧ (∃ r, p.times q = .ok r) := by
  constructor
  · obtain ⟨r, h1, r', h2⟩ := PF.pointwise_ok (op := Fn.plus) (und := id) (fun l => .inl rfl) hp hq dp dq np
      hcov (midOk_selects hmid) (fun s hs t ht => by
        obtain ⟨m, c, hs' | hs'⟩ := hpf s hs <;> obtain ⟨m', c', ht' | ht'⟩ := hqf t ht <;>
          rw [hs', ht'] <;> simp [Fn.plus, Fn.add, Except.map, Fn.simplify] <;> split <;> simp)
    exact ⟨r', by simp only [PF.plus, PF.add, bind, Except.bind, h1, h2]⟩
  · obtain ⟨r, h1, r', h2⟩ := PF.pointwise_ok (op := Fn.times)
      (und := fun l => if RS.isempty l then [] else l) (fun l => by
        by_cases hl : RS.isempty l = true
        · exact .inr ⟨by simp [hl], by simpa [RS.isempty] using hl⟩
        · exact .inl (by simp [hl])) hp hq dp dq np
      hcov (fun s _ t _ d hd _ _ => PF.pivot_selects hd) (fun s hs t ht => by
        obtain ⟨m, c, hs' | hs'⟩ := hpf s hs <;> obtain ⟨m', c', ht' | ht'⟩ := hqf t ht <;>
          rw [hs', ht'] <;> simp [Fn.times, Fn.mul, Except.map, Fn.simplify] <;> grind)
    exact ⟨r', by simp only [PF.times, PF.mul, bind, Except.bind, h1, h2]⟩

/-! ### The hypotheses can be met -/

/-- For the examples: the middle, rounded down. -/
def imid (a b : ℤ) : ℤ := (a + b) / 2

theorem imid_ok (p q : PF) : MidOk imid p q := by
  intro s _ t _ a b _ _ h
  simp only [imid]; omega

/-- `1` on `(-inf, 5)`, `x` on `[5, inf)`. -/
def bend : PF := [(⟨ninf, fin 5, .exc, .exc⟩, .const 1), (⟨fin 5, pinf, .inc, .exc⟩, .lin 1 0)]

theorem bend_norm : ∀ s ∈ bend, PF.Norm s.1 := by decide +kernel

theorem bend_disj : bend.Disj := PF.sorted_disj
  ((by decide +kernel : bend.Pairwise (fun s t => s.1.uppermost < t.1.lowermost)).imp
    (fun h => PF.before_of_lt h))

theorem ramp_bend (n : ℤ) : ramp.Covers n ↔ bend.Covers n := by
  simp only [ramp, bend, PF.Covers, co, List.mem_cons, List.not_mem_nil, or_false, exists_eq_or_imp,
    exists_eq_left, CS.Mem]
  simp [FP.lt_def, leb]
  omega

example : ramp.plus imid bend = .ok [(⟨ninf, fin 0, .exc, .exc⟩, .const 1), (co 0 5, .lin (1 / 10) 1),
    (co 5 10, .lin (11 / 10) 0), (⟨fin 10, pinf, .inc, .exc⟩, .lin 1 1)] ∧
    ramp.times bend = .ok [(⟨ninf, fin 0, .exc, .exc⟩, .const 0), (co 0 5, .lin (1 / 10) 0),
    (co 5 10, .quad (1 / 10) 0 0), (⟨fin 10, pinf, .inc, .exc⟩, .lin 1 0)] ∧
    ramp.sub imid bend = .ok [(⟨ninf, fin 0, .exc, .exc⟩, .const (-1)), (co 0 5, .lin (1 / 10) (-1)),
    (co 5 10, .lin (-9 / 10) 0), (⟨fin 10, pinf, .inc, .exc⟩, .lin (-1) 1)] :=
  ⟨by decide +kernel, by decide +kernel, by decide +kernel⟩

example : ∃ r, ramp.plus imid bend = .ok r :=
  (C14_piecewise_return ramp_norm bend_norm ramp_disj bend_disj (by decide)
    (by simp [ramp]) (by simp [bend]) ramp_bend (imid_ok _ _)).1

/-! ### Where the property fails -/

/-- The sum of two linear functions on different domains raises: `simplify` compares an undefined piece
with a linear one, and `Undefined.__eq__` calls `any` with two arguments. -/
theorem C14_violated_different_domains : ¬ ∀ (mid : ℤ → ℤ → ℤ) (p q : PF), (∀ s ∈ p, PF.Norm s.1) →
    (∀ s ∈ q, PF.Norm s.1) → p.Disj → q.Disj → p ≠ [] → q ≠ [] → MidOk mid p q → ∃ r, p.plus mid q = .ok r := by
  intro h
  obtain ⟨r, hr⟩ := h imid [(co 0 10, .lin 1 0)] [(co 0 20, .lin 1 0)] (by decide +kernel) (by decide +kernel)
    (List.pairwise_singleton _ _) (List.pairwise_singleton _ _) (by decide) (by decide) (imid_ok _ _)
  rw [show PF.plus imid [(co 0 10, .lin 1 0)] [(co 0 20, .lin 1 0)] = .error .typeError by decide +kernel] at hr
  cases hr

/-- A connected function plus one with a gap raises, the other way round it does not:
`ContinuousSet.union` does not accept a `RealSet`. -/
theorem C14_violated_gap :
    PF.plus imid [(co 0 20, .const 1)] [(co 0 10, .const 1), (co 20 30, .const 2)] = .error .typeError ∧
    PF.plus imid [(co 0 10, .const 1), (co 20 30, .const 2)] [(co 0 20, .const 1)] =
      .ok [(co 0 10, .const 2), (co 10 30, .undef)] := ⟨by decide +kernel, by decide +kernel⟩

/-- The pieces are looked up at `(a + b) * .5`.  For a piece with a single float this may round up to the
next piece, and the sum is then that of the next piece. -/
theorem C14_violated_middle : ¬ ∀ (mid : ℤ → ℤ → ℤ), (∀ a b, a < b → a ≤ mid a b ∧ mid a b ≤ b) →
    ∀ (p q r : PF), (∀ s ∈ p, PF.Norm s.1) → (∀ s ∈ q, PF.Norm s.1) → p.Disj → q.Disj →
    p.plus mid q = .ok r → ∀ n, r.eval ival n = bothOp (· + ·) (p.eval ival n) (q.eval ival n) := by
  intro h
  have hd : PF.Disj [(co 0 1, .const 1), (co 1 2, .const 5)] := PF.sorted_disj
    ((by decide +kernel : List.Pairwise (fun s t => s.1.uppermost < t.1.lowermost)
      ([(co 0 1, .const 1), (co 1 2, .const 5)] : PF)).imp (fun h => PF.before_of_lt h))
  have := h (fun a b => if b = a + 1 then (if a = 0 then b else a) else (a + b) / 2)
    (fun a b hab => by split_ifs <;> omega)
    [(co 0 1, .const 1), (co 1 2, .const 5)] [(co 0 1, .const 1), (co 1 2, .const 5)] [(co 0 2, .const 10)]
    (by decide +kernel) (by decide +kernel) hd hd (by decide +kernel) 0
  exact absurd this (by decide +kernel)

end Verif.Fun
