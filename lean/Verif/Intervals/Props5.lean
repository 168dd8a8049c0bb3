import Verif.Intervals.LinspaceLemmas

/-! # C107: evenly spaced points of an interval -/

namespace Verif.Iv.Lin

/-- **C107 (partial), bounded intervals.** Without rounding errors, `linspace(num)` of a bounded interval returns `num`
points with equal distances; the first is the lower and the last the upper bound, or the float next to it if the bound
is open.  A single point is the middle.
Missing: rounding (`C107_violated_overshoot`). -/
theorem C107_bounded_partial {N : Ops} (hN : N.Exact) {a b : ℚ} (hab : a ≤ b) (l r : Br) (step : ℚ) {num : ℕ} (hn : 2 ≤ num) :
    ∃ xs, linspace N ⟨.fin a, .fin b, l, r⟩ false num step = .ok xs ∧ xs.length = num ∧
      xs[0]? = some (if l = .inc then a else N.next a (a + 1)) ∧
      xs[num - 1]? = some (if r = .inc then b else N.next b (b - 1)) ∧
      ∀ k, 0 < k → k < num - 1 → xs[k]? = some (a + k * ((b - a) / (num - 1))) := by
  have hN' : ∀ x, N.rd x = x := hN
  have hq : (1 : ℚ) ≤ num - 1 := by
    have : (2 : ℚ) ≤ num := by exact_mod_cast hn
    linarith
  have hsp : ¬ (b - a) / ((num : ℚ) - 1) < 0 := not_lt.2 (div_nonneg (by linarith) (by linarith))
  have habs : |b - a| = b - a := abs_of_nonneg (by linarith)
  refine ⟨ends N ⟨.fin a, .fin b, l, r⟩ (walk N ((b - a) / (num - 1)) num a), by simp only [linspace, hN', habs, Bool.false_eq_true, if_false, if_neg (show ¬ num = 1 by omega), if_neg hsp],
    by rw [ends_length, walk_length], ?_, ?_, ?_⟩
  · rw [ends_get _ (by rw [walk_length]; exact hn), walk_get hN _ _ _ _ (by omega), walk_length]
    have : ¬ (0 = num - 1) := by omega
    cases l <;> simp [hN', this]
  · rw [ends_get _ (by rw [walk_length]; exact hn), walk_get hN _ _ _ _ (by omega), walk_length]
    have e : a + ((num - 1 : ℕ) : ℚ) * ((b - a) / (num - 1)) = b := by
      rw [Nat.cast_sub (by omega)]
      push_cast
      field_simp
      ring
    have : ¬ (num - 1 = 0) := by omega
    rw [e]
    cases r <;> simp [hN', this]
  · intro k h0 h1
    rw [ends_get _ (by rw [walk_length]; exact hn), walk_get hN _ _ _ _ (by omega), walk_length]
    simp [show k ≠ 0 by omega, show k ≠ num - 1 by omega]

/-- Exact arithmetic in which the next number is one hundredth away. -/
def exOps : Ops := ⟨id, fun x y => if x < y then x + 1 / 100 else if y < x then x - 1 / 100 else x⟩

example : exOps.Exact ∧ linspace exOps ⟨.fin 0, .fin 3, .exc, .inc⟩ false 4 = .ok [1 / 100, 1, 2, 3] :=
  ⟨fun _ => rfl, by decide +kernel⟩

/-- **C107 (partial), members.** If the floats next to the open bounds are members, all points are members. -/
theorem C107_members_partial {N : Ops} (hN : N.Exact) {a b : ℚ} (hab : a ≤ b) (l r : Br) (step : ℚ) {num : ℕ} (hn : 2 ≤ num)
    (hne : a = b → l = .inc ∧ r = .inc) (hl : l = .exc → (⟨.fin a, .fin b, l, r⟩ : Box).Inside (N.next a (a + 1)))
    (hr : r = .exc → (⟨.fin a, .fin b, l, r⟩ : Box).Inside (N.next b (b - 1))) {xs : List ℚ}
    (h : linspace N ⟨.fin a, .fin b, l, r⟩ false num step = .ok xs) : ∀ x ∈ xs, (⟨.fin a, .fin b, l, r⟩ : Box).Inside x := by
  obtain ⟨ys, h1, h2, h3, h4, h5⟩ := C107_bounded_partial hN hab l r step hn
  rw [h, Except.ok.injEq] at h1
  subst h1
  intro x hx
  obtain ⟨k, hk⟩ := List.mem_iff_getElem?.1 hx
  have hkl : k < num := by
    rw [← h2]
    exact (List.getElem?_eq_some_iff.1 hk).1
  rcases Nat.eq_zero_or_pos k with rfl | h0
  · rw [h3, Option.some.injEq] at hk
    subst hk
    cases l with
    | exc => simpa using hl rfl
    | inc =>
      simp only [if_true]
      refine ⟨fun a' e => ?_, fun b' e => ?_⟩
      · cases e; exact .inr ⟨rfl, rfl⟩
      · cases e
        rcases hab.lt_or_eq with h | h
        · exact .inl h
        · exact .inr ⟨h, (hne h).2⟩
  · rcases Nat.lt_or_ge k (num - 1) with h1 | h1
    · rw [h5 k h0 h1, Option.some.injEq] at hk
      subst hk
      have hk0 : (0 : ℚ) < k := by exact_mod_cast h0
      have hk1 : (k : ℚ) < num - 1 := by
        have : k + 1 < num := by omega
        have : (k : ℚ) + 1 < num := by exact_mod_cast this
        linarith
      have hpos : (0 : ℚ) < num - 1 := hk0.trans hk1
      rcases hab.lt_or_eq with h | heq
      · have e1 : 0 < (k : ℚ) * ((b - a) / (num - 1)) := mul_pos hk0 (div_pos (by linarith) hpos)
        have e2 : (k : ℚ) * ((b - a) / (num - 1)) < b - a := by
          rw [← mul_div_assoc, div_lt_iff₀ hpos, mul_comm]
          exact mul_lt_mul_of_pos_left hk1 (by linarith)
        refine ⟨fun a' e => ?_, fun b' e => ?_⟩
        · cases e; left; linarith
        · cases e; left; linarith
      · obtain ⟨rfl, rfl⟩ := hne heq
        subst heq
        refine ⟨fun a' e => ?_, fun b' e => ?_⟩
        · cases e; right; simp
        · cases e; right; simp
    · obtain rfl : k = num - 1 := by omega
      rw [h4, Option.some.injEq] at hk
      subst hk
      cases r with
      | exc => simpa using hr rfl
      | inc =>
        simp only [if_true]
        refine ⟨fun a' e => ?_, fun b' e => ?_⟩
        · cases e
          rcases hab.lt_or_eq with h | h
          · exact .inl h
          · exact .inr ⟨h, (hne h).1⟩
        · cases e; exact .inr ⟨rfl, rfl⟩

example : (⟨.fin 0, .fin 3, .exc, .inc⟩ : Box).Inside (exOps.next 0 (0 + 1)) := by
  refine ⟨fun a e => ?_, fun b e => ?_⟩ <;> cases e <;> left <;> norm_num [exOps]

/-- **C107 (partial), unbounded sets.** Without rounding errors, the points of a half-line have the distance
`default_step` and start or end at its bound, or the float next to it if it is open; those of the set of all numbers
have the same distance and are symmetric to 0, up to one more positive point if `num` is even.
Missing: rounding. -/
theorem C107_unbounded_partial {N : Ops} (hN : N.Exact) {step : ℚ} (hs : 0 < step) (c : ℚ) (l r : Br) {num : ℕ} (hn : 2 ≤ num) :
    (∃ xs, linspace N ⟨.fin c, .pinf, l, r⟩ false num step = .ok xs ∧ xs.length = num ∧
      xs[0]? = some (if l = .inc then c else N.next c (c + 1)) ∧
      ∀ k, 0 < k → k < num → xs[k]? = some (c + k * step)) ∧
    (∃ xs, linspace N ⟨.ninf, .fin c, l, r⟩ false num step = .ok xs ∧ xs.length = num ∧
      xs[num - 1]? = some (if r = .inc then c else N.next c (c - 1)) ∧
      ∀ k, 0 < k → k < num → xs[num - 1 - k]? = some (c - k * step)) ∧
    (∃ xs, linspace N ⟨.ninf, .pinf, l, r⟩ false num step = .ok xs ∧ xs.length = num ∧
      ∀ k, k < num → xs[k]? = some (((k : ℚ) - ((num - 1) / 2 : ℕ)) * step)) := by
  have hN' : ∀ x, N.rd x = x := hN
  have h1 : ¬ num = 1 := by omega
  have h0 : ¬ (0 = num - 1) := by omega
  refine ⟨⟨ends N ⟨.fin c, .pinf, l, r⟩ (walk N step num c), by simp only [linspace, Bool.false_eq_true, if_false, if_neg h1, if_neg (not_lt.2 hs.le)],
    by rw [ends_length, walk_length], ?_, ?_⟩, ⟨ends N ⟨.ninf, .fin c, l, r⟩ (walk N (-step) num c).reverse,
      by simp only [linspace, Bool.false_eq_true, if_false, if_neg h1, if_pos (neg_lt_zero.2 hs)], by rw [ends_length, List.length_reverse, walk_length], ?_, ?_⟩,
    ⟨ends N ⟨.ninf, .pinf, l, r⟩ ((zigzag N step num).map (fun x => x.getD 0)),
      by simp only [linspace, Bool.false_eq_true, if_false, if_neg h1],
      by rw [ends_length, List.length_map, (zigzag_get hN step (by omega)).1], ?_⟩⟩
  · rw [ends_get _ (by rw [walk_length]; exact hn), walk_get hN _ _ _ _ (by omega), walk_length]
    cases l <;> simp [hN']
  · intro k hk hk'
    rw [ends_get _ (by rw [walk_length]; exact hn), walk_get hN _ _ _ _ hk', walk_length]
    simp [show k ≠ 0 by omega]
  · have hl : ((walk N (-step) num c).reverse).length = num := by rw [List.length_reverse, walk_length]
    rw [ends_get _ (by rw [hl]; exact hn), List.getElem?_reverse (by rw [walk_length]; omega), walk_length, hl,
      walk_get hN _ _ _ _ (by omega)]
    have e : num - 1 - (num - 1) = 0 := by omega
    rw [e]
    cases r <;> simp [hN']
  · intro k hk hk'
    have hl : ((walk N (-step) num c).reverse).length = num := by rw [List.length_reverse, walk_length]
    rw [ends_get _ (by rw [hl]; exact hn), List.getElem?_reverse (by rw [walk_length]; omega), walk_length, hl,
      walk_get hN _ _ _ _ (by omega)]
    have e : num - 1 - (num - 1 - k) = k := by omega
    rw [e]
    simp [show ¬ (num - 1 - k = num - 1) by omega]
    ring
  · intro k hk
    rw [ends_get _ (by rw [List.length_map, (zigzag_get hN step (by omega)).1]; exact hn), List.getElem?_map,
      (zigzag_get hN step (by omega)).2 k hk]
    simp

example : linspace exOps ⟨.ninf, .pinf, .exc, .exc⟩ false 6 2 = .ok [-4, -2, 0, 2, 4, 6] := by decide +kernel

example : linspace exOps ⟨.ninf, .fin 5, .exc, .exc⟩ false 3 = .ok [3, 4, 5 - 1 / 100] := by decide +kernel

/-- **C107, single points and empty sets.** A single point of a closed interval is its middle, of a closed half-line its
bound, of all numbers 0; there are no points of an empty set. -/
theorem C107_single {N : Ops} (hN : N.Exact) (a b step : ℚ) (l r : Br) :
    linspace N ⟨.fin a, .fin b, .inc, .inc⟩ false 1 step = .ok [(a + b) / 2] ∧
    linspace N ⟨.fin a, .pinf, .inc, r⟩ false 1 step = .ok [a] ∧
    linspace N ⟨.ninf, .fin b, l, .inc⟩ false 1 step = .ok [b] ∧
    linspace N ⟨.ninf, .pinf, l, r⟩ false 1 step = .ok [0] ∧
    ∀ s num, linspace N s true num step = .error .indexError := by
  have hN' : ∀ x, N.rd x = x := hN
  refine ⟨by simp [linspace, ends, hN', add_comm], ?_, ?_, ?_, fun s num => by simp [linspace]⟩ <;>
    simp [linspace, ends]

/-- **C107 fails with the rounding of doubles.** The last of four points of `[2^53, 2^53 + 22]` is `2^53 + 24`, which is
not in the interval. -/
theorem C107_violated_overshoot (next : ℚ → ℚ → ℚ) :
    linspace ⟨dbl, next⟩ ⟨.fin (2 ^ 53), .fin (2 ^ 53 + 22), .inc, .inc⟩ false 4 =
      .ok [2 ^ 53, 2 ^ 53 + 8, 2 ^ 53 + 16, 2 ^ 53 + 24] ∧
    ¬ (⟨.fin (2 ^ 53), .fin (2 ^ 53 + 22), .inc, .inc⟩ : Box).Inside (2 ^ 53 + 24) := by
  constructor
  · have e : dbl (|dbl (2 ^ 53 + 22 - 2 ^ 53)| / ((4 : ℕ) - 1)) = dbl (22 / 3) := by
      have : dbl (2 ^ 53 + 22 - 2 ^ 53) = 22 := by decide +kernel
      rw [this]
      norm_num
    have hnn : ¬ dbl (22 / 3) < 0 := by decide +kernel
    have h1 : dbl (2 ^ 53 + dbl (22 / 3)) = 2 ^ 53 + 8 := by decide +kernel
    have h2 : dbl (2 ^ 53 + 8 + dbl (22 / 3)) = 2 ^ 53 + 16 := by decide +kernel
    have h3 : dbl (2 ^ 53 + 16 + dbl (22 / 3)) = 2 ^ 53 + 24 := by decide +kernel
    simp only [linspace, Bool.false_eq_true, if_false, e, if_neg hnn, walk, h1, h2, h3]
    simp [ends]
  · intro h
    rcases h.2 _ rfl with h | h
    · norm_num at h
    · norm_num at h

/-- **C107 fails for open intervals of large numbers.** The neighbour of an open bound is sought between it and the
number one larger; from `2^53` on, this is the same double, so that the bound itself is returned. -/
theorem C107_violated_open (next : ℚ → ℚ → ℚ) (hnext : ∀ x, next x x = x) (r : Br) (step : ℚ) (hs : 0 ≤ step) {xs : List ℚ}
    {num : ℕ} (hn : 2 ≤ num) (h : linspace ⟨dbl, next⟩ ⟨.fin (2 ^ 53), .pinf, .exc, r⟩ false num step = .ok xs) :
    xs[0]? = some (2 ^ 53) ∧ ¬ (⟨.fin (2 ^ 53), .pinf, .exc, r⟩ : Box).Inside (2 ^ 53) := by
  constructor
  · simp only [linspace, Bool.false_eq_true, if_false, if_neg (show ¬ num = 1 by omega), if_neg (not_lt.2 hs),
      Except.ok.injEq] at h
    rw [← h, ends_get _ (by rw [walk_length]; exact hn)]
    have hd : dbl (2 ^ 53 + 1) = 2 ^ 53 := by decide +kernel
    obtain ⟨m, rfl⟩ : ∃ m, num = m + 1 := ⟨num - 1, by omega⟩
    simp [walk, hd, hnext]
  · intro h
    rcases h.1 _ rfl with h | h
    · exact lt_irrefl _ h
    · cases h.2

example (r : Br) : ∃ xs, linspace ⟨dbl, fun x _ => x⟩ ⟨.fin (2 ^ 53), .pinf, .exc, r⟩ false 2 1 = .ok xs := ⟨_, rfl⟩

end Verif.Iv.Lin
