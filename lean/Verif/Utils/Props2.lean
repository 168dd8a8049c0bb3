import Verif.Utils.Entropy
import Mathlib.Tactic.Linarith
import Mathlib.Tactic.FieldSimp
import Mathlib.Tactic.Positivity

/-!
# C114: entropy and Gini index
-/

namespace Verif.Ut

/-- A probability distribution. -/
def IsDist (p : List ℝ) : Prop := (∀ q ∈ p, 0 ≤ q) ∧ p.sum = 1

/-- The textbook entropy in bits: the sum of `q * log2 (1/q)` over the outcomes that are possible. -/
noncomputable def bits (p : List ℝ) : ℝ := ((p.filter (fun q => q ≠ 0)).map (fun q => q * Real.logb 2 (1 / q))).sum

/-- The textbook Gini impurity: the probability that two independent draws differ. -/
noncomputable def impurity (p : List ℝ) : ℝ := 1 - (p.map (fun q => q * q)).sum

theorem bits_cons (q : ℝ) (p : List ℝ) : bits (q :: p) = -(Real.logb 2 q * q) + bits p := by
  unfold bits
  by_cases h : q = 0
  · subst h; simp
  · simp [h, Real.logb_inv]
    ring

theorem entropy_eq {p : List ℝ} (h0 : ∀ q ∈ p, 0 ≤ q) : entropy p = .ok |bits p| := by
  unfold entropy
  rw [if_neg (by push Not; exact h0)]
  congr 2
  induction p with
  | nil => simp [bits]
  | cons q p ih =>
    rw [bits_cons, ← ih (fun r hr => h0 r (by simp [hr]))]
    simp only [List.map_cons, List.sum_cons]
    split
    · rename_i h; simp [h]
    · ring

theorem mem_le_sum {p : List ℝ} (h0 : ∀ q ∈ p, 0 ≤ q) {q : ℝ} (hq : q ∈ p) : q ≤ p.sum :=
  List.single_le_sum h0 q hq

theorem sum_zero_iff {α : Type} {f : α → ℝ} : ∀ {p : List α}, (∀ q ∈ p, 0 ≤ f q) →
    0 ≤ (p.map f).sum ∧ ((p.map f).sum = 0 ↔ ∀ q ∈ p, f q = 0)
  | [], _ => by simp
  | a :: p, h => by
    obtain ⟨h1, h2⟩ := sum_zero_iff (p := p) (fun q hq => h q (by simp [hq]))
    have ha := h a (by simp)
    refine ⟨by simp only [List.map_cons, List.sum_cons]; linarith, ?_⟩
    simp only [List.map_cons, List.sum_cons, List.mem_cons, forall_eq_or_imp]
    rw [← h2]
    constructor
    · intro h; constructor <;> linarith
    · rintro ⟨h, h'⟩; linarith

theorem bits_sum (p : List ℝ) : bits p = (p.map (fun q => -(Real.logb 2 q * q))).sum := by
  induction p with
  | nil => simp [bits]
  | cons q p ih => rw [bits_cons, ih, List.map_cons, List.sum_cons]

theorem term_nonneg {q : ℝ} (h0 : 0 ≤ q) (h1 : q ≤ 1) : 0 ≤ -(Real.logb 2 q * q) ∧ (-(Real.logb 2 q * q) = 0 ↔ q = 0 ∨ q = 1) := by
  rcases h0.eq_or_lt with rfl | h0
  · simp
  rcases h1.eq_or_lt with rfl | h1
  · simp
  have : Real.logb 2 q < 0 := Real.logb_neg (by norm_num) h0 h1
  have h2 : 0 < -(Real.logb 2 q * q) := by nlinarith
  exact ⟨h2.le, ⟨fun h => by linarith, fun h => by rcases h with h | h <;> linarith⟩⟩

/-- The gap between a probability and the uniform one. -/
theorem gap_nonneg {n q : ℝ} (hn : 0 < n) (h0 : 0 ≤ q) :
    0 ≤ Real.log n * q + Real.log q * q - q + 1 / n ∧
      (Real.log n * q + Real.log q * q - q + 1 / n = 0 ↔ q = 1 / n) := by
  rcases h0.eq_or_lt with rfl | h0
  · have : 0 < 1 / n := by positivity
    refine ⟨by simp; positivity, ?_⟩
    simp
    exact eq_comm
  · have hx : 0 < 1 / (n * q) := by positivity
    have he : Real.log (1 / (n * q)) = -(Real.log n + Real.log q) := by
      rw [one_div, Real.log_inv, Real.log_mul hn.ne' h0.ne']
    have hq : q * (1 / (n * q) - 1) = 1 / n - q := by field_simp
    constructor
    · have := Real.log_le_sub_one_of_pos hx
      rw [he] at this
      nlinarith
    · constructor
      · intro h
        by_contra hc
        have hne : 1 / (n * q) ≠ 1 := by
          intro h1
          apply hc
          field_simp at h1 ⊢
          linarith
        have := Real.log_lt_sub_one_of_pos hx hne
        rw [he] at this
        nlinarith
      · rintro rfl
        rw [one_div, Real.log_inv]
        ring

theorem gap_sum (n : ℝ) (p : List ℝ) :
    (p.map (fun q => Real.log n * q + Real.log q * q - q + 1 / n)).sum =
      Real.log n * p.sum - Real.log 2 * bits p - p.sum + p.length / n := by
  induction p with
  | nil => simp [bits]
  | cons q p ih =>
    rw [List.map_cons, List.sum_cons, ih, bits_cons, List.sum_cons, List.length_cons]
    have h2 : Real.log 2 ≠ 0 := by positivity
    unfold Real.logb
    push_cast
    field_simp
    ring

theorem bits_facts {p : List ℝ} (hp : IsDist p) : 0 ≤ bits p ∧ bits p ≤ Real.logb 2 p.length ∧
    (bits p = 0 ↔ 1 ∈ p) ∧ (bits p = Real.logb 2 p.length ↔ ∀ q ∈ p, q = 1 / (p.length : ℝ)) := by
  obtain ⟨h0, h1⟩ := hp
  have hle : ∀ q ∈ p, q ≤ 1 := fun q hq => h1 ▸ mem_le_sum h0 hq
  have hne : p ≠ [] := by rintro rfl; simp at h1
  have hn : (0 : ℝ) < p.length := by exact_mod_cast List.length_pos_iff.2 hne
  obtain ⟨a1, a2⟩ := sum_zero_iff (p := p) (f := fun q => -(Real.logb 2 q * q)) (fun q hq => (term_nonneg (h0 q hq) (hle q hq)).1)
  obtain ⟨b1, b2⟩ := sum_zero_iff (p := p) (f := fun q => Real.log p.length * q + Real.log q * q - q + 1 / (p.length : ℝ))
    (fun q hq => (gap_nonneg hn (h0 q hq)).1)
  rw [gap_sum, h1, div_self hn.ne'] at b1 b2
  rw [← bits_sum] at a1 a2
  have l2 : 0 < Real.log 2 := Real.log_pos (by norm_num)
  have hL : Real.logb 2 p.length = Real.log p.length / Real.log 2 := rfl
  refine ⟨a1, ?_, ?_, ?_⟩
  · rw [hL, le_div_iff₀ l2]; linarith
  · rw [a2]
    constructor
    · intro h
      by_contra hc
      have hz : ∀ q ∈ p, q = 0 := fun q hq =>
        ((term_nonneg (h0 q hq) (hle q hq)).2.1 (h q hq)).resolve_right (fun h => hc (h ▸ hq))
      have := (sum_zero_iff (f := fun q : ℝ => q) h0).2.2 hz
      rw [List.map_id'] at this
      linarith
    · intro h q hq
      rw [(term_nonneg (h0 q hq) (hle q hq)).2]
      by_contra hc
      push Not at hc
      obtain ⟨a, b, rfl⟩ := List.append_of_mem h
      rw [List.sum_append, List.sum_cons] at h1
      have ha := List.sum_nonneg (l := a) (fun r hr => h0 r (by simp [hr]))
      have hb := List.sum_nonneg (l := b) (fun r hr => h0 r (by simp [hr]))
      have hq0 : 0 < q := lt_of_le_of_ne (h0 q hq) (Ne.symm hc.1)
      rcases List.mem_append.1 hq with h' | h'
      · have := mem_le_sum (fun r hr => h0 r (by simp [hr])) h'
        linarith
      · rcases List.mem_cons.1 h' with h' | h'
        · exact hc.2 h'
        · have := mem_le_sum (fun r hr => h0 r (by simp [hr])) h'
          linarith
  · rw [hL, eq_div_iff l2.ne']
    constructor
    · intro h q hq
      exact (gap_nonneg hn (h0 q hq)).2.1 (b2.1 (by linarith) q hq)
    · intro h
      have := b2.2 (fun q hq => (gap_nonneg hn (h0 q hq)).2.2 (h q hq))
      linarith

/-- `entropy` of a distribution is the textbook entropy in bits.  It is not negative and at most the logarithm of the number
of outcomes; it is zero exactly if one outcome is certain and maximal exactly if all outcomes have the same probability. -/
theorem C114_entropy (p : List ℝ) (hp : IsDist p) :
    entropy p = .ok (bits p) ∧ 0 ≤ bits p ∧ bits p ≤ Real.logb 2 p.length ∧
    (bits p = 0 ↔ 1 ∈ p) ∧ (bits p = Real.logb 2 p.length ↔ ∀ q ∈ p, q = 1 / (p.length : ℝ)) := by
  have h := bits_facts hp
  exact ⟨by rw [entropy_eq hp.1, abs_of_nonneg h.1], h⟩

example : IsDist [1 / 2, 1 / 4, 0, 1 / 4] ∧ entropy [1 / 2, 1 / 4, 0, 1 / 4] = .ok (3 / 2) := by
  have hd : IsDist [1 / 2, 1 / 4, 0, 1 / 4] := ⟨by norm_num, by norm_num⟩
  have h4 : Real.logb 2 4 = 2 := by
    rw [show (4 : ℝ) = 2 ^ (2 : ℝ) by norm_num, Real.logb_rpow (by norm_num) (by norm_num)]
  refine ⟨hd, ?_⟩
  rw [(C114_entropy _ hd).1]
  simp [bits, h4]
  norm_num

theorem uniform_dist {n : ℕ} (hn : 1 ≤ n) : IsDist ((List.range n).map fun _ => 1 / (((n : ℤ)) : ℝ)) := by
  have : (0 : ℝ) < n := by exact_mod_cast hn
  refine ⟨fun q hq => ?_, ?_⟩
  · obtain ⟨_, _, rfl⟩ := List.mem_map.1 hq
    push_cast
    positivity
  · simp [List.map_const']
    field_simp

/-- `max_entropy(n)` is the logarithm of `n`, and it is the greatest entropy of a distribution with `n` outcomes. -/
theorem C114_max_entropy (n : ℕ) (hn : 1 ≤ n) :
    maxEntropy n = .ok (Real.logb 2 n) ∧
    (∃ p : List ℝ, IsDist p ∧ p.length = n ∧ entropy p = maxEntropy n) ∧
    ∀ p : List ℝ, IsDist p → p.length = n → ∃ e, entropy p = .ok e ∧ e ≤ Real.logb 2 n := by
  have hd := uniform_dist hn
  have hlen : ((List.range n).map fun _ => 1 / (((n : ℤ)) : ℝ)).length = n := by simp
  obtain ⟨h1, -, -, -, h5⟩ := C114_entropy _ hd
  have hm : maxEntropy n = entropy ((List.range n).map fun _ => 1 / (((n : ℤ)) : ℝ)) := by
    simp only [maxEntropy, Int.toNat_natCast]
  have hb := h5.2 (fun q hq => by
    obtain ⟨_, _, rfl⟩ := List.mem_map.1 hq
    rw [hlen]; push_cast; rfl)
  rw [hlen] at hb
  refine ⟨by rw [hm, h1, hb], ⟨_, hd, hlen, hm.symm⟩, fun p hp hl => ?_⟩
  obtain ⟨k1, -, k3, -⟩ := C114_entropy p hp
  exact ⟨_, k1, hl ▸ k3⟩

example : maxEntropy 2 = .ok 1 := by
  have := (C114_max_entropy 2 (by norm_num)).1
  rw [show ((2 : ℕ) : ℤ) = 2 from rfl] at this
  rw [this]
  simp

/-- `rel_entropy` is the entropy as a share of the greatest possible one: it is between zero and one, zero exactly if one
outcome is certain, and for at least two outcomes it is one exactly if all have the same probability. -/
theorem C114_rel_entropy (p : List ℝ) (hp : IsDist p) :
    ∃ e, relEntropy p = .ok e ∧ 0 ≤ e ∧ e ≤ 1 ∧ (e = 0 ↔ 1 ∈ p) ∧
      (2 ≤ p.length → e = bits p / Real.logb 2 p.length ∧ (e = 1 ↔ ∀ q ∈ p, q = 1 / (p.length : ℝ))) := by
  obtain ⟨h1, h2, h3, h4, h5⟩ := C114_entropy p hp
  have hne : p ≠ [] := by rintro rfl; simpa using hp.2
  unfold relEntropy
  by_cases hl : p.length = 1
  · rw [if_pos hl]
    refine ⟨0, rfl, le_rfl, by norm_num, ?_, fun h => by omega⟩
    obtain ⟨q, rfl⟩ := List.length_eq_one_iff.1 hl
    have := hp.2
    simp only [List.sum_cons, List.sum_nil, add_zero] at this
    simp [this]
  · have hl2 : 2 ≤ p.length := by
      have := List.length_pos_iff.2 hne
      omega
    have hpos : 0 < Real.logb 2 p.length := Real.logb_pos (by norm_num) (by exact_mod_cast hl2)
    rw [if_neg hl]
    simp only [h1, (C114_max_entropy p.length (by omega)).1, bind, Except.bind, if_neg hpos.ne']
    refine ⟨_, rfl, by positivity, by rw [div_le_one hpos]; exact h3, ?_, fun _ => ⟨rfl, ?_⟩⟩
    · rw [div_eq_zero_iff, ← h4]
      constructor
      · rintro (h | h)
        · exact h
        · exact absurd h hpos.ne'
      · exact .inl
    · rw [div_eq_one_iff_eq hpos.ne', h5]

example : relEntropy [1 / 2, 1 / 2] = .ok 1 := by
  obtain ⟨e, h1, -, -, -, h5⟩ := C114_rel_entropy [1 / 2, 1 / 2] ⟨by norm_num, by norm_num⟩
  rw [h1, (h5 (by simp)).2.2 (by norm_num)]

/-- The errors: a negative probability raises `ValueError` (for `rel_entropy` unless it is the only one), and the relative
entropy without outcomes `ZeroDivisionError`. -/
theorem C114_errors (p : List ℝ) :
    ((∃ q ∈ p, q < 0) ↔ entropy p = .error .valueError) ∧
    ((∃ q ∈ p, q < 0) → p.length ≠ 1 → relEntropy p = .error .valueError) ∧
    relEntropy [] = .error .zeroDivision := by
  refine ⟨?_, fun h hl => ?_, ?_⟩
  · unfold entropy
    split <;> simp_all
  · simp [relEntropy, hl, entropy, h, bind, Except.bind]
  · simp [relEntropy, entropy, maxEntropy, bind, Except.bind]

/-- What holds of `gini`: it is the Gini impurity divided by the number of outcomes; hence it is not negative.  Missing is
that it is the Gini impurity itself, see `C114_violated_gini`. -/
theorem C114_gini_partial (p : List ℝ) (hp : IsDist p) :
    ∃ g, gini p = some g ∧ g * p.length = impurity p ∧ 0 ≤ g ∧ (g = 0 ↔ 1 ∈ p) := by
  have hne : p ≠ [] := by rintro rfl; simpa using hp.2
  have hn : (0 : ℝ) < p.length := by exact_mod_cast List.length_pos_iff.2 hne
  have hle : ∀ q ∈ p, q ≤ 1 := fun q hq => hp.2 ▸ mem_le_sum hp.1 hq
  have hsum : ∀ l : List ℝ, (l.map (fun q => q * (1 - q))).sum = l.sum - (l.map (fun q => q * q)).sum := by
    intro l
    induction l with
    | nil => simp
    | cons a l ih => simp only [List.map_cons, List.sum_cons, ih]; ring
  obtain ⟨a1, a2⟩ := sum_zero_iff (p := p) (f := fun q => q * (1 - q))
    (fun q hq => mul_nonneg (hp.1 q hq) (by linarith [hle q hq]))
  refine ⟨_, by rw [gini, if_neg (by simpa using hne)], ?_, div_nonneg a1 hn.le, ?_⟩
  · rw [div_mul_cancel₀ _ hn.ne', hsum, hp.2]
    rfl
  · rw [div_eq_zero_iff, or_iff_left hn.ne', a2, ← (bits_facts hp).2.2.1]
    obtain ⟨-, b2⟩ := sum_zero_iff (p := p) (f := fun q => -(Real.logb 2 q * q))
      (fun q hq => (term_nonneg (hp.1 q hq) (hle q hq)).1)
    rw [bits_sum, b2]
    refine forall₂_congr fun q hq => ?_
    rw [(term_nonneg (hp.1 q hq) (hle q hq)).2, mul_eq_zero, sub_eq_zero, eq_comm (a := (1 : ℝ))]

example : gini [1 / 2, 0, 1 / 2] = some (1 / 6) ∧ impurity [1 / 2, 0, 1 / 2] = 1 / 2 := by
  refine ⟨?_, by norm_num [impurity]⟩
  simp only [gini]
  norm_num

/-- Disagreement: `gini` is documented as the Gini impurity, which is 1/2 for a fair coin; it takes the mean instead of the sum
and returns 1/4. -/
theorem C114_violated_gini : IsDist [1 / 2, 1 / 2] ∧ impurity [1 / 2, 1 / 2] = 1 / 2 ∧ gini [1 / 2, 1 / 2] = some (1 / 4) := by
  refine ⟨⟨by norm_num, by norm_num⟩, by norm_num [impurity], ?_⟩
  simp only [gini]
  norm_num

end Verif.Ut
