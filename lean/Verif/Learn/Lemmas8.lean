import Verif.Learn.Lemmas4
import Mathlib.Tactic.Ring
import Mathlib.Tactic.FieldSimp
import Mathlib.Tactic.Positivity
import Mathlib.Tactic.Linarith
import Mathlib.Algebra.BigOperators.Ring.Finset
import Mathlib.Algebra.Order.BigOperators.Group.Finset
import Mathlib.Algebra.BigOperators.Field
import Mathlib.Algebra.Order.BigOperators.Ring.Finset

/-!
# Variance and gini impurity
-/

namespace Verif.Learn

open Trees

theorem sumAt_eq (data : Data) (rows : List ℕ) (t : ℕ) :
    sumAt data rows t = (rows.map (fun r => data r t)).sum := by
  induction rows using List.reverseRecOn with
  | nil => simp [sumAt]
  | append_singleton l r ih => rw [sumAt_snoc, ih]; simp

theorem sqSumAt_eq (data : Data) (rows : List ℕ) (t : ℕ) :
    sqSumAt data rows t = (rows.map (fun r => data r t * data r t)).sum := by
  induction rows using List.reverseRecOn with
  | nil => simp [sqSumAt]
  | append_singleton l r ih => rw [sqSumAt_snoc, ih]; simp

theorem binCount_eq (data : Data) (rows : List ℕ) (t w : ℕ) :
    binCount data rows t w = ((rows.map (fun r => valIdx (data r t))).count w : ℤ) := by
  induction rows using List.reverseRecOn with
  | nil => simp [binCount]
  | append_singleton l r ih =>
    rw [binCount_snoc, ih, List.map_append, List.count_append]
    by_cases h : w = valIdx (data r t)
    · subst h; simp
    · have : (valIdx (data r t) == w) = false := by simpa using fun e => h e.symm
      simp [h, List.count_cons, this]

theorem sum_sq_dev (xs : List ℚ) (m : ℚ) :
    (xs.map (fun x => (x - m) * (x - m))).sum
      = (xs.map (fun x => x * x)).sum - 2 * m * xs.sum + (xs.length : ℚ) * (m * m) := by
  induction xs with
  | nil => simp
  | cons a l ih =>
    simp only [List.map_cons, List.sum_cons, ih, List.length_cons]
    push_cast
    ring

/-- The variance from the sums. -/
theorem varianceOf_eq (xs : List ℚ) :
    varianceOf (xs.map (fun x => x * x)).sum xs.sum xs.length = variance xs := by
  unfold variance mean varianceOf
  rw [List.length_map, sum_sq_dev]
  by_cases h : xs.length ≤ 1
  · rw [if_pos h]
    match xs, h with
    | [], _ => simp
    | [a], _ => simp; ring
  · rw [if_neg h]
    have hn : (xs.length : ℚ) ≠ 0 := by
      have : xs.length ≠ 0 := by omega
      exact_mod_cast this
    field_simp
    ring

theorem variance_nonneg (xs : List ℚ) : 0 ≤ variance xs := by
  unfold variance mean
  rw [List.length_map]
  refine div_nonneg (List.sum_nonneg ?_) (by positivity)
  intro y hy
  obtain ⟨x, -, rfl⟩ := List.mem_map.1 hy
  exact mul_self_nonneg _

theorem variance_mul (xs : List ℚ) :
    (xs.length : ℚ) * variance xs = (xs.map (fun x => x * x)).sum - xs.sum * xs.sum / xs.length := by
  rw [← varianceOf_eq]
  unfold varianceOf
  by_cases h : xs.length ≤ 1
  · rw [if_pos h]
    match xs, h with
    | [], _ => simp
    | [a], _ => simp
  · rw [if_neg h]
    have hn : (xs.length : ℚ) ≠ 0 := by
      have : xs.length ≠ 0 := by omega
      exact_mod_cast this
    field_simp

theorem perm_variance {xs ys : List ℚ} (h : xs.Perm ys) : variance xs = variance ys := by
  rw [← varianceOf_eq, ← varianceOf_eq, h.sum_eq, (h.map _).sum_eq, h.length_eq]

/-- Dividing never increases the variance. -/
theorem variance_split {all xs ys : List ℚ} (h : all.Perm (xs ++ ys)) :
    (xs.length : ℚ) * variance xs + (ys.length : ℚ) * variance ys
      ≤ (all.length : ℚ) * variance all := by
  rw [variance_mul, variance_mul, variance_mul, (h.map _).sum_eq, h.sum_eq, h.length_eq]
  simp only [List.map_append, List.sum_append, List.length_append]
  by_cases hx : xs.length = 0
  · rw [List.length_eq_zero_iff] at hx
    subst hx
    simp
  by_cases hy : ys.length = 0
  · rw [List.length_eq_zero_iff] at hy
    subst hy
    simp
  have hx' : (0 : ℚ) < xs.length := by
    have : 0 < xs.length := by omega
    exact_mod_cast this
  have hy' : (0 : ℚ) < ys.length := by
    have : 0 < ys.length := by omega
    exact_mod_cast this
  generalize (xs.map (fun x => x * x)).sum = p
  generalize (ys.map (fun x => x * x)).sum = q
  generalize xs.sum = a
  generalize ys.sum = b
  push_cast
  generalize (xs.length : ℚ) = m at *
  generalize (ys.length : ℚ) = n at *
  have key : (a + b) * (a + b) / (m + n) ≤ a * a / m + b * b / n := by
    rw [div_add_div _ _ hx'.ne' hy'.ne', div_le_div_iff₀ (by positivity) (by positivity)]
    nlinarith [mul_self_nonneg (a * n - b * m), mul_self_nonneg (a * n + b * m)]
  linarith

theorem relReduction_range {all xs ys : List ℚ} (h : all.Perm (xs ++ ys)) (hv : variance all ≠ 0) :
    0 ≤ relReduction all xs ys ∧ relReduction all xs ys ≤ 1 := by
  have hpos : 0 < variance all := lt_of_le_of_ne (variance_nonneg all) (Ne.symm hv)
  have hlen : (0 : ℚ) < all.length := by
    rcases Nat.eq_zero_or_pos all.length with h0 | h0
    · rw [List.length_eq_zero_iff] at h0
      subst h0
      exact absurd (by simp [variance, mean]) hv
    · exact_mod_cast h0
  have h1 := variance_split h
  have h2 : 0 ≤ (xs.length : ℚ) * variance xs + (ys.length : ℚ) * variance ys := by
    have := variance_nonneg xs
    have := variance_nonneg ys
    positivity
  unfold relReduction
  constructor
  · refine div_nonneg ?_ hpos.le
    rw [sub_nonneg, div_le_iff₀ hlen]
    linarith
  · rw [div_le_one hpos, sub_le_self_iff]
    positivity

/-! ## Gini -/

theorem sum_count {k : ℕ} {vs : List ℕ} (h : ∀ w ∈ vs, w < k) :
    ∑ j ∈ Finset.range k, (vs.count j : ℚ) = (vs.length : ℚ) := by
  induction vs with
  | nil => simp
  | cons a l ih =>
    have ha := h a (by simp)
    simp only [List.count_cons, List.length_cons]
    push_cast
    rw [Finset.sum_add_distrib, ih (fun w hw => h w (by simp [hw]))]
    congr 1
    have : ∀ j ∈ Finset.range k, (((if (a == j) = true then (1 : ℕ) else 0) : ℕ) : ℚ)
        = if a = j then 1 else 0 := by
      intro j _
      by_cases hj : a = j <;> simp [hj]
    simp only [beq_iff_eq] at this ⊢
    simp [ha]

theorem foldl_sum (f : ℕ → ℚ) (k : ℕ) :
    (List.range k).foldl (fun s j => s + f j) 0 = ∑ j ∈ Finset.range k, f j := by
  induction k with
  | zero => simp
  | succ k ih => rw [List.range_succ, List.foldl_append, Finset.sum_range_succ, ← ih]; rfl

/-- `gini_impurity` of the histogram of the values. -/
theorem giniOf_eq {k : ℕ} (hk : k ≠ 1) (vs : List ℕ) (cnt : ℕ → ℤ)
    (hc : ∀ j, cnt j = (vs.count j : ℤ)) (inv : Bool) :
    giniOf k cnt vs.length inv = if inv then 1 - gini k vs else gini k vs := by
  unfold giniOf
  rw [if_neg hk]
  have : ((List.range k).foldl (fun s j => s + ((cnt j * cnt j : ℤ) : ℚ)) 0
      / ((vs.length * vs.length : ℕ) : ℚ) - 1) / (1 / (k : ℚ) - 1) = gini k vs := by
    rw [foldl_sum (fun j => ((cnt j * cnt j : ℤ) : ℚ))]
    unfold gini
    rw [← neg_div_neg_eq]
    congr 1
    · rw [neg_sub, Finset.sum_div]
      congr 1
      apply Finset.sum_congr rfl
      intro j _
      rw [hc]
      push_cast
      rw [div_pow, sq, sq]
    · ring
  simp only [this]

section
variable {k : ℕ} {vs : List ℕ}

theorem prob_sum (hn : vs ≠ []) (h : ∀ w ∈ vs, w < k) :
    ∑ j ∈ Finset.range k, (vs.count j : ℚ) / (vs.length : ℚ) = 1 := by
  rw [← Finset.sum_div, sum_count h, div_self]
  have : vs.length ≠ 0 := by
    rw [ne_eq, List.length_eq_zero_iff]
    exact hn
  exact_mod_cast this

theorem prob_range (j : ℕ) :
    0 ≤ (vs.count j : ℚ) / (vs.length : ℚ) ∧ (vs.count j : ℚ) / (vs.length : ℚ) ≤ 1 := by
  constructor
  · positivity
  · apply div_le_one_of_le₀ _ (by positivity)
    exact_mod_cast List.count_le_length

theorem sq_dev_sum (hk : 2 ≤ k) (hn : vs ≠ []) (h : ∀ w ∈ vs, w < k) :
    ∑ j ∈ Finset.range k, ((vs.count j : ℚ) / (vs.length : ℚ) - 1 / (k : ℚ)) ^ 2
      = ∑ j ∈ Finset.range k, ((vs.count j : ℚ) / (vs.length : ℚ)) ^ 2 - 1 / (k : ℚ) := by
  have h1 := prob_sum hn h
  have hk0 : (k : ℚ) ≠ 0 := by
    have : k ≠ 0 := by omega
    exact_mod_cast this
  have : ∀ j ∈ Finset.range k, ((vs.count j : ℚ) / (vs.length : ℚ) - 1 / (k : ℚ)) ^ 2
      = ((vs.count j : ℚ) / (vs.length : ℚ)) ^ 2
        - 2 / (k : ℚ) * ((vs.count j : ℚ) / (vs.length : ℚ)) + 1 / (k : ℚ) ^ 2 := by
    intro j _
    ring
  rw [Finset.sum_congr rfl this, Finset.sum_add_distrib, Finset.sum_sub_distrib, ← Finset.mul_sum,
    h1]
  simp
  field_simp
  ring

theorem gini_denom (hk : 2 ≤ k) : 0 < 1 - 1 / (k : ℚ) := by
  have : (2 : ℚ) ≤ k := by exact_mod_cast hk
  rw [sub_pos, div_lt_one (by linarith)]
  linarith

theorem gini_range (hk : 2 ≤ k) (hn : vs ≠ []) (h : ∀ w ∈ vs, w < k) :
    0 ≤ gini k vs ∧ gini k vs ≤ 1 := by
  have hd := gini_denom hk
  unfold gini
  constructor
  · refine div_nonneg ?_ hd.le
    rw [sub_nonneg, ← prob_sum hn h]
    apply Finset.sum_le_sum
    intro j _
    have := prob_range (vs := vs) j
    rw [sq]
    exact mul_le_of_le_one_left this.1 this.2
  · rw [div_le_one hd]
    have h1 := sq_dev_sum hk hn h
    have h2 : 0 ≤ ∑ j ∈ Finset.range k, ((vs.count j : ℚ) / (vs.length : ℚ) - 1 / (k : ℚ)) ^ 2 :=
      Finset.sum_nonneg (fun j _ => sq_nonneg _)
    linarith

/-- Impurity zero: there is only one value. -/
theorem gini_zero (hk : 2 ≤ k) (hn : vs ≠ []) (h : ∀ w ∈ vs, w < k) :
    gini k vs = 0 ↔ ∀ a ∈ vs, ∀ b ∈ vs, a = b := by
  have hd := gini_denom hk
  have hs := prob_sum hn h
  unfold gini
  rw [div_eq_zero_iff, or_iff_left hd.ne']
  constructor
  · intro h0 a ha b hb
    have hz : ∑ j ∈ Finset.range k, ((vs.count j : ℚ) / (vs.length : ℚ)
        - ((vs.count j : ℚ) / (vs.length : ℚ)) ^ 2) = 0 := by
      rw [Finset.sum_sub_distrib, hs, h0]
    rw [Finset.sum_eq_zero_iff_of_nonneg] at hz
    · by_contra hab
      have hpos : ∀ x ∈ vs, 0 < (vs.count x : ℚ) / (vs.length : ℚ) := by
        intro x hx
        have h1 : 0 < vs.count x := List.count_pos_iff.2 hx
        have h2 : 0 < vs.length := List.length_pos_of_mem hx
        have h3 : (0 : ℚ) < vs.count x := by exact_mod_cast h1
        have h4 : (0 : ℚ) < vs.length := by exact_mod_cast h2
        positivity
      have hone : ∀ x ∈ vs, (vs.count x : ℚ) / (vs.length : ℚ) = 1 := by
        intro x hx
        have := hz x (by simpa using h x hx)
        have h1 := hpos x hx
        have h2 : (vs.count x : ℚ) / (vs.length : ℚ) * (1 - (vs.count x : ℚ) / (vs.length : ℚ)) = 0 := by
          linarith
        rcases mul_eq_zero.1 h2 with h3 | h3
        · linarith
        · linarith
      have h2 : (vs.count a : ℚ) / (vs.length : ℚ) + (vs.count b : ℚ) / (vs.length : ℚ) ≤ 1 := by
        rw [← hs]
        have hsub : ({a, b} : Finset ℕ) ⊆ Finset.range k := by
          intro x hx
          simp only [Finset.mem_insert, Finset.mem_singleton] at hx
          rcases hx with rfl | rfl
          · simpa using h _ ha
          · simpa using h _ hb
        have h5 := Finset.sum_le_sum_of_subset_of_nonneg hsub
          (f := fun j => (vs.count j : ℚ) / (vs.length : ℚ)) (fun j _ _ => (prob_range j).1)
        rw [Finset.sum_pair hab] at h5
        exact h5
      have := hone a ha
      have := hone b hb
      linarith
    · intro j _
      have := prob_range (vs := vs) j
      rw [sub_nonneg, sq]
      exact mul_le_of_le_one_left this.1 this.2
  · intro hall
    rw [sub_eq_zero]
    obtain ⟨a, ha⟩ := List.exists_mem_of_ne_nil _ hn
    have hcount : ∀ j, vs.count j = if j = a then vs.length else 0 := by
      intro j
      by_cases hj : j = a
      · subst hj
        rw [if_pos rfl, List.count_eq_length]
        intro b hb
        exact hall _ ha _ hb
      · rw [if_neg hj, List.count_eq_zero]
        intro hm
        exact hj (hall _ hm _ ha)
    have h4 : (vs.length : ℚ) ≠ 0 := by
      have : vs.length ≠ 0 := by
        rw [ne_eq, List.length_eq_zero_iff]
        exact hn
      exact_mod_cast this
    have : ∀ j ∈ Finset.range k, ((vs.count j : ℚ) / (vs.length : ℚ)) ^ 2 = if j = a then 1 else 0 := by
      intro j _
      rw [hcount]
      by_cases hj : j = a <;> simp [hj, h4]
    rw [Finset.sum_congr rfl this]
    simp [h a ha]

/-- Impurity one: all values are equally frequent. -/
theorem gini_one (hk : 2 ≤ k) (hn : vs ≠ []) (h : ∀ w ∈ vs, w < k) :
    gini k vs = 1 ↔ ∀ j < k, k * vs.count j = vs.length := by
  have hd := gini_denom hk
  have h1 := sq_dev_sum hk hn h
  have hk0 : (k : ℚ) ≠ 0 := by
    have : k ≠ 0 := by omega
    exact_mod_cast this
  have h4 : (vs.length : ℚ) ≠ 0 := by
    have : vs.length ≠ 0 := by
      rw [ne_eq, List.length_eq_zero_iff]
      exact hn
    exact_mod_cast this
  have hiff : gini k vs = 1 ↔
      ∑ j ∈ Finset.range k, ((vs.count j : ℚ) / (vs.length : ℚ) - 1 / (k : ℚ)) ^ 2 = 0 := by
    unfold gini
    rw [div_eq_one_iff_eq hd.ne', h1]
    constructor <;> intro h <;> linarith
  rw [hiff, Finset.sum_eq_zero_iff_of_nonneg (fun j _ => sq_nonneg _)]
  simp only [Finset.mem_range]
  refine forall_congr' fun j => forall_congr' fun _ => ?_
  rw [sq_eq_zero_iff, sub_eq_zero, div_eq_div_iff h4 hk0, one_mul]
  constructor
  · intro h
    have : ((k * vs.count j : ℕ) : ℚ) = (vs.length : ℚ) := by
      push_cast
      linarith
    exact_mod_cast this
  · intro h
    have : ((k * vs.count j : ℕ) : ℚ) = (vs.length : ℚ) := by exact_mod_cast h
    push_cast at this
    linarith

end

end Verif.Learn
