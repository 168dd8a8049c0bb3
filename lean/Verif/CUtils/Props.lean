import Verif.CUtils.Lemmas

/-!
# Properties of the native sort, bisection and `linspace` (C23–C25)
-/

namespace Verif.CU

variable {α : Type} [LinearOrder α]

/-- The first `n` entries of a memory as a list. -/
def firstN {β : Type} (a : ℕ → β) (n : ℕ) : List β := (List.range' 0 n).map a

/-! ## C23: the native sort -/

/-- **C23.**  `sort(Xf, samples, n)` permutes the first `n` (value, sample) pairs as pairs, leaves
everything behind them untouched, and leaves the values in ascending order. -/
theorem C23_sort {σ : Type} (a : ℕ → α × σ) (n : ℕ) :
    (firstN (sort Prod.fst a n) n).Perm (firstN a n) ∧
    (∀ k, n ≤ k → sort Prod.fst a n k = a k) ∧
    (∀ i j, i < j → j < n → (sort Prod.fst a n i).1 ≤ (sort Prod.fst a n j).1) := by
  unfold sort
  split
  · rename_i h
    exact ⟨List.Perm.refl _, fun _ _ => rfl, fun i j _ hj => by omega⟩
  · obtain ⟨h1, h2⟩ := introsort_spec (Prod.fst : α × σ → α) (2 * Nat.log2 n) a 0 n
    simp only [Nat.zero_add] at h1 h2
    exact ⟨h2.perm, fun k hk => h2.outside (by omega), h1⟩

/-- **C23.**  The same holds for `introsort` with every recursion budget, in particular when it
falls back to `heapsort` at once. -/
theorem C23_introsort_any_depth {σ : Type} (maxd : ℕ) (a : ℕ → α × σ) (n : ℕ) :
    (firstN (introsort Prod.fst maxd a 0 n) n).Perm (firstN a n) ∧
    (∀ k, n ≤ k → introsort Prod.fst maxd a 0 n k = a k) ∧
    (∀ i j, i < j → j < n →
      (introsort Prod.fst maxd a 0 n i).1 ≤ (introsort Prod.fst maxd a 0 n j).1) := by
  obtain ⟨h1, h2⟩ := introsort_spec (Prod.fst : α × σ → α) maxd a 0 n
  simp only [Nat.zero_add] at h1 h2
  exact ⟨h2.perm, fun k hk => h2.outside (by omega), h1⟩

/-- A memory whose first entries are `l`. -/
def mem (l : List (ℕ × ℕ)) : ℕ → ℕ × ℕ := fun i => l.getD i (0, 0)

example : firstN (sort Prod.fst (mem [(3, 0), (1, 1), (2, 2), (1, 3), (9, 4), (0, 5)]) 5) 6
    = [(1, 1), (1, 3), (2, 2), (3, 0), (9, 4), (0, 5)] := by decide +kernel

example : firstN (introsort Prod.fst 0 (mem [(3, 0), (1, 1), (2, 2), (1, 3), (9, 4)]) 0 5) 5
    = [(1, 1), (1, 3), (2, 2), (3, 0), (9, 4)] := by decide +kernel

/-! ## C24: bisection -/

/-- **C24.**  On an ascending non-empty array `bisect` terminates and returns an insertion point:
everything before it is `≤ v`, everything from it on is `≥ v`. -/
theorem C24_bisect_insertion_point (X : ℕ → α) (v : α) (n : ℕ) (hn : 0 < n)
    (hX : ∀ i j, i ≤ j → j < n → X i ≤ X j) :
    ∃ r, bisect X v n = .ok r ∧ r ≤ n ∧ (∀ j, j < r → X j ≤ v) ∧
      (∀ j, r ≤ j → j < n → v ≤ X j) := by
  obtain ⟨r, h1, -, h3, h4, h5⟩ := bisectAux_spec X v (n + 1) 0 (n - 1) (by omega) (by omega)
    (fun i j hij hj => hX i j hij (by omega))
  exact ⟨r, h1, by omega, fun j hj => h4 j (by omega) hj, fun j hj hj' => h5 j hj (by omega)⟩

/-- **C24.**  When `v` does not occur in the array the insertion point is unique: it is the number
of elements below `v`. -/
theorem C24_bisect_unique (X : ℕ → α) (v : α) (n : ℕ) (hn : 0 < n)
    (hX : ∀ i j, i ≤ j → j < n → X i ≤ X j) (hv : ∀ i, i < n → X i ≠ v) :
    bisect X v n = .ok ((List.range n).filter (fun i => decide (X i < v))).length := by
  obtain ⟨r, h1, h2, h3, h4⟩ := C24_bisect_insertion_point X v n hn hX
  rw [h1]
  congr 1
  have : (List.range n).filter (fun i => decide (X i < v)) = List.range r := by
    obtain ⟨d, rfl⟩ : ∃ d, n = r + d := ⟨n - r, by omega⟩
    rw [List.range_add, List.filter_append, List.filter_eq_self.2, List.filter_eq_nil_iff.2,
      List.append_nil]
    · intro i hi
      obtain ⟨j, hj, rfl⟩ := List.mem_map.1 hi
      have := List.mem_range.1 hj
      simp only [decide_eq_true_eq, not_lt]
      exact h4 _ (by omega) (by omega)
    · intro i hi
      have hi := List.mem_range.1 hi
      simp only [decide_eq_true_eq]
      exact lt_of_le_of_ne (h3 i hi) (hv i (by omega))
  rw [this, List.length_range]

/-- For repeated values nothing more can be said: the result is neither the first nor the last
insertion point in general (here these are 1 and 4). -/
theorem C24_neither_leftmost_nor_rightmost :
    bisect (fun i => [1, 2, 2, 2, 3].getD i 0) 2 5 = .ok 3 := by decide +kernel

example : ∃ r, bisect (fun i => [1, 2, 2, 2, 3].getD i 0) 2 5 = .ok r ∧ r ≤ 5 :=
  ⟨3, by decide +kernel, by decide⟩

example : bisect (fun i => [1, 4, 6, 9].getD i 0) 7 4 = .ok 3 := by decide +kernel

/-! ## C25: `linspace` -/

/-- **C25** for at least two points: `num` equally spaced points, the `i`-th of which is
`start + i·(stop − start)/(num − 1)`. -/
theorem C25_linspace_partial (start stop : ℚ) (num : ℕ) (h : 2 ≤ num) :
    (linspace start stop num).length = num ∧
    ∀ i, i < num →
      (linspace start stop num)[i]? = some (start + i * ((stop - start) / ((num : ℚ) - 1))) := by
  unfold linspace
  rw [if_neg (by omega)]
  exact linspaceLoop_spec _ num start

/-- **C25.**  Both end points are hit exactly. -/
theorem C25_linspace_ends_partial (start stop : ℚ) (num : ℕ) (h : 2 ≤ num) :
    (linspace start stop num)[0]? = some start ∧
    (linspace start stop num)[num - 1]? = some stop := by
  obtain ⟨-, h2⟩ := C25_linspace_partial start stop num h
  have hq : (2 : ℚ) ≤ (num : ℚ) := by exact_mod_cast h
  have hne : (num : ℚ) - 1 ≠ 0 := by linarith
  refine ⟨by rw [h2 0 (by omega)]; simp, ?_⟩
  rw [h2 (num - 1) (by omega)]
  congr 1
  rw [Nat.cast_sub (by omega), Nat.cast_one]
  field_simp
  ring

/-- **C25 fails for one point**: the documentation promises the centroid of `start` and `stop`, but
the code returns half their distance. -/
theorem C25_violated_single_point :
    linspace 10 12 1 = [1] ∧ (1 : ℚ) ≠ (10 + 12) / 2 := by
  constructor
  · norm_num [linspace]
  · norm_num

/-- **C25.**  The single point is right exactly when `start` is zero. -/
theorem C25_single_point_iff (start stop : ℚ) :
    linspace start stop 1 = [(start + stop) / 2] ↔ start = 0 := by
  simp only [linspace, if_true, List.cons.injEq, and_true]
  constructor
  · intro h; linarith
  · intro h; subst h; ring

example : linspace 0 1 3 = [0, 1 / 2, 1] := by norm_num [linspace, linspaceLoop]

end Verif.CU
