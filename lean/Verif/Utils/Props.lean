import Verif.Utils.Lemmas
import Verif.Utils.Heap

/-!
# Properties of the utilities: C20 (`normalized`), C21 (`Heap`), C22 (`setstr_int`, `pairwise`),
C26 (`RouletteWheelSampler`)
-/

namespace Verif.Ut

/-! ## C20: `normalized` -/

/-- `Σ |w_i|`. -/
def absSum (w : List ℚ) : ℚ := (w.map (fun v => |v|)).sum

theorem absSum_ne_zero {w : List ℚ} : absSum w ≠ 0 ↔ ∃ v ∈ w, v ≠ 0 := by
  unfold absSum
  rw [Ne, sum_eq_zero_iff (by intro v hv; obtain ⟨u, _, rfl⟩ := List.mem_map.1 hv; exact abs_nonneg u)]
  simp

/-- **C20.**  Without `zeros`: the call succeeds exactly if no weight is negative (or negative
weights are allowed) and not all are zero (or the identity is requested for that case); the result
is every weight divided by the sum of the absolute weights, in the same order; if all weights are
zero the input is returned.  All other calls raise `ValueError`. -/
theorem C20_normalized_list {K : Type} (idz an : Bool) (w : List ℚ) :
    normalized (K := K) idz an 0 (.list w) =
      if (∃ v ∈ w, v < 0) ∧ an = false then .error .valueError
      else if ∀ v ∈ w, v = 0 then (if idz then .ok (.list w) else .error .valueError)
      else .ok (.list (w.map (fun v => v / absSum w))) := by
  simp only [normalized, normValues]
  have hneg : (¬ ∀ v ∈ w, 0 ≤ v) ↔ ∃ v ∈ w, v < 0 := by
    simp only [not_forall, not_le, exists_prop]
  simp only [hneg]
  by_cases h1 : (∃ v ∈ w, v < 0) ∧ an = false
  · rw [if_pos h1, if_pos h1]; rfl
  · rw [if_neg h1, if_neg h1]
    by_cases h2 : ∀ v ∈ w, v = 0
    · have hz : (w.map (fun v => |v|)).sum = 0 := by
        by_contra hc
        obtain ⟨v, hv, hv'⟩ := absSum_ne_zero.1 hc
        exact hv' (h2 v hv)
      rw [if_pos h2]
      simp only [normLoop, hz, if_true]
      cases idz <;> rfl
    · have hz : (w.map (fun v => |v|)).sum ≠ 0 := by
        apply absSum_ne_zero.2
        by_contra hc
        exact h2 (fun v hv => by_contra fun hv' => hc ⟨v, hv, hv'⟩)
      rw [if_neg h2, normLoop_done _ _ _ _ _ hz (Or.inl rfl), List.map_map, zip_sign_abs]
      simp only [Except.map]
      congr 2
      apply List.map_congr_left
      intro v _
      simp only [Function.comp, absSum]
      rw [div_mul_eq_mul_div, abs_mul_sign1]

/-- **C20.**  For non-negative weights that are not all zero the result has the same length, sums
to one, and keeps all ratios. -/
theorem C20_normalized_distribution {K : Type} (idz an : Bool) (w : List ℚ)
    (h0 : ∀ v ∈ w, 0 ≤ v) (h1 : ∃ v ∈ w, v ≠ 0) :
    ∃ r, normalized (K := K) idz an 0 (.list w) = .ok (.list r) ∧ r.length = w.length ∧ r.sum = 1 ∧
      (∀ v ∈ r, 0 ≤ v ∧ v ≤ 1) ∧
      ∀ i j : ℕ, ∀ wi wj ri rj : ℚ, w[i]? = some wi → w[j]? = some wj → r[i]? = some ri →
        r[j]? = some rj → ri * wj = rj * wi := by
  have habs : absSum w = w.sum := by
    unfold absSum
    congr 1
    conv_rhs => rw [← List.map_id w]
    exact List.map_congr_left (fun v hv => abs_of_nonneg (h0 v hv))
  have hz := absSum_ne_zero.2 h1
  have hpos : 0 < absSum w := lt_of_le_of_ne (by rw [habs]; exact sum_nonneg h0) (Ne.symm hz)
  refine ⟨w.map (fun v => v / absSum w), ?_, by simp, ?_, ?_, ?_⟩
  · rw [C20_normalized_list, if_neg, if_neg]
    · intro h; obtain ⟨v, hv, hv'⟩ := h1; exact hv' (h v hv)
    · rintro ⟨⟨v, hv, hv'⟩, -⟩; exact absurd (h0 v hv) (not_le.2 hv')
  · rw [sum_div, ← habs, div_self hz]
  · intro v hv
    obtain ⟨u, hu, rfl⟩ := List.mem_map.1 hv
    refine ⟨div_nonneg (h0 u hu) (le_of_lt hpos), ?_⟩
    rw [div_le_one hpos, habs]
    exact List.single_le_sum h0 u hu
  · intro i j wi wj ri rj e1 e2 e3 e4
    rw [List.getElem?_map, e1] at e3
    rw [List.getElem?_map, e2] at e4
    simp only [Option.map_some, Option.some.injEq] at e3 e4
    rw [← e3, ← e4]; ring

/-- **C20.**  With `zeros > 0` (and weights not all zero) every zero entry is treated as `zeros`
times the least non-zero absolute weight `m`, all other entries keep their ratios and signs, the
absolute values sum to one and no entry is zero. -/
theorem C20_normalized_zeros {K : Type} (idz an : Bool) (zeros : ℚ) (hz : 0 < zeros) (w : List ℚ)
    (h0 : (∀ v ∈ w, 0 ≤ v) ∨ an = true) (h1 : ∃ v ∈ w, v ≠ 0) :
    ∃ m, (∃ v ∈ w, v ≠ 0 ∧ m = |v|) ∧ (∀ v ∈ w, v ≠ 0 → m ≤ |v|) ∧
      let filled := w.map (fun v => if v = 0 then m * zeros else v)
      normalized (K := K) idz an zeros (.list w)
        = .ok (.list (filled.map (fun v => v / absSum filled))) ∧
      absSum (filled.map (fun v => v / absSum filled)) = 1 ∧
      ∀ v ∈ filled.map (fun v => v / absSum filled), v ≠ 0 := by
  obtain ⟨m, ⟨hm1, hm2, hm3⟩, hm4⟩ := normLoop_zeros idz zeros (w.map sign1) (w.map (fun v => |v|)) hz
    (by intro v hv; obtain ⟨u, _, rfl⟩ := List.mem_map.1 hv; exact abs_nonneg u)
    (by obtain ⟨v, hv, hv'⟩ := h1; exact ⟨|v|, List.mem_map.2 ⟨v, hv, rfl⟩, abs_ne_zero.2 hv'⟩)
  have hmz : 0 < m * zeros := mul_pos hm2 hz
  refine ⟨m, ?_, ?_, ?_⟩
  · obtain ⟨v, hv, rfl⟩ := List.mem_map.1 hm1
    exact ⟨v, hv, abs_pos.1 hm2, rfl⟩
  · intro v hv hv'
    exact hm3 _ (List.mem_map.2 ⟨v, hv, rfl⟩) (abs_ne_zero.2 hv')
  · have hfill : fillZeros (m * zeros) (w.map (fun v => |v|))
        = (w.map (fun v => if v = 0 then m * zeros else v)).map (fun v => |v|) := by
      simp only [fillZeros, List.map_map]
      apply List.map_congr_left
      intro v _
      simp only [Function.comp, abs_eq_zero]
      split_ifs
      · rw [abs_of_pos hmz]
      · rfl
    have hne : ∀ v ∈ w.map (fun v => if v = 0 then m * zeros else v), v ≠ 0 := by
      intro v hv
      obtain ⟨u, hu, rfl⟩ := List.mem_map.1 hv
      split_ifs with c
      · exact ne_of_gt hmz
      · exact c
    have hS : absSum (w.map (fun v => if v = 0 then m * zeros else v)) ≠ 0 := by
      apply absSum_ne_zero.2
      obtain ⟨v, hv, hv'⟩ := h1
      exact ⟨v, List.mem_map.2 ⟨v, hv, by rw [if_neg hv']⟩, hv'⟩
    have hSpos : 0 < absSum (w.map (fun v => if v = 0 then m * zeros else v)) := by
      refine lt_of_le_of_ne (sum_nonneg ?_) (Ne.symm hS)
      intro v hv; obtain ⟨u, _, rfl⟩ := List.mem_map.1 hv; exact abs_nonneg u
    refine ⟨?_, ?_, ?_⟩
    · simp only [normalized, normValues]
      rw [if_neg, hm4]
      · simp only [Except.map, hfill]
        congr 2
        have hrhs : ∀ S : ℚ, (w.map (fun v => if v = 0 then m * zeros else v)).map (fun v => v / S)
            = w.map (fun v => (if v = 0 then m * zeros else v) / S) := by
          intro S; rw [List.map_map]; rfl
        rw [hrhs, List.map_map, List.map_map, zip_sign_abs]
        apply List.map_congr_left
        intro v _
        simp only [Function.comp, absSum]
        by_cases hv : v = 0
        · subst hv
          simp only [if_true, sign1, lt_irrefl, if_false, mul_one]
          rw [abs_of_pos hmz]
        · simp only [if_neg hv]
          rw [div_mul_eq_mul_div, abs_mul_sign1]
      · rintro ⟨h2, h3⟩
        rcases h0 with h0 | h0
        · exact h2 h0
        · rw [h0] at h3; exact absurd h3 (by decide)
    · generalize w.map (fun v => if v = 0 then m * zeros else v) = f at *
      have : absSum (f.map (fun v => v / absSum f)) = absSum f / absSum f := by
        have hr : absSum f / absSum f = ((f.map (fun v => |v|)).map (· / absSum f)).sum := by
          rw [sum_div]; rfl
        rw [hr, List.map_map]
        conv_lhs => rw [absSum, List.map_map]
        congr 1
        apply List.map_congr_left
        intro v _
        simp only [Function.comp]
        rw [abs_div, abs_of_pos hSpos]
      rw [this, div_self hS]
    · intro v hv
      obtain ⟨u, hu, rfl⟩ := List.mem_map.1 hv
      exact div_ne_zero (hne u hu) hS

/-- **C20.**  With `zeros > 0` the call fails in the same cases as without. -/
theorem C20_normalized_zeros_error {K : Type} (idz an : Bool) (zeros : ℚ) (w : List ℚ)
    (h : ((∃ v ∈ w, v < 0) ∧ an = false) ∨ (∀ v ∈ w, v = 0)) :
    normalized (K := K) idz an zeros (.list w) = normalized idz an 0 (.list w) := by
  rw [C20_normalized_list]
  simp only [normalized, normValues]
  have hneg : (¬ ∀ v ∈ w, 0 ≤ v) ↔ ∃ v ∈ w, v < 0 := by
    simp only [not_forall, not_le, exists_prop]
  simp only [hneg]
  by_cases h1 : (∃ v ∈ w, v < 0) ∧ an = false
  · rw [if_pos h1, if_pos h1]; rfl
  · have h2 := h.resolve_left h1
    have hz : (w.map (fun v => |v|)).sum = 0 := by
      by_contra hc
      obtain ⟨v, hv, hv'⟩ := absSum_ne_zero.1 hc
      exact hv' (h2 v hv)
    rw [if_neg h1, if_neg h1, if_pos h2]
    simp only [normLoop, hz, if_true]
    cases idz <;> rfl

/-- **C20.**  Float arrays and dicts behave like the list of their values; a dict keeps its keys in
order; everything else is rejected with `TypeError`. -/
theorem C20_normalized_containers {K : Type} (idz an : Bool) (zeros : ℚ) :
    (∀ w r, normalized (K := K) idz an zeros (.list w) = .ok (.list r) →
      normalized (K := K) idz an zeros (.floatArray w) = .ok (.floatArray r)) ∧
    (∀ (w : List (K × ℚ)) (r : List ℚ),
      normalized (K := K) idz an zeros (.list (w.map Prod.snd)) = .ok (.list r) →
      normalized idz an zeros (.dict w) = .ok (.dict ((w.map Prod.fst).zip r))) ∧
    (∀ (w : List (K × ℚ)) (e : Err),
      normalized (K := K) idz an zeros (.list (w.map Prod.snd)) = .error e →
      normalized idz an zeros (.dict w) = .error e) ∧
    normalized (K := K) idz an zeros .other = .error .typeError := by
  refine ⟨fun w r h => ?_, fun w r h => ?_, fun w e h => ?_, rfl⟩
  · simp only [normalized, Except.map] at h ⊢
    cases h2 : normValues idz an zeros w <;> simp_all
  · simp only [normalized, Except.map] at h ⊢
    cases h2 : normValues idz an zeros (w.map Prod.snd) <;> simp_all
  · simp only [normalized, Except.map] at h ⊢
    cases h2 : normValues idz an zeros (w.map Prod.snd) <;> simp_all

/-- **C20 fails for integer arrays**: the result is converted back to the integer type and all
mass is lost. -/
theorem C20_violated_integer_array :
    normalized (K := ℕ) false false 0 (.intArray [1, 1]) = .ok (.intArray [0, 0]) := by
  have h : normValues false false 0 ([1, 1].map (fun v : ℤ => (v : ℚ))) = .ok [1 / 2, 1 / 2] := by
    norm_num [normValues, normLoop, sign1]
  have h2 : truncQ (1 / 2) = 0 := by decide +kernel
  simp only [normalized]
  rw [h]
  simp only [Except.map, List.map_cons, List.map_nil, h2]

example : normalized (K := ℕ) false false 0 (.list [1, 0, 3]) = .ok (.list [1 / 4, 0, 3 / 4]) := by
  rw [C20_normalized_list, if_neg (by simp), if_neg (by simp)]
  norm_num [absSum]

example : ∃ r, normalized (K := ℕ) false true (1 / 2) (.list [-1, 0, 2]) = .ok (.list r) := by
  obtain ⟨m, -, -, h, -⟩ := C20_normalized_zeros (K := ℕ) false true (1 / 2) (by norm_num) [-1, 0, 2]
    (Or.inr rfl) ⟨2, by simp, by norm_num⟩
  exact ⟨_, h⟩

/-! ## C22: `pairwise`, `setstr_int`, `mapstr`, `list2intset` -/

/-- **C22.**  `pairwise` yields exactly the adjacent pairs, in order. -/
theorem C22_pairwise {β : Type} (l : List β) :
    (pairwise l).length = l.length - 1 ∧
    ∀ i, i + 1 < l.length → ∃ a b, l[i]? = some a ∧ l[i + 1]? = some b ∧
      (pairwise l)[i]? = some (a, b) := by
  rw [pairwise_eq]
  refine ⟨by simp, fun i hi => ?_⟩
  refine ⟨l[i], l[i + 1], by simp, by simp, ?_⟩
  rw [List.getElem?_zip_eq_some]
  simp

/-- The text for the run of integers `a, a+1, …, a+k`. -/
def runText (a : ℤ) : ℕ → List Tok
  | 0 => [.num a]
  | 1 => [.num a, .outer, .num (a + 1)]
  | k + 2 => [.num a, .inner, .dots, .inner, .num (a + (k + 2 : ℕ))]

/-- **C22.**  `setstr_int` of a non-empty set writes, separated by the outer separator, the texts of
the maximal runs of consecutive integers of the set in ascending order: the runs `a … a+k` cover
exactly the set and consecutive runs leave a gap.  For the empty set it raises `IndexError`. -/
theorem C22_setstr_int (s : List ℤ) (hs : s.Nodup) :
    (s = [] → setstrInt s = .error .indexError) ∧
    (s ≠ [] → ∃ rs : List (ℤ × ℕ), rs ≠ [] ∧
      setstrInt s = .ok (joinToks .outer (rs.map fun r => runText r.1 r.2)) ∧
      rs.Pairwise (fun r t => r.1 + (r.2 : ℤ) + 1 < t.1) ∧
      ∀ x, x ∈ s ↔ ∃ r ∈ rs, r.1 ≤ x ∧ x ≤ r.1 + (r.2 : ℤ)) := by
  constructor
  · rintro rfl; rfl
  · intro hne
    have hsorted := List.pairwise_insertionSort (· ≤ ·) s
    have hperm := List.perm_insertionSort (· ≤ ·) s
    simp only [setstrInt]
    generalize hes : s.insertionSort (· ≤ ·) = es at *
    cases es with
    | nil => exact absurd (List.perm_nil.1 hperm.symm) hne
    | cons e es =>
      have hlt : (e :: es).Pairwise (· < ·) := by
        have hnd : (e :: es).Nodup := hperm.nodup_iff.2 hs
        exact (hsorted.and hnd).imp (fun ⟨h1, h2⟩ => lt_of_le_of_ne h1 h2)
      obtain ⟨rs, h1, h2, h3, h4⟩ := chunkLoop_spec es [] e 0 (List.pairwise_singleton _ _)
        (by simpa using hlt)
      refine ⟨rs, h3, ?_, h2, ?_⟩
      · rw [pairwise_eq, List.tail_cons]
        have e1 : run e 0 = [e] := by simp [run]
        have e2 : e + ((0 : ℕ) : ℤ) = e := by simp
        rw [e1, e2] at h1
        rw [List.map_nil] at h1
        simp only
        rw [h1, List.map_map]
        congr 2
        apply List.map_congr_left
        intro r _
        simp only [Function.comp]
        rcases r with ⟨a, k⟩
        match k with
        | 0 => simp [chunkText, mapstr, joinToks, run, runText]
        | 1 => simp [chunkText, mapstr, joinToks, run, runText, List.range_succ]
        | k + 2 =>
          have hr : (run a (k + 2)).map Tok.num
              = Tok.num a :: ((List.range (k + 1)).map fun i : ℕ => Tok.num (a + ((i + 1 : ℕ) : ℤ)))
                ++ [Tok.num (a + (k + 2 : ℕ))] := by
            rw [run, List.range_succ, List.range_succ_eq_map]
            simp [Function.comp_def]
          have hd : (Tok.num a :: ((List.range (k + 1)).map fun i : ℕ => Tok.num (a + ((i + 1 : ℕ) : ℤ)))
                ++ [Tok.num (a + (k + 2 : ℕ))]).drop (k + 3 - 1) = [Tok.num (a + (k + 2 : ℕ))] := by
            rw [List.drop_append_of_le_length (by simp)]
            rw [List.drop_eq_nil_of_le (by simp), List.nil_append]
          have hlen : (Tok.num a :: ((List.range (k + 1)).map fun i : ℕ => Tok.num (a + ((i + 1 : ℕ) : ℤ)))
                ++ [Tok.num (a + (k + 2 : ℕ))]).length = k + 3 := by simp
          have hm : mapstr Tok.dots 2 ((run a (k + 2)).map Tok.num)
              = [Tok.num a, Tok.dots, Tok.num (a + (k + 2 : ℕ))] := by
            simp only [mapstr, hr, hlen]
            rw [if_neg (by omega)]
            have h22 : 2 / 2 = 1 := rfl
            rw [h22, hd]
            rfl
          simp [chunkText, hm, joinToks, runText]
      · intro x
        have h5 : x ∈ s ↔ x ∈ e :: es := hperm.mem_iff.symm
        rw [h5]
        have h6 := h4 x
        simp only [mem_run] at h6
        rw [h6]
        simp only [List.nil_append, List.mem_cons, List.not_mem_nil, or_false, exists_eq_left]
        constructor
        · rintro (h | h)
          · left; subst h; simp
          · exact Or.inr h
        · rintro (h | h)
          · left; push_cast at h; omega
          · exact Or.inr h

/-- **C22.**  `mapstr` returns everything when the limit is not exceeded; otherwise at most `limit`
elements: a prefix, the ellipse, and a suffix. -/
theorem C22_mapstr {β : Type} (ellipse : β) (limit : ℕ) (l : List β) :
    (limit = 0 ∨ l.length ≤ limit → mapstr ellipse limit l = l) ∧
    (0 < limit → limit < l.length → ∃ pre mid post, l = pre ++ mid ++ post ∧ pre ≠ [] ∧
      pre.length + post.length ≤ limit ∧ limit ≤ pre.length + post.length + 1 ∧
      mapstr ellipse limit l = pre ++ ellipse :: post) := by
  constructor
  · intro h; simp only [mapstr]; rw [if_pos h]
  · intro h1 h2
    refine ⟨l.take (max (limit / 2) 1), (l.take (l.length - limit / 2)).drop (max (limit / 2) 1),
      l.drop (l.length - limit / 2), ?_, ?_, ?_, ?_, ?_⟩
    · have h3 : l.take (max (limit / 2) 1)
          = (l.take (l.length - limit / 2)).take (max (limit / 2) 1) := by
        rw [List.take_take, min_eq_left (by omega)]
      rw [h3, List.take_append_drop, List.take_append_drop]
    · intro hc
      have := congrArg List.length hc
      simp only [List.length_take, List.length_nil] at this
      omega
    · simp; omega
    · simp; omega
    · simp only [mapstr]; rw [if_neg (by omega)]

/-- **C22.**  `list2intset` of two bounds contains exactly the integers between them (both
included); any other number of bounds is rejected. -/
theorem C22_list2intset (bounds : List ℤ) :
    (bounds.length ≠ 2 → list2intset bounds = .error .valueError) ∧
    ∀ a b, bounds = [a, b] → ∃ r, list2intset bounds = .ok r ∧ r.Nodup ∧
      ∀ x, x ∈ r ↔ a ≤ x ∧ x ≤ b := by
  constructor
  · intro h
    unfold list2intset
    split
    · simp at h
    · rfl
  · rintro a b rfl
    refine ⟨_, rfl, ?_, ?_⟩
    · exact List.nodup_range.map (fun i j h => by simpa using h)
    · intro x
      simp only [List.mem_map, List.mem_range]
      constructor
      · rintro ⟨i, hi, rfl⟩; omega
      · intro h; exact ⟨(x - a).toNat, by omega, by omega⟩

example : setstrInt [5, 1, 2, 3, 9, 10] =
    .ok [.num 1, .inner, .dots, .inner, .num 3, .outer, .num 5, .outer, .num 9, .outer, .num 10] := by
  decide +kernel

/-! ## C26: the roulette wheel -/

/-- **C26.**  Construction fails with `ValueError` exactly if the lengths differ. -/
theorem C26_construct {β : Type} (elements : List β) (weights : List ℚ) (normalize : Bool) :
    (elements.length ≠ weights.length ↔ mkWheel elements weights normalize = .error .valueError) ∧
    (elements.length = weights.length → ∃ w, mkWheel elements weights normalize = .ok w) := by
  unfold mkWheel
  by_cases h : elements.length = weights.length
  · simp only [h, ne_eq, not_true_eq_false, if_false, false_iff]
    cases normalize
    · simp
    · simp only [if_true]
      split <;> simp
  · simp [h]

/-- **C26.**  `index(x)` succeeds exactly for `0 ≤ x ≤ total` (and at least one element), and then
returns a valid index; otherwise `IndexError`. -/
theorem C26_index_defined {β : Type} (elements : List β) (weights : List ℚ)
    (hlen : elements.length = weights.length) (h0 : ∀ w ∈ weights, 0 ≤ w) (x : ℚ) :
    ∃ w, mkWheel elements weights false = .ok w ∧
      (elements ≠ [] ∧ 0 ≤ x ∧ x ≤ weights.sum →
        ∃ i, i < elements.length ∧ w.index x = .ok (some i)) ∧
      (¬ (elements ≠ [] ∧ 0 ≤ x ∧ x ≤ weights.sum) → w.index x = .error .indexError) := by
  refine ⟨⟨some (cumsumFrom 0 weights), elements⟩, by simp [mkWheel, hlen], ?_, ?_⟩
  · rintro ⟨h1, h2, h3⟩
    have hne : weights ≠ [] := by
      intro h; rw [h] at hlen; exact h1 (List.length_eq_zero_iff.1 hlen)
    simp only [Wheel.index, cumsumFrom_last weights 0 hne, zero_add]
    rw [if_neg (not_not.2 ⟨h2, h3⟩)]
    cases hf : firstBound x (cumsumFrom 0 weights) with
    | some i =>
      have := (firstBound_spec x _ i).1 hf
      obtain ⟨⟨b, hb, _⟩, _⟩ := this
      have hi := (List.getElem?_eq_some_iff.1 hb).1
      rw [cumsumFrom_length] at hi
      exact ⟨i, by omega, rfl⟩
    | none =>
      exfalso
      have hall : ∀ l : List ℚ, firstBound x l = none → ∀ b ∈ l, b < x := by
        intro l
        induction l with
        | nil => simp
        | cons b l ih =>
          intro h c hc
          simp only [firstBound] at h
          split at h
          · exact absurd h (by simp)
          · rename_i hb
            rcases List.mem_cons.1 hc with rfl | hc
            · exact not_le.1 hb
            · exact ih (by simpa using h) c hc
      have := hall _ hf (0 + weights.sum)
        (List.mem_of_getLast? (cumsumFrom_last weights 0 hne))
      linarith
  · intro h
    cases hw : weights with
    | nil => rfl
    | cons a l =>
      rw [← hw]
      have hne : weights ≠ [] := by rw [hw]; simp
      simp only [Wheel.index, cumsumFrom_last weights 0 hne, zero_add]
      rw [if_pos]
      intro hc
      apply h
      refine ⟨?_, hc.1, hc.2⟩
      intro he
      rw [he] at hlen
      exact hne (List.length_eq_zero_iff.1 hlen.symm)

/-- **C26.**  Field `i` is selected exactly on the interval `(w₀+…+w_{i-1}, w₀+…+w_i]`, whose length
is the weight of `i`; only for the first field is the left end `0` included. -/
theorem C26_index_interval {β : Type} (elements : List β) (weights : List ℚ)
    (hlen : elements.length = weights.length) (h0 : ∀ w ∈ weights, 0 ≤ w) (x : ℚ) (i : ℕ) :
    ∃ w, mkWheel elements weights false = .ok w ∧
      (w.index x = .ok (some i) ↔
        i < weights.length ∧ x ≤ (weights.take (i + 1)).sum ∧
          ((weights.take i).sum < x ∨ (i = 0 ∧ x = 0))) := by
  refine ⟨⟨some (cumsumFrom 0 weights), elements⟩, by simp [mkWheel, hlen], ?_⟩
  by_cases hne : weights = []
  · subst hne; simp [Wheel.index, cumsumFrom]
  simp only [Wheel.index, cumsumFrom_last weights 0 hne, zero_add]
  by_cases hx : 0 ≤ x ∧ x ≤ weights.sum
  · rw [if_neg (not_not.2 hx)]
    simp only [Except.ok.injEq]
    rw [firstBound_spec]
    constructor
    · rintro ⟨⟨b, hb, hxb⟩, h2⟩
      have hi := (List.getElem?_eq_some_iff.1 hb).1
      rw [cumsumFrom_length] at hi
      rw [cumsumFrom_get _ _ _ hi] at hb
      simp only [Option.some.injEq, zero_add] at hb
      refine ⟨hi, by rw [hb]; exact hxb, ?_⟩
      cases i with
      | zero =>
        rcases lt_or_eq_of_le hx.1 with h | h
        · left; simpa using h
        · right; exact ⟨rfl, h.symm⟩
      | succ i =>
        left
        have := h2 i (by omega) _ (cumsumFrom_get weights 0 i (by omega))
        simpa using this
    · rintro ⟨hi, hxb, h2⟩
      refine ⟨⟨_, cumsumFrom_get weights 0 i hi, by simpa using hxb⟩, ?_⟩
      intro j hj b hb
      rw [cumsumFrom_get weights 0 j (by omega)] at hb
      simp only [Option.some.injEq, zero_add] at hb
      rcases h2 with h2 | ⟨h2, -⟩
      · rw [← hb]
        exact lt_of_le_of_lt (take_sum_mono h0 (by omega)) h2
      · omega
  · rw [if_pos hx]
    constructor
    · intro h; cases h
    · rintro ⟨hi, hxb, h2⟩
      exfalso
      apply hx
      have h3 : (weights.take (i + 1)).sum ≤ weights.sum := by
        have := take_sum_mono h0 (show i + 1 ≤ weights.length by omega)
        rwa [List.take_length] at this
      have h4 : 0 ≤ (weights.take i).sum :=
        sum_nonneg (fun v hv => h0 v (List.mem_of_mem_take hv))
      rcases h2 with h2 | ⟨_, h2⟩
      · exact ⟨by linarith, by linarith⟩
      · exact ⟨by linarith, by linarith⟩

/-- **C26.**  The interval of field `i` has the length of its weight. -/
theorem C26_interval_length (weights : List ℚ) (i : ℕ) (w : ℚ) (hi : weights[i]? = some w) :
    (weights.take (i + 1)).sum - (weights.take i).sum = w := by
  rw [List.take_add_one, hi, List.sum_append]
  simp

/-- **C26.**  With `normalize=True` the wheel behaves like the one with the weights divided by their
sum, and its total is one; if all weights are zero every lookup raises `IndexError`. -/
theorem C26_normalize {β : Type} (elements : List β) (weights : List ℚ)
    (hlen : elements.length = weights.length) :
    (weights.sum ≠ 0 →
      mkWheel elements weights true = mkWheel elements (weights.map (· / weights.sum)) false ∧
      (weights.map (· / weights.sum)).sum = 1) ∧
    (weights.sum = 0 → ∃ w, mkWheel elements weights true = .ok w ∧
      ∀ x, w.index x = .error .indexError) := by
  constructor
  · intro h
    refine ⟨by simp [mkWheel, hlen, h], by rw [sum_div, div_self h]⟩
  · intro h
    by_cases hne : weights = []
    · subst hne
      exact ⟨_, by simp [mkWheel, hlen]; rfl, fun x => rfl⟩
    · exact ⟨⟨none, elements⟩, by simp [mkWheel, hlen, h, hne], fun x => rfl⟩

/-- **C26.**  `wheel[x]` is the element at `index(x)`. -/
theorem C26_get {β : Type} (elements : List β) (weights : List ℚ)
    (hlen : elements.length = weights.length) (h0 : ∀ w ∈ weights, 0 ≤ w) (x : ℚ)
    (hne : elements ≠ []) (hx : 0 ≤ x ∧ x ≤ weights.sum) :
    ∃ w i, mkWheel elements weights false = .ok w ∧ w.index x = .ok (some i) ∧
      ∃ e, elements[i]? = some e ∧ w.get x = .ok e := by
  obtain ⟨w, h1, h2, -⟩ := C26_index_defined elements weights hlen h0 x
  obtain ⟨i, hi, h3⟩ := h2 ⟨hne, hx⟩
  have hw : w.elements = elements := by
    simp only [mkWheel, hlen] at h1
    simp at h1
    rw [← h1]
  refine ⟨w, i, h1, h3, elements[i], by simp, ?_⟩
  simp only [Wheel.get, h3, hw]
  rw [List.getElem?_eq_getElem hi]

/-- The draw `x = 0` selects the first field even if its weight is zero (probability zero for a
uniform draw). -/
theorem C26_zero_draw : ∃ w, mkWheel ["a", "b"] [0, 1] false = .ok w ∧ w.index 0 = .ok (some 0) := by
  obtain ⟨w, h1, h2⟩ := C26_index_interval ["a", "b"] [0, 1] rfl (by simp) 0 0
  exact ⟨w, h1, h2.2 ⟨by simp, by simp, Or.inr ⟨rfl, rfl⟩⟩⟩

example : ∃ w, mkWheel ["a", "b", "c"] [1, 2, 3] false = .ok w ∧ w.index (5 / 2) = .ok (some 1) := by
  obtain ⟨w, h1, h2⟩ := C26_index_interval ["a", "b", "c"] [1, 2, 3] rfl (by simp) (5 / 2) 1
  exact ⟨w, h1, h2.2 ⟨by simp, by norm_num, by norm_num⟩⟩

end Verif.Ut

/-! ## C21: `Heap` -/

namespace Verif.HQ

variable {K β : Type} [LinearOrder K] [Inhabited β]

/-- **C21.**  For every initial data, every key function, every non-zero increment and every history
of pushes and pops, all observable results are those of a stable priority queue: `pop` returns a
waiting item with the least key, the earliest pushed among those for a positive increment (the
latest for a negative one), and raises `IndexError` exactly when nothing is waiting. -/
theorem C21_history_partial (keyf : β → K) (inc : ℤ) (hinc : inc ≠ 0) (data : List β)
    (ops : List (Op β)) :
    ∃ waiting, SpecRun keyf (decide (0 < inc)) data ops waiting
        ((PQ.init keyf inc data).run keyf inc ops).2 ∧
      (((PQ.init keyf inc data).run keyf inc ops).1.data.map Entry.item).Perm waiting ∧
      ((PQ.init keyf inc data).run keyf inc ops).1.n = waiting.length := by
  obtain ⟨l, h1, h2⟩ := run_holds keyf inc hinc ops _ data (init_holds keyf inc hinc data)
  obtain ⟨es, e1, -, -, -, e5, -⟩ := h2
  refine ⟨l, h1, ?_, ?_⟩
  · rw [← e1]; exact e5.map _
  · have := e5.length_eq
    simp only [PQ.data, List.length_map, List.length_range'] at this
    rw [this, ← e1, List.length_map]

/-- **C21.**  The specification leaves no choice: every history has one outcome. -/
theorem C21_spec_deterministic (keyf : β → K) (fifo : Bool) {l l1 l2 : List β} {ops : List (Op β)}
    {r1 r2 : List (Except Err (Option β))} (h1 : SpecRun keyf fifo l ops l1 r1)
    (h2 : SpecRun keyf fifo l ops l2 r2) : l1 = l2 ∧ r1 = r2 := by
  induction h1 generalizing l2 r2 with
  | nil => cases h2; exact ⟨rfl, rfl⟩
  | cons a _ ih =>
    cases h2 with
    | cons b b' =>
      obtain ⟨rfl, rfl⟩ := specStep_det keyf fifo a b
      obtain ⟨rfl, rfl⟩ := ih b'
      exact ⟨rfl, rfl⟩

/-- **C21.**  After every history `heap[0]` is the item the next `pop` returns. -/
theorem C21_peek (keyf : β → K) (inc : ℤ) (hinc : inc ≠ 0) (data : List β) (ops : List (Op β)) :
    let s := ((PQ.init keyf inc data).run keyf inc ops).1
    s.get 0 = (s.pop).map Prod.fst := by
  intro s
  obtain ⟨l, -, h2⟩ := run_holds keyf inc hinc ops _ data (init_holds keyf inc hinc data)
  change Holds keyf inc s l at h2
  rcases pop_holds keyf inc hinc s l h2 with ⟨-, h3, h4⟩ | ⟨pre, x, post, s', -, h4, h5, h6, -⟩
  · rw [h4]; simp [PQ.get, pyIndex, h3, Except.map]
  · rw [h4]; simp [PQ.get, pyIndex, h5, h6, Except.map]

/-- **C21.**  `del heap[i]` removes exactly the entry listed at position `i` (negative positions
count from the end) and raises `IndexError` exactly for positions out of range. -/
theorem C21_delete_contents (s : PQ K β) (i : ℤ) :
    (∀ j : ℕ, j < s.n → (i = j ∨ i = (j : ℤ) - s.n) →
      ∃ s', s.delete i = .ok s' ∧ s'.data = s.data.eraseIdx j) ∧
    (¬ (- (s.n : ℤ) ≤ i ∧ i < s.n) → s.delete i = .error .indexError) := by
  constructor
  · intro j hj hij
    have hp : pyIndex s.n i = some j := by
      simp only [pyIndex]
      split_ifs <;> first | omega | (congr 1; omega)
    refine ⟨_, by simp only [PQ.delete, hp]; rfl, ?_⟩
    apply List.ext_getElem?
    intro k
    simp only [PQ.data, List.getElem?_map, List.getElem?_eraseIdx]
    by_cases hk : k < j
    · rw [if_pos hk, List.getElem?_range' (by omega), List.getElem?_range' (by omega)]
      simp [hk]
    · rw [if_neg hk]
      by_cases hk2 : k + 1 < s.n
      · rw [List.getElem?_range' (by omega), List.getElem?_range' (by omega)]
        simp [hk]
      · rw [List.getElem?_eq_none (by simp; omega), List.getElem?_eq_none (by simp; omega)]
        rfl
  · intro h
    have hp : pyIndex s.n i = none := by
      simp only [pyIndex]
      split_ifs <;> first | omega | rfl
    simp only [PQ.delete, hp]

/-- **C21.**  Deleting the last position keeps the queue intact. -/
theorem C21_delete_last_partial (keyf : β → K) (inc : ℤ) (s : PQ K β) (l : List β)
    (h : Holds keyf inc s l) (hn : s.n ≠ 0) :
    ∃ s' pre x post, s.delete (-1) = .ok s' ∧ l = pre ++ x :: post ∧
      s.get (-1) = .ok x ∧ Holds keyf inc s' (pre ++ post) := by
  obtain ⟨es, h1, h2, h3, h4, h5, h6⟩ := h
  rcases s with ⟨n, mem, index⟩
  obtain ⟨m, rfl⟩ : ∃ m, n = m + 1 := ⟨n - 1, by simp only at hn; omega⟩
  have hp : pyIndex (m + 1) (-1) = some m := by
    simp only [pyIndex]
    split_ifs <;> first | omega | (congr 1; omega)
  have hdata : (PQ.mk (m + 1) mem index).data = (List.range' 0 m).map mem ++ [mem m] := by
    simp only [PQ.data]
    rw [List.range'_1_concat, List.map_append]
    simp
  have hmem : mem m ∈ es := by
    apply h5.mem_iff.1
    rw [hdata]; simp
  obtain ⟨pre, post, hes⟩ := List.append_of_mem hmem
  have hrest : ((List.range' 0 m).map mem).Perm (pre ++ post) := by
    have h7 : (mem m :: (List.range' 0 m).map mem).Perm (mem m :: (pre ++ post)) := by
      refine (List.perm_append_singleton _ _).symm.trans ?_
      rw [← hdata]
      refine h5.trans ?_
      rw [hes]
      exact List.perm_middle
    exact List.Perm.cons_inv h7
  subst hes
  refine ⟨_, pre.map Entry.item, (mem m).item, post.map Entry.item, by simp only [PQ.delete, hp]; rfl,
    by rw [← h1]; simp, by simp only [PQ.get, hp], ?_⟩
  refine ⟨pre ++ post, by simp, ?_, h3.sublist (by simp), ?_, ?_, ?_⟩
  · intro e he
    apply h2 e
    simp only [List.mem_append, List.mem_cons] at he ⊢
    tauto
  · intro e he
    apply h4 e
    simp only [List.mem_append, List.mem_cons] at he ⊢
    tauto
  · refine List.Perm.trans ?_ hrest
    apply List.Perm.of_eq
    simp only [PQ.data, Nat.add_sub_cancel]
    apply List.map_congr_left
    intro k hk
    have := List.mem_range'_1.1 hk
    rw [if_pos (by omega)]
  · intro p _ c hc hcn
    simp only [Nat.add_sub_cancel] at hcn
    simp only [hcn, if_true, show p < m by omega]
    exact h6 p (by omega) c hc (by simp only; omega)

/-- **C21 fails for deletions by position**: after deleting position 0 of the heap over
`1, 5, 2, 6, 7`, `pop` returns 5 although 2 is waiting. -/
theorem C21_violated_delete :
    ∃ s' : PQ ℕ ℕ, (PQ.init id 1 [1, 5, 2, 6, 7]).delete 0 = .ok s' ∧
      s'.data.map Entry.item = [5, 2, 6, 7] ∧ (s'.pop).map Prod.fst = .ok 5 :=
  ⟨_, rfl, by decide +kernel, by decide +kernel⟩

example : ((PQ.init (fun p : ℕ × ℕ => p.1) 1 [(3, 0), (1, 1)]).run (fun p : ℕ × ℕ => p.1) 1
    [.push (1, 2), .pop, .pop, .pop, .pop]).2
    = [.ok none, .ok (some (1, 1)), .ok (some (1, 2)), .ok (some (3, 0)), .error .indexError] := by
  decide +kernel

end Verif.HQ
