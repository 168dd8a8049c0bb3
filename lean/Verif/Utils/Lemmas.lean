import Verif.Utils.Model
import Mathlib.Tactic.Ring
import Mathlib.Tactic.FieldSimp
import Mathlib.Tactic.Positivity
import Mathlib.Tactic.Linarith
import Mathlib.Algebra.Order.BigOperators.Group.List
import Mathlib.Algebra.BigOperators.Ring.List
import Mathlib.Data.List.MinMax

/-! # Lemmas on the utility functions -/

namespace Verif.Ut

/-! ## Sums -/

theorem sum_div (l : List ℚ) (z : ℚ) : (l.map (· / z)).sum = l.sum / z := by
  induction l with
  | nil => simp
  | cons a l ih => simp only [List.map_cons, List.sum_cons, ih]; ring

theorem sum_nonneg {l : List ℚ} (h : ∀ v ∈ l, 0 ≤ v) : 0 ≤ l.sum := List.sum_nonneg h

theorem sum_eq_zero_iff {l : List ℚ} (h : ∀ v ∈ l, 0 ≤ v) : l.sum = 0 ↔ ∀ v ∈ l, v = 0 := by
  induction l with
  | nil => simp
  | cons a l ih =>
    have h1 := h a List.mem_cons_self
    have h2 : ∀ v ∈ l, 0 ≤ v := fun v hv => h v (List.mem_cons_of_mem _ hv)
    have h3 := sum_nonneg h2
    rw [List.sum_cons, List.forall_mem_cons, ← ih h2]
    constructor
    · intro h4; exact ⟨by linarith, by linarith⟩
    · rintro ⟨h4, h5⟩; rw [h4, h5]; ring

/-! ## `min?` -/

theorem min?_spec {l : List ℚ} {m : ℚ} : l.min? = some m ↔ m ∈ l ∧ ∀ v ∈ l, m ≤ v := by
  rw [List.min?_eq_some_iff]

theorem min?_isSome {l : List ℚ} (h : l ≠ []) : ∃ m, l.min? = some m := by
  cases hm : l.min? with
  | none => exact absurd (List.min?_eq_none_iff.1 hm) h
  | some m => exact ⟨m, rfl⟩

/-- One round of the loop that ends it. -/
theorem normLoop_done (idz : Bool) (zeros : ℚ) (signs : List ℚ) (fuel : ℕ) (vs : List ℚ)
    (hz : vs.sum ≠ 0) (h0 : zeros = 0 ∨ ∀ v ∈ vs, v ≠ 0) :
    normLoop idz zeros signs (fuel + 1) vs =
      .ok (some (List.zipWith (· * ·) (vs.map (· / vs.sum)) signs)) := by
  simp only [normLoop]
  rw [if_neg hz, if_neg]
  rintro ⟨h1, h2⟩
  rcases h0 with h0 | h0
  · exact h1 h0
  · have := (min?_spec.1 h2).1
    obtain ⟨v, hv, hv'⟩ := List.mem_map.1 this
    rcases div_eq_zero_iff.1 hv' with h | h
    · exact h0 v hv h
    · exact hz h

/-- The zero entries of `w` replaced by `e`. -/
def fillZeros (e : ℚ) (w : List ℚ) : List ℚ := w.map (fun v => if v = 0 then e else v)

theorem normLoop_zeros (idz : Bool) (zeros : ℚ) (signs : List ℚ) (vs : List ℚ)
    (hzeros : 0 < zeros) (hpos : ∀ v ∈ vs, 0 ≤ v) (hne : ∃ v ∈ vs, v ≠ 0) :
    ∃ m, (m ∈ vs ∧ 0 < m ∧ ∀ v ∈ vs, v ≠ 0 → m ≤ v) ∧
      normLoop idz zeros signs 2 vs = .ok (some (List.zipWith (· * ·)
        ((fillZeros (m * zeros) vs).map (· / (fillZeros (m * zeros) vs).sum)) signs)) := by
  have hz : vs.sum ≠ 0 := by
    rw [Ne, sum_eq_zero_iff hpos]
    intro h
    obtain ⟨v, hv, hv'⟩ := hne
    exact hv' (h v hv)
  have hzp : 0 < vs.sum := lt_of_le_of_ne (sum_nonneg hpos) (Ne.symm hz)
  -- the least non-zero value
  obtain ⟨m, hm⟩ : ∃ m, (vs.filter (fun v => decide (0 < v))).min? = some m := by
    apply min?_isSome
    obtain ⟨v, hv, hv'⟩ := hne
    intro hc
    have : v ∈ vs.filter (fun v => decide (0 < v)) :=
      List.mem_filter.2 ⟨hv, decide_eq_true (lt_of_le_of_ne (hpos v hv) (Ne.symm hv'))⟩
    rw [hc] at this; exact absurd this List.not_mem_nil
  obtain ⟨hm1, hm2⟩ := min?_spec.1 hm
  obtain ⟨hm3, hm4⟩ := List.mem_filter.1 hm1
  have hm4 : 0 < m := of_decide_eq_true hm4
  have hm5 : ∀ v ∈ vs, v ≠ 0 → m ≤ v := fun v hv hv' =>
    hm2 v (List.mem_filter.2 ⟨hv, decide_eq_true (lt_of_le_of_ne (hpos v hv) (Ne.symm hv'))⟩)
  refine ⟨m, ⟨hm3, hm4, hm5⟩, ?_⟩
  by_cases h0 : ∃ v ∈ vs, v = 0
  · -- two rounds
    have hmin : (vs.map (· / vs.sum)).min? = some 0 := by
      rw [min?_spec]
      obtain ⟨v, hv, rfl⟩ := h0
      refine ⟨List.mem_map.2 ⟨0, hv, by simp⟩, fun v hv => ?_⟩
      obtain ⟨u, hu, rfl⟩ := List.mem_map.1 hv
      exact div_nonneg (hpos u hu) (le_of_lt hzp)
    have hmin2 : ((vs.map (· / vs.sum)).filter (fun v => decide (0 < v))).min?
        = some (m / vs.sum) := by
      rw [min?_spec]
      refine ⟨List.mem_filter.2 ⟨List.mem_map.2 ⟨m, hm3, rfl⟩, decide_eq_true (div_pos hm4 hzp)⟩, ?_⟩
      intro v hv
      obtain ⟨hv1, hv2⟩ := List.mem_filter.1 hv
      obtain ⟨u, hu, rfl⟩ := List.mem_map.1 hv1
      have hv2 := of_decide_eq_true hv2
      have : u ≠ 0 := fun h => by rw [h] at hv2; simp at hv2
      exact div_le_div_of_nonneg_right (hm5 u hu this) (le_of_lt hzp)
    have hfill : (vs.map (· / vs.sum)).map (fun v => if v = 0 then m / vs.sum * zeros else v)
        = (fillZeros (m * zeros) vs).map (· / vs.sum) := by
      simp only [fillZeros, List.map_map]
      apply List.map_congr_left
      intro v _
      simp only [Function.comp]
      by_cases hv : v = 0
      · rw [if_pos hv, if_pos (by rw [hv]; simp)]; ring
      · rw [if_neg hv, if_neg]
        intro h
        rcases div_eq_zero_iff.1 h with h | h
        · exact hv h
        · exact hz h
    have hfp : ∀ v ∈ fillZeros (m * zeros) vs, 0 < v := by
      intro v hv
      obtain ⟨u, hu, rfl⟩ := List.mem_map.1 hv
      split_ifs with c
      · exact mul_pos hm4 hzeros
      · exact lt_of_le_of_ne (hpos u hu) (Ne.symm c)
    have hfs : (fillZeros (m * zeros) vs).sum ≠ 0 := by
      rw [Ne, sum_eq_zero_iff (fun v hv => le_of_lt (hfp v hv))]
      intro hc
      have hmem : m ∈ fillZeros (m * zeros) vs :=
        List.mem_map.2 ⟨m, hm3, by rw [if_neg (ne_of_gt hm4)]⟩
      exact (ne_of_gt hm4) (hc m hmem)
    have hstep : normLoop idz zeros signs 2 vs
        = normLoop idz zeros signs 1 ((fillZeros (m * zeros) vs).map (· / vs.sum)) := by
      rw [show (2 : ℕ) = 1 + 1 from rfl, normLoop.eq_2]
      simp only
      rw [if_neg hz, if_pos ⟨ne_of_gt hzeros, hmin⟩, hmin2]
      simp only [hfill]
    rw [hstep, normLoop_done]
    · rw [sum_div, List.map_map]
      congr 3
      apply List.map_congr_left
      intro v _
      simp only [Function.comp]
      field_simp
    · rw [sum_div]
      exact div_ne_zero hfs hz
    · right
      intro v hv
      obtain ⟨u, hu, rfl⟩ := List.mem_map.1 hv
      exact div_ne_zero (ne_of_gt (hfp u hu)) hz
  · have h0' : ∀ v ∈ vs, v ≠ 0 := fun v hv hv' => h0 ⟨v, hv, hv'⟩
    have hfill : fillZeros (m * zeros) vs = vs := by
      unfold fillZeros
      conv_rhs => rw [← List.map_id vs]
      apply List.map_congr_left
      intro v hv
      rw [if_neg (h0' v hv), id]
    rw [hfill]
    exact normLoop_done idz zeros signs 1 vs hz (Or.inr h0')

theorem zip_sign_abs (f : ℚ → ℚ) (w : List ℚ) :
    List.zipWith (· * ·) (w.map f) (w.map sign1) = w.map (fun v => f v * sign1 v) := by
  induction w with
  | nil => rfl
  | cons a l ih => simp [ih]

theorem abs_mul_sign1 (v : ℚ) : |v| * sign1 v = v := by
  unfold sign1
  split_ifs with h
  · rw [abs_of_neg h]; ring
  · rw [abs_of_nonneg (not_lt.1 h)]; ring

/-! ## `pairwise` -/

theorem pairwiseLoop_some {β : Type} : ∀ (l : List β) (p : β),
    pairwiseLoop (some p) l = (p :: l).zip l
  | [], _ => rfl
  | e :: l, p => by
    simp only [pairwiseLoop, List.zip_cons_cons]
    rw [pairwiseLoop_some l e]

theorem pairwise_eq {β : Type} (l : List β) : pairwise l = l.zip l.tail := by
  cases l with
  | nil => rfl
  | cons e l => simp only [pairwise, pairwiseLoop, List.tail_cons]; exact pairwiseLoop_some l e

/-! ## Chunks -/

/-- The integers `a, …, a + k`. -/
def run (a : ℤ) (k : ℕ) : List ℤ := (List.range (k + 1)).map fun i : ℕ => a + (i : ℤ)

theorem run_snoc (a : ℤ) (k : ℕ) : run a k ++ [a + (k + 1 : ℕ)] = run a (k + 1) := by
  unfold run
  rw [List.range_succ (n := k + 1), List.map_append]
  rfl

theorem mem_run {a x : ℤ} {k : ℕ} : x ∈ run a k ↔ a ≤ x ∧ x ≤ a + k := by
  simp only [run, List.mem_map, List.mem_range]
  constructor
  · rintro ⟨i, hi, rfl⟩; omega
  · intro h; exact ⟨(x - a).toNat, by omega, by omega⟩

/-- Runs `(a, k)` in ascending order with a gap of at least one missing integer in between. -/
def Gaps : List (ℤ × ℕ) → Prop := List.Pairwise (fun r s => r.1 + r.2 + 1 < s.1)

theorem chunkLoop_spec : ∀ (es : List ℤ) (done : List (ℤ × ℕ)) (a : ℤ) (k : ℕ),
    Gaps (done ++ [(a, k)]) → ((a + k) :: es).Pairwise (· < ·) →
    ∃ rs : List (ℤ × ℕ),
      chunkLoop (done.map fun r => run r.1 r.2) (run a k) (((a + k) :: es).zip es)
        = rs.map (fun r => run r.1 r.2) ∧ Gaps rs ∧ rs ≠ [] ∧
      (∀ x, (∃ r ∈ rs, x ∈ run r.1 r.2) ↔ (∃ r ∈ done ++ [(a, k)], x ∈ run r.1 r.2) ∨ x ∈ es)
  | [], done, a, k, hg, hp =>
    ⟨done ++ [(a, k)], by simp [chunkLoop], hg, by simp, by simp⟩
  | e :: es, done, a, k, hg, hp => by
    have hae : a + k < e := (List.pairwise_cons.1 hp).1 e List.mem_cons_self
    have hp' := (List.pairwise_cons.1 hp).2
    simp only [List.zip_cons_cons, chunkLoop]
    split
    · rename_i he
      have he' : e = a + (k + 1 : ℕ) := by push_cast; omega
      have hg' : Gaps (done ++ [(a, k + 1)]) := by
        unfold Gaps at hg ⊢
        rw [List.pairwise_append] at hg ⊢
        refine ⟨hg.1, List.pairwise_singleton _ _, fun r hr s hs => ?_⟩
        have := hg.2.2 r hr (a, k) (by simp)
        rw [List.mem_singleton.1 hs]; exact this
      obtain ⟨rs, h1, h2, h3, h4⟩ := chunkLoop_spec es done a (k + 1) hg' (by rw [← he']; exact hp')
      refine ⟨rs, ?_, h2, h3, ?_⟩
      · rw [← h1, ← run_snoc, ← he']
      · intro x
        rw [h4 x]
        simp only [List.mem_append, List.mem_cons, List.not_mem_nil, or_false]
        constructor
        · rintro (⟨r, hr | hr, hx⟩ | hx)
          · exact Or.inl ⟨r, Or.inl hr, hx⟩
          · subst hr
            rw [mem_run] at hx
            rcases lt_or_eq_of_le hx.2 with h | h
            · left; exact ⟨_, Or.inr rfl, mem_run.2 ⟨hx.1, by push_cast at h; omega⟩⟩
            · right; left; rw [he']; exact h
          · exact Or.inr (Or.inr hx)
        · rintro (⟨r, hr | hr, hx⟩ | hx | hx)
          · exact Or.inl ⟨r, Or.inl hr, hx⟩
          · subst hr
            rw [mem_run] at hx
            left; exact ⟨_, Or.inr rfl, mem_run.2 ⟨hx.1, by push_cast; omega⟩⟩
          · left; exact ⟨_, Or.inr rfl, mem_run.2 ⟨by omega, by push_cast at *; omega⟩⟩
          · exact Or.inr hx
    · rename_i he
      have hg' : Gaps ((done ++ [(a, k)]) ++ [(e, 0)]) := by
        unfold Gaps at hg ⊢
        rw [List.pairwise_append]
        refine ⟨hg, List.pairwise_singleton _ _, fun r hr s hs => ?_⟩
        rw [List.mem_singleton.1 hs]
        rcases List.mem_append.1 hr with hr | hr
        · have := (List.pairwise_append.1 hg).2.2 r hr (a, k) (by simp)
          dsimp only at this ⊢; omega
        · rw [List.mem_singleton.1 hr]
          dsimp only; omega
      obtain ⟨rs, h1, h2, h3, h4⟩ := chunkLoop_spec es (done ++ [(a, k)]) e 0 hg' (by simpa using hp')
      refine ⟨rs, ?_, h2, h3, ?_⟩
      · rw [← h1]
        simp [run]
      · intro x
        rw [h4 x]
        simp only [List.mem_append, List.mem_cons, List.not_mem_nil, or_false]
        constructor
        · rintro (⟨r, hr | hr, hx⟩ | hx)
          · exact Or.inl ⟨r, hr, hx⟩
          · subst hr
            rw [mem_run] at hx
            right; left; dsimp only at hx; push_cast at hx; omega
          · exact Or.inr (Or.inr hx)
        · rintro (⟨r, hr, hx⟩ | hx | hx)
          · exact Or.inl ⟨r, Or.inl hr, hx⟩
          · left; exact ⟨_, Or.inr rfl, mem_run.2 ⟨by omega, by push_cast; omega⟩⟩
          · exact Or.inr hx

/-! ## Cumulative sums -/

theorem cumsumFrom_length : ∀ (l : List ℚ) (acc : ℚ), (cumsumFrom acc l).length = l.length
  | [], _ => rfl
  | w :: l, acc => by simp [cumsumFrom, cumsumFrom_length l]

theorem cumsumFrom_get : ∀ (l : List ℚ) (acc : ℚ) (i : ℕ), i < l.length →
    (cumsumFrom acc l)[i]? = some (acc + (l.take (i + 1)).sum)
  | [], _, i, h => by simp at h
  | w :: l, acc, 0, _ => by simp [cumsumFrom]
  | w :: l, acc, i + 1, h => by
    have := cumsumFrom_get l (acc + w) i (by simpa using h)
    simp only [cumsumFrom, List.getElem?_cons_succ, this, List.take_succ_cons, List.sum_cons]
    congr 1; ring

theorem cumsumFrom_last (l : List ℚ) (acc : ℚ) (h : l ≠ []) :
    (cumsumFrom acc l).getLast? = some (acc + l.sum) := by
  have hlen : 0 < l.length := List.length_pos_iff.2 h
  rw [List.getLast?_eq_getElem?, cumsumFrom_length, cumsumFrom_get _ _ _ (by omega)]
  have : l.length - 1 + 1 = l.length := by omega
  rw [this, List.take_length]

theorem firstBound_spec (x : ℚ) : ∀ (l : List ℚ) (i : ℕ),
    firstBound x l = some i ↔ (∃ b, l[i]? = some b ∧ x ≤ b) ∧
      ∀ j, j < i → ∀ b, l[j]? = some b → b < x
  | [], i => by simp [firstBound]
  | b :: l, i => by
    simp only [firstBound]
    split
    · rename_i h
      cases i with
      | zero => simp [h]
      | succ i =>
        simp only [Option.some.injEq, Nat.zero_ne_add_one, false_iff, not_and]
        intro _ hc
        exact absurd (hc 0 (by omega) b (by simp)) (not_lt.2 h)
    · rename_i h
      cases i with
      | zero => simp [h]
      | succ i =>
        simp only [Option.map_eq_some_iff, Nat.add_right_cancel_iff, exists_eq_right,
          List.getElem?_cons_succ]
        rw [firstBound_spec x l i]
        constructor
        · rintro ⟨h1, h2⟩
          refine ⟨h1, fun j hj c hc => ?_⟩
          cases j with
          | zero => simp at hc; rw [← hc]; exact not_le.1 h
          | succ j => exact h2 j (by omega) c (by simpa using hc)
        · rintro ⟨h1, h2⟩
          exact ⟨h1, fun j hj c hc => h2 (j + 1) (by omega) c (by simpa using hc)⟩

theorem take_sum_mono {l : List ℚ} (h : ∀ w ∈ l, 0 ≤ w) {i j : ℕ} (hij : i ≤ j) :
    (l.take i).sum ≤ (l.take j).sum := by
  obtain ⟨d, rfl⟩ : ∃ d, j = i + d := ⟨j - i, by omega⟩
  rw [List.take_add, List.sum_append]
  have : 0 ≤ ((l.drop i).take d).sum :=
    sum_nonneg (fun v hv => h v (List.mem_of_mem_drop (List.mem_of_mem_take hv)))
  linarith

end Verif.Ut
