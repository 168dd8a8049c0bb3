import Verif.Numeric.MergeLemmas3
import Mathlib.Algebra.Order.BigOperators.Group.List

/-! # Merging cdfs: the result -/

namespace Verif.Num

open Iv Iv.FP Fun

theorem climb_mono {val : ℤ → ℚ} (hval : StrictMono val) {s : CS × Fn}
    (h : (∃ v, s.2 = .const v) ∨
      ∃ m c a b, s.2 = .lin m c ∧ 0 < m ∧ s.1.lower = fin a ∧ s.1.upper = fin b ∧ a < b)
    {n n' : ℤ} (hn : n ≤ n') : climb val n s ≤ climb val n' s := by
  rcases h with ⟨v, h⟩ | ⟨m, c, a, b, e1, e2, e3, e4, e5⟩
  · simp [climb, h]
  · simp only [climb, e1, e3, e4]
    rcases lt_or_ge n a with h1 | h1
    · rw [if_pos h1]
      split
      · exact le_rfl
      · have : val a ≤ val (min n' b) := hval.monotone (by omega)
        exact mul_nonneg e2.le (by linarith)
    · rw [if_neg (not_lt.2 h1), if_neg (by omega)]
      have : val (min n b) ≤ val (min n' b) := hval.monotone (by omega)
      exact mul_le_mul_of_nonneg_left (by linarith) e2.le

theorem sum_le_sum' {α : Type} {f g : α → ℚ} : ∀ {l : List α}, (∀ x ∈ l, f x ≤ g x) → (l.map f).sum ≤ (l.map g).sum
  | [], _ => by simp
  | a :: r, h => by
    simp only [List.map_cons, List.sum_cons]
    exact add_le_add (h a (by simp)) (sum_le_sum' fun x hx => h x (by simp [hx]))

theorem mass_mono {val : ℤ → ℚ} (hval : StrictMono val) {p : PF} (h : Mergeable p) {n n' : ℤ} (hn : n ≤ n') :
    mass val p n ≤ mass val p n' := by
  rw [mass_eq h, mass_eq h]
  refine add_le_add (sum_le_sum' fun s hs => climb_mono hval (h.pieces s hs) hn) ?_
  match p with
  | [] => simp [stepAt]
  | [s] => simp [stepAt]
  | [s, t] =>
    obtain ⟨⟨k, hk⟩, -⟩ := h.step s t rfl
    simp only [stepAt, hk]
    split_ifs <;> first | omega | norm_num
  | s :: t :: r :: q => simp [stepAt]

theorem mixture_mono {val : ℤ → ℚ} (hval : StrictMono val) {dw : List (PF × ℚ)}
    (hm : ∀ d ∈ dw, Mergeable d.1 ∧ 0 ≤ d.2) {n n' : ℤ} (hn : n ≤ n') :
    mixture val dw n ≤ mixture val dw n' :=
  sum_le_sum' fun d hd => mul_le_mul_of_nonneg_left (mass_mono hval (hm d hd).1 hn) (hm d hd).2

/-- A sum of terms that are 0 or beyond the tolerance. -/
theorem sum_gap {α : Type} {f : α → ℚ} : ∀ {l : List α}, (∀ x ∈ l, f x = 0 ∨ tol < f x) →
    (l.map f).sum = 0 ∨ tol < (l.map f).sum
  | [], _ => by simp
  | a :: r, h => by
    have htol : (0 : ℚ) < tol := by norm_num [tol]
    simp only [List.map_cons, List.sum_cons]
    rcases h a (by simp) with h1 | h1 <;> rcases sum_gap (l := r) (fun x hx => h x (by simp [hx])) with h2 | h2
    · left; rw [h1, h2, add_zero]
    · right; rw [h1, zero_add]; exact h2
    · right; rw [h2, add_zero]; exact h1
    · right; linarith

theorem active_eq {dw : List (PF × ℚ)} (n : ℤ) :
    active (lowerOf dw) (upperOf dw) n =
      ((slopes dw).map (fun s => (loE s).act n - (upE s).act n)).sum := by
  rw [active, lowerOf_eq, upperOf_eq, sorted_sum, sorted_sum, List.map_append, List.sum_append, List.map_map,
    List.map_map, List.map_map, add_sub_right_comm, sum_map_sub]
  have : (((jumpsOf dw).filter (fun j => j.2 > 0)).map (Entry.act n ∘ juE)).sum = 0 := by
    have : ∀ l : List (FP × ℚ), (l.map (Entry.act n ∘ juE)).sum = 0 := by
      intro l
      induction l with
      | nil => rfl
      | cons a r ih =>
        rw [List.map_cons, List.sum_cons, ih]
        have h0 : (Entry.act n ∘ juE) a = 0 := by
          show (if _ then (juE a).slope else 0) = (0 : ℚ)
          have : (juE a).slope = 0 := rfl
          rw [this, ite_self]
        rw [h0, add_zero]
    exact this _
  rw [this, add_zero]
  rfl

theorem act_term {s : CS × Fn × ℚ} (h : IsPiece s) (n : ℤ) :
    (loE s).act n - (upE s).act n = if (loE s).at' ≤ n ∧ n < (upE s).at' then (loE s).slope else 0 := by
  have h1 := h.ord
  have h2 := h.slope.1
  simp only [Entry.act, h2]
  split_ifs <;> first | omega | simp

theorem exists_max {l : List Entry} (h : l ≠ []) : ∃ e ∈ l, ∀ x ∈ l, x.at' ≤ e.at' := by
  induction l with
  | nil => exact absurd rfl h
  | cons a r ih =>
    by_cases hr : r = []
    · subst hr; exact ⟨a, by simp, by simp⟩
    · obtain ⟨e, he, hmax⟩ := ih hr
      rcases le_total a.at' e.at' with h1 | h1
      · refine ⟨e, by simp [he], fun x hx => ?_⟩
        rcases List.mem_cons.1 hx with rfl | hx
        · exact h1
        · exact hmax x hx
      · refine ⟨a, by simp, fun x hx => ?_⟩
        rcases List.mem_cons.1 hx with rfl | hx
        · exact le_rfl
        · exact (hmax x hx).trans h1

/-- The merged cdf: the mixture until all of it has risen, then 1; its slope is the one of the mixture. -/
theorem mergeWeighted_slope {val : ℤ → ℚ} (hval : StrictMono val) {rnd : ℚ → ℤ} {dw : List (PF × ℚ)}
    (hm : ∀ d ∈ dw, Mergeable d.1 ∧ 0 ≤ d.2)
    (hsl : ∀ d ∈ dw, 0 < d.2 → ∀ s ∈ d.1, ∀ m c, s.2 = .lin m c → tol < d.2 * m)
    (hpos : ∃ n, 0 < mixture val dw n) :
    ∃ (l : List (ℤ × Fn)) (z : ℤ),
      mergeWeighted val rnd dw = .ok (tile ninf (.const 0) (l ++ [(z, .const 1)]) pinf) ∧
      Knots (l ++ [(z, .const 1)]) ∧ (∀ s ∈ l, IsPl s.2) ∧
      (∀ n, n < z → ev (tileAt (.const 0) l n) (val n) = mixture val dw n ∧
        mixture val dw n < mixture val dw z) ∧
      (∀ n, z ≤ n → mixture val dw n = mixture val dw z) ∧
      (∀ n, n < z → (coeffs (tileAt (.const 0) l n)).1 = active (lowerOf dw) (upperOf dw) n) ∧
      (∀ n, z ≤ n → active (lowerOf dw) (upperOf dw) n = 0) := by
  have htol : (0 : ℚ) < tol := by norm_num [tol]
  have hp := slopes_piece (fun d hd => (hm d hd).1) hsl
  have hj := jumps_inv hm (js := []) (by simp)
  rw [← jumpsOf_eq] at hj
  have hlow : ∀ e, e ∈ lowerOf dw ↔ (∃ s ∈ slopes dw, e = loE s) ∨
      ∃ j ∈ jumpsOf dw, 0 < j.2 ∧ e = juE j := by
    intro e
    rw [lowerOf_eq, (sortEntries_perm _).mem_iff]
    simp only [List.mem_append, List.mem_map, List.mem_filter, decide_eq_true_eq]
    constructor
    · rintro (⟨s, h, rfl⟩ | ⟨j, ⟨h, h'⟩, rfl⟩)
      · exact .inl ⟨s, h, rfl⟩
      · exact .inr ⟨j, h, h', rfl⟩
    · rintro (⟨s, h, rfl⟩ | ⟨j, h, h', rfl⟩)
      · exact .inl ⟨s, h, rfl⟩
      · exact .inr ⟨j, ⟨h, h'⟩, rfl⟩
  have hupp : ∀ e, e ∈ upperOf dw ↔ ∃ s ∈ slopes dw, e = upE s := by
    intro e
    rw [upperOf_eq, (sortEntries_perm _).mem_iff]
    simp only [List.mem_map]
    exact ⟨fun ⟨s, h, e⟩ => ⟨s, h, e.symm⟩, fun ⟨s, h, e⟩ => ⟨s, h, e.symm⟩⟩
  have hgl : ∀ e ∈ lowerOf dw, e.Good := by
    intro e he
    rcases (hlow e).1 he with ⟨s, hs, rfl⟩ | ⟨j, hjm, hw, rfl⟩
    · exact .inl (hp s hs).lo
    · exact .inr ⟨(hj j hjm).1, hw, rfl⟩
  have hgu : ∀ e ∈ upperOf dw, e.Slope := by
    intro e he
    obtain ⟨s, hs, rfl⟩ := (hupp e).1 he
    exact (hp s hs).up
  have hsl' : Sorted (lowerOf dw) := by
    rw [lowerOf_eq]
    refine sortEntries_sorted fun e he => hgl e ?_
    rw [lowerOf_eq]; exact (sortEntries_perm _).mem_iff.2 he
  have hsu' : Sorted (upperOf dw) := by
    rw [upperOf_eq]
    refine sortEntries_sorted fun e he => .inl (hgu e ?_)
    rw [upperOf_eq]; exact (sortEntries_perm _).mem_iff.2 he
  have hact : ∀ n, 0 + active (lowerOf dw) (upperOf dw) n = 0 ∨ tol < 0 + active (lowerOf dw) (upperOf dw) n := by
    intro n
    rw [zero_add, active_eq]
    refine sum_gap fun s hs => ?_
    rw [act_term (hp s hs)]
    split
    · exact .inr (hp s hs).slope.2
    · exact .inl rfl
  have htot := total_mixture (val := val) hm hp
  have hslopes : 0 + ((lowerOf dw).map Entry.slope).sum - ((upperOf dw).map Entry.slope).sum = 0 := by
    rw [lowerOf_eq, upperOf_eq, sorted_sum, sorted_sum, List.map_append, List.sum_append, List.map_map,
      List.map_map, List.map_map, zero_add, add_sub_right_comm, sum_map_sub]
    have h1 : ∀ l : List (FP × ℚ), (l.map (Entry.slope ∘ juE)).sum = 0 := by
      intro l
      induction l with
      | nil => rfl
      | cons a r ih => rw [List.map_cons, List.sum_cons, ih]; simp [juE, Entry.slope]
    have h2 : ((slopes dw).map (fun s => (Entry.slope ∘ loE) s - (Entry.slope ∘ upE) s)).sum = 0 := by
      have : ∀ l : List (CS × Fn × ℚ), (∀ s ∈ l, IsPiece s) →
          (l.map (fun s => (Entry.slope ∘ loE) s - (Entry.slope ∘ upE) s)).sum = 0 := by
        intro l
        induction l with
        | nil => intro _; rfl
        | cons a r ih =>
          intro h
          rw [List.map_cons, List.sum_cons, ih (fun s hs => h s (by simp [hs]))]
          simp [(h a (by simp)).slope.1]
      exact this _ hp
    rw [h1, h2, add_zero]
  have hne : lowerOf dw ++ upperOf dw ≠ [] := by
    intro h
    obtain ⟨h1, h2⟩ := List.append_eq_nil_iff.1 h
    obtain ⟨n, hn⟩ := hpos
    rw [← htot n, h1, h2] at hn
    simp [total] at hn
  obtain ⟨l', u', r1, r2, r3, r4, r5, r6, r7, r8, r9⟩ := sweep_tile hval ((lowerOf dw).length + (upperOf dw).length)
    (lowerOf dw) (upperOf dw) 0 0 [] pinf le_rfl hgl hgu hsl' hsu' (by simp [Knots]) (by simp) (by simp) rfl trivial
    le_rfl (.inl ⟨rfl, rfl⟩) hact
  obtain ⟨e, he, hmax⟩ := exists_max hne
  have hcase : 0 < 0 + active (lowerOf dw) (upperOf dw) (e.at' - 1) ∨
      ∃ j ∈ lowerOf dw, j.at' = e.at' ∧ 0 < j.jump := by
    rcases List.mem_append.1 he with h | h
    · rcases (hlow e).1 h with ⟨s, hs, rfl⟩ | ⟨j, hjm, hw, rfl⟩
      · have h1 := hmax (upE s) (List.mem_append.2 (.inr ((hupp _).2 ⟨s, hs, rfl⟩)))
        have := (hp s hs).ord
        omega
      · right
        exact ⟨juE j, h, rfl, by simpa [juE, Entry.jump] using hw⟩
    · left
      obtain ⟨s, hs, rfl⟩ := (hupp e).1 h
      rcases hact ((upE s).at' - 1) with h0 | h0
      · exfalso
        rw [zero_add, active_eq] at h0
        have hpos' : ∀ (l : List (CS × Fn × ℚ)), (∀ t ∈ l, IsPiece t) → s ∈ l →
            0 < (l.map (fun t => (loE t).act ((upE s).at' - 1) - (upE t).act ((upE s).at' - 1))).sum := by
          intro l
          have hnn : ∀ t, IsPiece t → 0 ≤ (loE t).act ((upE s).at' - 1) - (upE t).act ((upE s).at' - 1) := by
            intro t ht
            rw [act_term ht]
            split
            · exact (htol.trans ht.slope.2).le
            · exact le_rfl
          induction l with
          | nil => simp
          | cons a r ih =>
            intro hl hs'
            rw [List.map_cons, List.sum_cons]
            have hr : 0 ≤ (r.map (fun t => (loE t).act ((upE s).at' - 1) - (upE t).act ((upE s).at' - 1))).sum := by
              apply List.sum_nonneg
              intro x hx
              obtain ⟨t, ht, rfl⟩ := List.mem_map.1 hx
              exact hnn t (hl t (by simp [ht]))
            rcases List.mem_cons.1 hs' with rfl | hs'
            · have ht := hl s (by simp)
              refine add_pos_of_pos_of_nonneg ?_ hr
              rw [act_term ht, if_pos ⟨by have := ht.ord; omega, by omega⟩]
              exact htol.trans ht.slope.2
            · exact add_pos_of_nonneg_of_pos (hnn a (hl a (by simp))) (ih (fun t ht => hl t (by simp [ht])) hs')
        exact absurd h0 (hpos' _ hp hs).ne'
      · exact htol.trans h0
  obtain ⟨hu', hl'⟩ := r8 e.at' hne hmax hcase hslopes
  rw [List.nil_append] at r1 r2 r5 r7 r9
  rw [hslopes] at r7
  subst hu'
  obtain ⟨l, z, rfl⟩ : ∃ l z, l' = l ++ [z] := ⟨l'.dropLast, l'.getLast hl', (List.dropLast_append_getLast hl').symm⟩
  obtain ⟨z, g⟩ := z
  rw [lastOf_append] at r7
  have hg := r4 (z, g) (by simp)
  obtain ⟨v, rfl⟩ : ∃ v, g = .const v := by
    cases g with
    | const v => exact ⟨v, rfl⟩
    | lin m c => simp only [coeffs] at r7; simp only [IsPl] at hg; exact absurd r7 hg.ne'
    | undef => cases hg
    | quad a b c => cases hg
  have hk1 : Knots (l ++ [(z, .const 1)]) := by
    obtain ⟨p1, p2, p3⟩ := List.pairwise_append.1 r2
    refine List.pairwise_append.2 ⟨p1, by simp, ?_⟩
    intro s hs t ht
    simp only [List.mem_singleton] at ht
    subst ht
    exact p3 s hs (z, .const v) (by simp)
  have hbefore : ∀ n, n < z → tileAt (.const 0) (l ++ [(z, .const v)]) n = tileAt (.const 0) l n := by
    intro n hn
    rw [tileAt_append r2, if_pos hn]
  have hev : ∀ n, ev (tileAt (.const 0) (l ++ [(z, .const v)]) n) (val n) = mixture val dw n := by
    intro n
    rw [r5 n (by simp), htot]; ring
  have hafter : ∀ n, z ≤ n → mixture val dw n = v := by
    intro n hn
    rw [← hev, tileAt_append r2, if_neg (not_lt.2 hn)]
    simp [ev, Fn.eval]
  refine ⟨l, z, ?_, hk1, fun s hs => r4 s (by simp [hs]), ?_, ?_, ?_, ?_⟩
  · have hlast : ∀ w, (tile ninf (.const 0) (l ++ [(z, .const w)]) pinf).getLast? =
        some (⟨fin z, pinf, .inc, .exc⟩, .const w) := by
      intro w
      rw [← tile_append]; simp
    have hdrop : (dropTiny (tile ninf (.const 0) (l ++ [(z, .const v)]) pinf).reverse).reverse =
        tile ninf (.const 0) (l ++ [(z, .const v)]) pinf := by
      rw [← tile_append, List.reverse_append]
      cases hq : (tile ninf (.const 0) l (fin z)).reverse with
      | nil => simp at hq; exact absurd hq tile_ne_nil
      | cons a r =>
        have hq' := congrArg List.reverse hq
        rw [List.reverse_reverse] at hq'
        simp [dropTiny, coeffs, hq']
    have hsw : sweep val ((lowerOf dw).length + (upperOf dw).length) (lowerOf dw) (upperOf dw) 0 0
        [(CS.allnumbers, .const 0)] = .ok (tile ninf (.const 0) (l ++ [(z, .const v)]) pinf) := r1
    simp only [mergeWeighted, hsw, bind, Except.bind, hdrop, hlast, ensureRight]
    by_cases hv : v = 1
    · subst hv; simp
    · rw [if_neg hv]
      simp only [appendAt, hlast]
      have hd : (tile ninf (.const 0) (l ++ [(z, .const v)]) pinf).dropLast = tile ninf (.const 0) l (fin z) := by
        rw [← tile_append]; simp
      have hem : CS.isempty ⟨fin z, fin z, .inc, .exc⟩ = true := by
        simp [CS.isempty, CS.isclosed, CS.itype, Br.code]
      rw [hd, hem]
      simp [tile_append]
  · intro n hn
    refine ⟨by rw [← hbefore n hn, hev], ?_⟩
    have h1 := r6 z v (by simp)
    rw [htot] at h1
    rw [hafter z le_rfl]
    refine lt_of_le_of_lt (mixture_mono hval hm (by omega : n ≤ z - 1)) ?_
    linarith
  · intro n hn
    rw [hafter n hn, hafter z le_rfl]
  · intro n hn
    rw [← hbefore n hn, r9 n (by simp), zero_add]
  · intro n hn
    rw [← zero_add (active _ _ n), ← r9 n (by simp), tileAt_append r2, if_neg (not_lt.2 hn)]
    rfl

/-- The merged cdf: the mixture until all of it has risen, then 1. -/
theorem mergeWeighted_spec {val : ℤ → ℚ} (hval : StrictMono val) {rnd : ℚ → ℤ} {dw : List (PF × ℚ)}
    (hm : ∀ d ∈ dw, Mergeable d.1 ∧ 0 ≤ d.2)
    (hsl : ∀ d ∈ dw, 0 < d.2 → ∀ s ∈ d.1, ∀ m c, s.2 = .lin m c → tol < d.2 * m)
    (hpos : ∃ n, 0 < mixture val dw n) :
    ∃ (l : List (ℤ × Fn)) (z : ℤ),
      mergeWeighted val rnd dw = .ok (tile ninf (.const 0) (l ++ [(z, .const 1)]) pinf) ∧
      Knots (l ++ [(z, .const 1)]) ∧ (∀ s ∈ l, IsPl s.2) ∧
      (∀ n, n < z → ev (tileAt (.const 0) l n) (val n) = mixture val dw n ∧
        mixture val dw n < mixture val dw z) ∧
      (∀ n, z ≤ n → mixture val dw n = mixture val dw z) := by
  obtain ⟨l, z, h1, h2, h3, h4, h5, -⟩ := mergeWeighted_slope hval (rnd := rnd) hm hsl hpos
  exact ⟨l, z, h1, h2, h3, h4, h5⟩

end Verif.Num
