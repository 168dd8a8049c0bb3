import Verif.Numeric.ConvolutionLemmas2
import Verif.Numeric.MpeLemmas
import Mathlib.Algebra.BigOperators.Group.Finset.Piecewise

/-!
# The support points of a convolution
-/

namespace Verif.Fun.PF

open Iv Iv.FP Iv.CS

/-- The value at `n` of the step function with the value `p` up to the first knot. -/
def stepAt : ℚ → List (ℤ × ℚ) → ℤ → ℚ
  | p, [], _ => p
  | p, (k, v) :: r, n => if n < k then p else stepAt v r n

/-- The jumps of a step function. -/
def jumps : ℚ → List (ℤ × ℚ) → List (ℤ × ℚ)
  | _, [] => []
  | p, (k, v) :: r => (k, v - p) :: jumps v r

theorem jumps_fst : ∀ (p : ℚ) (L : List (ℤ × ℚ)), (jumps p L).map Prod.fst = L.map Prod.fst
  | _, [] => rfl
  | p, (k, v) :: r => by simp [jumps, jumps_fst v r]

theorem stepAt_before {p : ℚ} {L : List (ℤ × ℚ)} {n : ℤ} (h : ∀ s ∈ L, n < s.1) : stepAt p L n = p := by
  cases L with
  | nil => rfl
  | cons a r => obtain ⟨k, v⟩ := a; simp [stepAt, h (k, v) (by simp)]

theorem jump_sum {n : ℤ} : ∀ {L : List (ℤ × ℚ)} {p : ℚ}, L.Pairwise (fun s t => s.1 < t.1) →
    stepAt p L n - stepAt p L (n - 1) = ((jumps p L).map (fun s => if n = s.1 then s.2 else 0)).sum
  | [], p, _ => by simp [stepAt, jumps]
  | (k, v) :: r, p, h => by
    obtain ⟨h1, h2⟩ := List.pairwise_cons.1 h
    have ih := jump_sum (n := n) (p := v) h2
    simp only [stepAt, jumps, List.map_cons, List.sum_cons, ← ih]
    by_cases e1 : n < k
    · have hb : ∀ m, m < k → stepAt v r m = v := fun m hm =>
        stepAt_before (fun s hs => lt_trans hm (h1 s hs))
      rw [if_pos e1, if_pos (by omega), if_neg (by omega), hb n e1, hb (n - 1) (by omega)]
      ring
    · by_cases e2 : n = k
      · subst e2
        rw [if_neg e1, if_pos (by omega), if_pos rfl,
          stepAt_before (n := n - 1) (fun s hs => by have := h1 s hs; simp only at this; omega)]
        ring
      · rw [if_neg e1, if_neg (by omega), if_neg e2, zero_add]

theorem stepAt_after {n : ℤ} : ∀ {L : List (ℤ × ℚ)} {p : ℚ}, (∀ s ∈ L, s.1 ≤ n) →
    stepAt p L n = ((L.getLast?).map Prod.snd).getD p
  | [], p, _ => rfl
  | [(k, v)], p, h => by
    have := h (k, v) (by simp)
    simp only at this
    simp [stepAt, not_lt.2 this]
  | (k, v) :: b :: r, p, h => by
    have h1 := h (k, v) (by simp)
    simp only at h1
    rw [stepAt, if_neg (not_lt.2 h1), stepAt_after (L := b :: r) (fun s hs => h s (by simp [List.mem_cons.1 hs]))]
    rw [List.getLast?_cons_cons]
    cases e : (b :: r).getLast? with
    | none => simp at e
    | some x => rfl

theorem stepAt_bound {M : ℚ} : ∀ {L : List (ℤ × ℚ)} {p : ℚ} {n : ℤ}, |p| ≤ M → (∀ s ∈ L, |s.2| ≤ M) → |stepAt p L n| ≤ M
  | [], p, n, h, _ => h
  | (k, v) :: r, p, n, h, h' => by
    simp only [stepAt]
    split
    · exact h
    · exact stepAt_bound (h' (k, v) (by simp)) (fun s hs => h' s (by simp [hs]))

theorem tileAt_step {n : ℤ} : ∀ {L : List (ℤ × ℚ)} {p : ℚ},
    Num.tileAt (.const p) (L.map (fun s => (s.1, .const s.2))) n = .const (stepAt p L n)
  | [], p => rfl
  | (k, v) :: r, p => by
    simp only [List.map_cons, Num.tileAt, stepAt, tileAt_step (L := r)]
    split <;> rfl

theorem tile_disj {u : FP} : ∀ {L : List (ℤ × Fn)} {lo : FP} {f : Fn}, Num.Knots L →
    PF.Disj (Num.tile lo f L u) ∧ ∀ s ∈ Num.tile lo f L u, s.1.lower = lo ∨ ∃ k ∈ L, s.1.lower = fin k.1
  | [], lo, f, _ => by simp [Num.tile, Disj]
  | (k, g) :: r, lo, f, h => by
    obtain ⟨h1, h2⟩ := List.pairwise_cons.1 h
    obtain ⟨i1, i2⟩ := tile_disj (u := u) (L := r) (lo := fin k) (f := g) h2
    have hlow : ∀ s ∈ Num.tile (fin k) g r u, fin k ≤ s.1.lower := by
      intro s hs
      rcases i2 s hs with h | ⟨t, ht, h⟩
      · exact le_of_eq h.symm
      · rw [h, fin_le]; exact le_of_lt (h1 t ht)
    constructor
    · refine List.pairwise_cons.2 ⟨fun s hs x hx => ?_, i1⟩
      have h3 := hlow s hs
      obtain ⟨⟨-, h4⟩, h5, -⟩ := hx
      simp only [reduceCtorEq, and_false, or_false] at h4
      rcases h5 with h5 | ⟨h5, -⟩
      · exact absurd (lt_trans h4 (lt_of_le_of_lt h3 h5)) (lt_irrefl _)
      · exact absurd (lt_of_lt_of_le h4 (h5 ▸ h3)) (lt_irrefl _)
    · intro s hs
      simp only [Num.tile, List.mem_cons] at hs
      rcases hs with rfl | hs
      · exact .inl rfl
      · rcases i2 s hs with h | ⟨t, ht, h⟩
        · exact .inr ⟨(k, g), by simp, h⟩
        · exact .inr ⟨t, by simp [ht], h⟩

theorem stepFn_isStep {L : List (ℤ × ℚ)} (h : L.Pairwise (fun s t => s.1 < t.1)) : IsStep (stepFn L) (stepAt 0 L) := by
  have hk : Num.Knots (L.map (fun s => (s.1, Fn.const s.2))) := by
    unfold Num.Knots
    rw [List.pairwise_map]
    exact h
  refine IsStep.of_value (Num.tile_halfOpen hk (fun s _ => by simp [FP.lt_def, leb]) (by simp))
    (tile_disj hk).1 ?_ (fun n => ?_)
  · have : ∀ (l : List (ℤ × ℚ)) (lo : FP) (p : ℚ), ∀ s ∈ Num.tile lo (.const p) (l.map (fun s => (s.1, Fn.const s.2))) pinf,
        ∃ c, s.2 = .const c := by
      intro l
      induction l with
      | nil => intro lo p s hs; simp only [List.map_nil, Num.tile, List.mem_singleton] at hs; exact ⟨p, by rw [hs]⟩
      | cons a r ih =>
        intro lo p s hs
        simp only [List.map_cons, Num.tile, List.mem_cons] at hs
        rcases hs with rfl | hs
        · exact ⟨p, rfl⟩
        · exact ih _ _ s hs
    exact this L ninf 0
  · unfold stepFn
    rw [Num.tile_eval, tileAt_step]
    rfl

theorem stepFn_bounds (L : List (ℤ × ℚ)) : Num.bounds ((stepFn L).map (·.1)) = .ok (L.map Prod.fst) := by
  have h := Num.bounds_tile (K := L.map (fun s => (s.1, Fn.const s.2))) (f := .const 0)
  simp only [Num.densOf, List.map_map, Function.comp_def] at h
  exact h

theorem countP_lt {α : Type} {P Q : α → Bool} : ∀ {l : List α}, (∀ x ∈ l, P x = true → Q x = true) →
    (∃ x ∈ l, Q x = true ∧ P x = false) → l.countP P < l.countP Q
  | [], _, h => by obtain ⟨x, hx, -⟩ := h; simp at hx
  | a :: l, h1, h2 => by
    have hle : l.countP P ≤ l.countP Q := List.countP_mono_left (fun x hx => h1 x (by simp [hx]))
    rw [List.countP_cons, List.countP_cons]
    obtain ⟨x, hx, e1, e2⟩ := h2
    rcases List.mem_cons.1 hx with rfl | hx
    · simp [e1, e2]; omega
    · have ih := countP_lt (l := l) (fun x hx => h1 x (by simp [hx])) ⟨x, hx, e1, e2⟩
      have := h1 a (by simp)
      by_cases ha : P a = true
      · simp [ha, this ha]; omega
      · simp [ha]; split <;> omega

variable {val : ℤ → ℚ} {u : ℚ}

/-- The loop of `convolution`: a support point for every sum of two bounds. -/
theorem convLoop_spec (hval : ∀ n, val n = u * n) (hu : 0 < u) {f : PF} {F G : ℤ → ℚ} (hf : IsStep f F)
    {A B : ℤ} (hF : ∀ k, ¬ (A ≤ k ∧ k < B) → F k = 0) {bf gb : List ℤ} : ∀ (fuel : ℕ) (g : PF) (z : ℤ) (pts : List (ℤ × ℚ)),
    IsStep g (fun k => G (z - k)) →
    ((gb.map (· + z)).flatMap (fun b => bf.map (fun a => b - a))).countP (· < 0) < fuel →
    (∀ p ∈ pts, p.1 ≤ z) →
    ∃ l : List ℤ, convLoop val f bf fuel g (gb.map (· + z)) z pts =
        .ok (pts ++ l.map (fun s => (s, discrete u F G A B s))) ∧ l.Pairwise (· < ·) ∧
      ∀ s, s ∈ l ↔ z < s ∧ ∃ a ∈ bf, ∃ c ∈ gb, s = a - c
  | 0, g, z, pts, _, h, _ => by omega
  | fuel + 1, g, z, pts, hg, hfuel, hpts => by
    have hds : ∀ x, x ∈ (gb.map (· + z)).flatMap (fun b => bf.map (fun a => b - a)) ↔
        ∃ a ∈ bf, ∃ c ∈ gb, x = z - (a - c) := by
      intro x
      simp only [List.mem_flatMap, List.mem_map]
      constructor
      · rintro ⟨_, ⟨c, hc, rfl⟩, a, ha, rfl⟩
        exact ⟨a, ha, c, hc, by ring⟩
      · rintro ⟨a, ha, c, hc, rfl⟩
        exact ⟨_, ⟨c, hc, rfl⟩, a, ha, by ring⟩
    cases hm : (((gb.map (· + z)).flatMap (fun b => bf.map (fun a => b - a))).filter (· < 0)).max? with
    | none =>
      rw [List.max?_eq_none_iff, List.filter_eq_nil_iff] at hm
      refine ⟨[], ?_, by simp, fun s => ?_⟩
      · rw [convLoop, (List.max?_eq_none_iff.2 (List.filter_eq_nil_iff.2 hm))]
        simp
      · simp only [List.not_mem_nil, false_iff, not_and]
        rintro h1 ⟨a, ha, c, hc, rfl⟩
        have := hm _ ((hds _).2 ⟨a, ha, c, hc, rfl⟩)
        simp only [decide_eq_true_eq] at this
        omega
    | some d =>
      have hm' := hm
      rw [List.max?_eq_some_iff] at hm'
      obtain ⟨m1, m2⟩ := hm'
      rw [List.mem_filter] at m1
      obtain ⟨m1, m3⟩ := m1
      simp only [decide_eq_true_eq] at m3
      have habs : |d| = -d := abs_of_neg m3
      obtain ⟨g', hg', hs⟩ := hg.xshift (sub := fun b => b + |d|) (d := d) (fun n => by rw [habs]; ring) (-(val |d|))
      have hs' : IsStep g' (fun k => G (z + |d| - k)) := by
        have e : (fun k => G (z + |d| - k)) = fun n => G (z - (n + d)) := by
          funext k; congr 1; rw [habs]; ring
        rw [e]; exact hs
      have hy : overlap val f g' = .ok (discrete u F G A B (z + |d|)) := overlap_step hval hu hf hs' hF
      have hmap : (gb.map (· + z)).map (· + |d|) = gb.map (· + (z + |d|)) := by
        rw [List.map_map]
        refine List.map_congr_left (fun a _ => ?_)
        simp only [Function.comp]; ring
      have hnew : (z + |d|, discrete u F G A B (z + |d|)) ∉ pts := by
        intro h
        have := hpts _ h
        simp only at this
        omega
      obtain ⟨l, h1, h2, h3⟩ := convLoop_spec hval hu hf hF fuel g' (z + |d|)
        (pts ++ [(z + |d|, discrete u F G A B (z + |d|))]) hs' (by
          refine lt_of_lt_of_le ?_ (Nat.lt_succ_iff.1 hfuel)
          have e : (gb.map (· + (z + |d|))).flatMap (fun b => bf.map (fun a => b - a)) =
              ((gb.map (· + z)).flatMap (fun b => bf.map (fun a => b - a))).map (· + |d|) := by
            rw [List.map_flatMap, ← hmap, List.flatMap_map]
            refine List.flatMap_congr (fun b _ => ?_)
            rw [List.map_map]
            refine List.map_congr_left (fun a _ => ?_)
            simp only [Function.comp]; ring
          rw [e, List.countP_map]
          refine countP_lt (fun x hx h => ?_) ⟨d, m1, by simpa using m3, ?_⟩
          · simp only [Function.comp, decide_eq_true_eq] at h ⊢
            omega
          · simp only [Function.comp, decide_eq_false_iff_not]
            omega) (by
          intro p hp
          rcases List.mem_append.1 hp with hp | hp
          · have := hpts p hp; omega
          · simp only [List.mem_singleton] at hp
            rw [hp])
      refine ⟨(z + |d|) :: l, ?_, ?_, fun s => ?_⟩
      · rw [convLoop, hm]
        simp only [bind, Except.bind, hg', hy, hmap]
        rw [if_neg hnew]
        rw [h1]
        simp
      · exact List.pairwise_cons.2 ⟨fun s hs => ((h3 s).1 hs).1, h2⟩
      · rw [List.mem_cons, h3]
        constructor
        · rintro (rfl | ⟨e1, e2⟩)
          · obtain ⟨a, ha, c, hc, e⟩ := (hds d).1 m1
            exact ⟨by omega, a, ha, c, hc, by omega⟩
          · exact ⟨by omega, e2⟩
        · rintro ⟨e1, a, ha, c, hc, rfl⟩
          have := m2 (z - (a - c)) (List.mem_filter.2 ⟨(hds _).2 ⟨a, ha, c, hc, rfl⟩, by simp; omega⟩)
          by_cases e : a - c = z + |d|
          · exact .inl e
          · exact .inr ⟨by omega, a, ha, c, hc, rfl⟩

end Verif.Fun.PF
