import Verif.Numeric.Props7
import Verif.Numeric.Props15
import Verif.Numeric.DensLemmas

/-!
# The explanations of a distribution are the floats of greatest density
-/

namespace Verif.Num

open Iv Iv.FP Fun

/-- The piece that contains a float. -/
theorem tile_piece_at {n : ℤ} {u : FP} : ∀ {l : List (ℤ × Fn)} {lo : FP} {f : Fn}, lo ≤ fin n → fin n < u →
    ∃ i, (i, tileAt f l n) ∈ tile lo f l u ∧ i.Mem (fin n)
  | [], lo, f, h, hu => ⟨_, by simp [tile, tileAt], tile_mem.2 ⟨h, hu⟩⟩
  | (k, g) :: r, lo, f, h, hu => by
    by_cases hk : n < k
    · refine ⟨⟨lo, fin k, brOf lo, .exc⟩, ?_, tile_mem.2 ⟨h, by simpa [FP.lt_def, leb] using hk⟩⟩
      simp [tile, tileAt, hk]
    · obtain ⟨i, h1, h2⟩ := tile_piece_at (n := n) (u := u) (l := r) (lo := fin k) (f := g)
        (by simpa [FP.le_def, leb] using hk) hu
      refine ⟨i, ?_, h2⟩
      simp only [tile, tileAt, if_neg hk]
      exact List.mem_cons_of_mem _ h1

theorem tile_lower {u : FP} : ∀ {l : List (ℤ × Fn)} {k : ℤ} {f : Fn}, Knots ((k, f) :: l) → ∀ t ∈ tile (fin k) f l u,
    ∀ n, t.1.Mem (fin n) → k ≤ n
  | [], k, f, _, t, ht, n, hn => by
    simp only [tile, List.mem_singleton] at ht
    subst ht
    simpa [FP.le_def, leb] using (tile_mem.1 hn).1
  | (k', g) :: r, k, f, h, t, ht, n, hn => by
    simp only [tile, List.mem_cons] at ht
    rcases ht with rfl | ht
    · simpa [FP.le_def, leb] using (tile_mem.1 hn).1
    · have h' := List.pairwise_cons.1 h
      have h1 := tile_lower h'.2 t ht n hn
      have := h'.1 (k', g) (by simp)
      simp only at this
      omega

/-- Only one piece contains it. -/
theorem tile_piece_unique {n : ℤ} {u : FP} : ∀ {l : List (ℤ × Fn)} {lo : FP} {f : Fn}, Knots l →
    ∀ t ∈ tile lo f l u, t.1.Mem (fin n) → t.2 = tileAt f l n
  | [], lo, f, _, t, ht, _ => by
    simp only [tile, List.mem_singleton] at ht
    subst ht
    rfl
  | (k, g) :: r, lo, f, h, t, ht, hn => by
    simp only [tile, List.mem_cons] at ht
    have h' := List.pairwise_cons.1 h
    rcases ht with rfl | ht
    · have := (tile_mem.1 hn).2
      have hk : n < k := by simpa [FP.lt_def, leb] using this
      simp [tileAt, hk]
    · have hk := tile_lower h t ht n hn
      have := tile_piece_unique h'.2 t ht hn
      simp only [tileAt, if_neg (not_lt.2 hk)]
      exact this

/-- `mpe` of a cdf that increases somewhere: the floats of greatest density. -/
theorem cdf_mpe {p : PF} (hp : Cdf p) (hlin : ∃ t ∈ p, ∃ m c, t.2 = .lin m c) :
    ∃ d S m, pdf p = .ok d ∧ mpe d = .ok (S, .fin m) ∧ 0 < m ∧ (∃ n, S.Mem (fin n)) ∧
      ∀ n q, densAt d (fin n) = .ok (.fin q) → q ≤ m ∧ (S.Mem (fin n) ↔ q = m) := by
  obtain ⟨L, z, v, rfl, hinc, hL⟩ := hp
  have hpieces : ∀ s ∈ L ++ [(z, Fn.const v)], (∃ c, s.2 = .const c) ∨ ∃ m c, m ≠ 0 ∧ s.2 = .lin m c := by
    intro s hs
    rcases List.mem_append.1 hs with h | h
    · rcases hL s h with h | ⟨m, c, h, hm⟩
      · exact .inl h
      · exact .inr ⟨m, c, hm.ne', h⟩
    · rw [List.mem_singleton.1 h]; exact .inl ⟨v, rfl⟩
  obtain ⟨s, hs, m0, c0, hs0⟩ : ∃ s ∈ L, ∃ m c, s.2 = .lin m c := by
    obtain ⟨t, ht, m, c, hm⟩ := hlin
    have : t.2 ∈ (tile ninf (.const 0) (L ++ [(z, Fn.const v)]) pinf).map Prod.snd := List.mem_map_of_mem ht
    rw [tile_snd, List.mem_cons, List.mem_map] at this
    rcases this with h | ⟨s, hs, h⟩
    · rw [h] at hm; cases hm
    · rcases List.mem_append.1 hs with h' | h'
      · exact ⟨s, h', m, c, by rw [h, hm]⟩
      · rw [List.mem_singleton.1 h'] at h
        simp only at h
        rw [← h] at hm; cases hm
  have hlen : 2 ≤ (L ++ [(z, Fn.const v)]).length := by
    have : 0 < L.length := List.length_pos_of_mem hs
    simp; omega
  have hmpos : ∀ i m c, (i, Fn.lin m c) ∈ tile ninf (.const 0) (L ++ [(z, Fn.const v)]) pinf → 0 < m := by
    intro i m c hi
    have : Fn.lin m c ∈ (tile ninf (.const 0) (L ++ [(z, Fn.const v)]) pinf).map Prod.snd := List.mem_map_of_mem hi
    rw [tile_snd, List.mem_cons, List.mem_map] at this
    rcases this with h | ⟨s, hs, h⟩
    · cases h
    · rcases List.mem_append.1 hs with h' | h'
      · rcases hL s h' with ⟨v, h2⟩ | ⟨m', c', h2, h3⟩
        · rw [h2] at h; cases h
        · rw [h2] at h; cases h; exact h3
      · rw [List.mem_singleton.1 h'] at h
        cases h
  obtain ⟨d, S, m, h1, h2, ⟨i, c, hic⟩, h3, h4⟩ := C76_mpe (L ++ [(z, .const v)]) hinc hpieces hlen
    ⟨s, by simp [hs], by rw [hs0]; rfl⟩
  have hd : d = densOf (tile ninf (.const 0) (L ++ [(z, Fn.const v)]) pinf) := by
    have := pdf_eq (p := tile ninf (.const 0) (L ++ [(z, Fn.const v)]) pinf) (by
      apply tile_simple (simple_const 0)
      intro t ht
      rcases hpieces t ht with ⟨c, h⟩ | ⟨m, c, -, h⟩
      · rw [h]; exact simple_const c
      · rw [h]; exact simple_lin m c) (by rw [tile_length]; omega)
    rw [this] at h1
    exact (Except.ok.inj h1).symm
  have hat : ∀ n, ∃ i, (i, tileAt (.const 0) (L ++ [(z, Fn.const v)]) n) ∈
      tile ninf (.const 0) (L ++ [(z, Fn.const v)]) pinf ∧ i.Mem (fin n) := fun n =>
    tile_piece_at (by simp [FP.le_def, leb]) (by simp [FP.lt_def, leb])
  have hm := hmpos i m c hic
  refine ⟨d, S, m, h1, h2, hm, ?_, fun n q hq => ?_⟩
  · have : Fn.lin m c ∈ (tile ninf (.const 0) (L ++ [(z, Fn.const v)]) pinf).map Prod.snd := List.mem_map_of_mem hic
    rw [tile_snd, List.mem_cons, List.mem_map] at this
    obtain ⟨t, ht, hte⟩ : ∃ t ∈ L ++ [(z, Fn.const v)], t.2 = Fn.lin m c := by
      rcases this with h | h
      · cases h
      · exact h
    have htL : t ∈ L := by
      rcases List.mem_append.1 ht with h | h
      · exact h
      · rw [List.mem_singleton.1 h] at hte; cases hte
    have htile : tileAt (.const 0) (L ++ [(z, Fn.const v)]) t.1 = t.2 := by
      obtain ⟨A, B, rfl⟩ := List.append_of_mem htL
      obtain ⟨t1, t2⟩ := t
      rw [show A ++ (t1, t2) :: B ++ [(z, Fn.const v)] = (A ++ [(t1, t2)]) ++ (B ++ [(z, Fn.const v)]) by simp]
      rw [show A ++ (t1, t2) :: B ++ [(z, Fn.const v)] = A ++ ((t1, t2) :: (B ++ [(z, Fn.const v)])) by simp] at hinc
      obtain ⟨-, k2, k3⟩ := List.pairwise_append.1 hinc
      rw [tileAt_split (fun t ht => (List.pairwise_cons.1 k2).1 t ht), lastOf_append]
      intro t ht
      rcases List.mem_append.1 ht with h | h
      · exact (k3 t h (t1, t2) (by simp)).le
      · rw [List.mem_singleton.1 h]
    obtain ⟨i', hi', hi''⟩ := hat t.1
    rw [htile, hte] at hi'
    exact ⟨t.1, (h3 _).2 ⟨i', c, hi', hi''⟩⟩
  · rw [hd, densAt_tile] at hq
    have hq : sl (tileAt (.const 0) (L ++ [(z, Fn.const v)]) n) = q := XQ.fin.inj (Except.ok.inj hq)
    obtain ⟨i', hi', hi''⟩ := hat n
    constructor
    · cases hf : tileAt (.const 0) (L ++ [(z, Fn.const v)]) n with
      | const a => rw [hf] at hq; rw [← hq]; exact hm.le
      | lin a b => rw [hf] at hq hi'; rw [← hq]; exact h4 _ _ _ hi'
      | quad a b c' => rw [hf] at hq; rw [← hq]; exact hm.le
      | undef => rw [hf] at hq; rw [← hq]; exact hm.le
    · rw [h3]
      constructor
      · rintro ⟨j, c', hj, hj'⟩
        have := tile_piece_unique hinc _ hj hj'
        simp only at this
        rw [← hq, ← this]; rfl
      · intro hqm
        cases hf : tileAt (.const 0) (L ++ [(z, Fn.const v)]) n with
        | const a => rw [hf, hqm] at hq; exact absurd hq.symm hm.ne'
        | lin a b =>
          rw [hf, hqm] at hq
          rw [hf] at hi'
          have : a = m := hq
          exact ⟨i', b, by rw [← this]; exact hi', hi''⟩
        | quad a b c' => rw [hf, hqm] at hq; exact absurd hq.symm hm.ne'
        | undef => rw [hf, hqm] at hq; exact absurd hq.symm hm.ne'

end Verif.Num
