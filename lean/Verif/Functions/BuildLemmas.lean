import Verif.Functions.Build
import Verif.Functions.ApproxLemmas
import Mathlib.Data.List.Sort

/-! # Lemmas about overwriting piecewise functions -/

namespace Verif.Fun

open Iv Iv.FP Iv.CS

namespace PF

/-- The pieces are in ascending order. -/
def Asc (p : PF) : Prop := p.Pairwise (fun s t => s.1.upper ≤ t.1.lower)

theorem halfOpen_bounds {s t : CS} (hs : s.HalfOpen) (ht : t.HalfOpen)
    (h : ∀ n : ℤ, s.Mem (fin n) → t.Mem (fin n)) : t.lower ≤ s.lower ∧ s.upper ≤ t.upper := by
  have h' : ∀ n : ℤ, s.lower ≤ fin n → fin n < s.upper → t.lower ≤ fin n ∧ fin n < t.upper := by
    intro n h1 h2
    exact (ht.mem_iff n).1 (h n ((hs.mem_iff n).2 ⟨h1, h2⟩))
  have h1 := hs.1
  clear h hs ht
  generalize s.lower = sl at *
  generalize s.upper = su at *
  generalize t.lower = tl at *
  generalize t.upper = tu at *
  constructor
  · by_contra hc
    cases sl with
    | pinf => cases su <;> simp [FP.lt_def, Iv.FP.leb] at h1
    | fin a => exact hc (h' a le_rfl h1).1
    | ninf =>
      cases su with
      | ninf => exact absurd h1 (lt_irrefl _)
      | pinf =>
        cases tl with
        | ninf => exact hc le_rfl
        | pinf => exact absurd (h' 0 (ninf_le _) (by decide)).1 (by decide)
        | fin b =>
          have := (h' (b - 1) (ninf_le _) (by simp [FP.lt_def, Iv.FP.leb])).1
          rw [fin_le] at this
          omega
      | fin u =>
        cases tl with
        | ninf => exact hc le_rfl
        | pinf => exact absurd (h' (u - 1) (ninf_le _) (by rw [fin_lt]; omega)).1 (by simp [FP.le_def, Iv.FP.leb])
        | fin b =>
          have := (h' (min (b - 1) (u - 1)) (ninf_le _) (by rw [fin_lt]; omega)).1
          rw [fin_le] at this
          omega
  · by_contra hc
    cases su with
    | ninf => cases sl <;> simp [FP.lt_def, Iv.FP.leb] at h1
    | fin a =>
      cases sl with
      | pinf => simp [FP.lt_def, Iv.FP.leb] at h1
      | fin b =>
        rw [fin_lt] at h1
        have := (h' (a - 1) (by rw [fin_le]; omega) (by rw [fin_lt]; omega)).2
        cases tu with
        | ninf => simp [FP.lt_def, Iv.FP.leb] at this
        | pinf => simp [FP.le_def, Iv.FP.leb] at hc
        | fin c => rw [fin_lt] at this; rw [fin_le] at hc; omega
      | ninf =>
        have := (h' (a - 1) (ninf_le _) (by rw [fin_lt]; omega)).2
        cases tu with
        | ninf => simp [FP.lt_def, Iv.FP.leb] at this
        | pinf => simp [FP.le_def, Iv.FP.leb] at hc
        | fin c => rw [fin_lt] at this; rw [fin_le] at hc; omega
    | pinf =>
      cases tu with
      | pinf => exact hc le_rfl
      | ninf =>
        cases sl with
        | pinf => simp [FP.lt_def, Iv.FP.leb] at h1
        | fin b => exact absurd (h' b le_rfl h1).2 (by simp [FP.lt_def, Iv.FP.leb])
        | ninf => exact absurd (h' 0 (ninf_le _) (by decide)).2 (by simp [FP.lt_def, Iv.FP.leb])
      | fin c =>
        cases sl with
        | pinf => simp [FP.lt_def, Iv.FP.leb] at h1
        | fin b =>
          have := (h' (max b c) (by rw [fin_le]; omega) (by simp [FP.lt_def, Iv.FP.leb])).2
          rw [fin_lt] at this
          omega
        | ninf =>
          have := (h' c (ninf_le _) (by simp [FP.lt_def, Iv.FP.leb])).2
          exact absurd this (lt_irrefl _)

/-- Of two half-open intervals without a common float one ends before the other begins. -/
theorem halfOpen_disjoint {s t : CS} (hs : s.HalfOpen) (ht : t.HalfOpen)
    (h : ∀ n : ℤ, s.Mem (fin n) → ¬ t.Mem (fin n)) : s.upper ≤ t.lower ∨ t.upper ≤ s.lower := by
  rcases halfOpen_intersection hs ht with ⟨g1, g2, g3⟩ | ⟨g1, g2, g3, br, g4, g5⟩
  · exact g2
  · exfalso
    obtain ⟨x, hx⟩ := CS.exists_mem g5.wf g5.nonempty
    obtain ⟨n, rfl⟩ := norm_mem_fin g5 hx
    rw [g5.mem_iff] at hx
    refine h n ?_ ?_
    · rw [hs.mem_iff]; simp only at hx; grind
    · rw [ht.mem_iff]; simp only at hx; grind

/-- The two parts that remain of a piece in `overwrite_at` are in order. -/
theorem leftover_order {i I a b : CS} (hi : i.HalfOpen) (hI : I.HalfOpen) (h : leftover i I = .ok (.rs [a, b])) :
    a.upper ≤ b.lower := by
  rcases halfOpen_intersection hi hI with ⟨h1, h2, h3⟩ | ⟨h1, h2, h3, br, h4, h5⟩
  · simp [leftover, intersectionEnds, h1, bind, Except.bind, difference_emptyset hi.wf] at h
  · have hx : i.intersectionEnds I (some .inc) (some .exc) =
        .ok ⟨max i.lower I.lower, min i.upper I.upper, .inc, .exc⟩ := by
      simp only [intersectionEnds, h1, h4, bind, Except.bind]
      rcases h5.2.2 with ⟨e1, e2⟩ | ⟨e1, e2⟩
      · simp only at e1 e2
        simp [e1, e2, convertEnds, up_ninf]
      · simp only at e2
        simp [e2, convertEnds]
    by_cases hn : max i.lower I.lower = ninf
    · have hil : i.lower = ninf := by
        have := le_max_left i.lower I.lower; rw [hn] at this; exact le_antisymm this (ninf_le _)
      have hIl : I.lower = ninf := by
        have := le_max_right i.lower I.lower; rw [hn] at this; exact le_antisymm this (ninf_le _)
      have hie : i = ⟨ninf, i.upper, .exc, .exc⟩ := by
        obtain ⟨l, u, a, b⟩ := i
        obtain ⟨-, e2, e3⟩ := hi
        simp only at hil e2 e3
        subst hil; subst e2
        simpa using e3
      have hd := difference_ninf (u := i.upper) (v := min i.upper I.upper) (hil ▸ hi.1)
        (lt_min (hil ▸ hi.1) (hIl ▸ hI.1)) (min_le_left _ _)
      rw [← hie] at hd
      simp only [leftover, hx, hn, bind, Except.bind, hd] at h
      cases h
    · have hbr : br = .inc := by
        rcases h5.2.2 with h | h
        · exact absurd h.1 hn
        · exact h.2
      subst hbr
      obtain ⟨d, hd, -, hsh⟩ := halfOpen_difference hi h5
      cases d with
      | cs c =>
        simp only [leftover, hx, bind, Except.bind, hd] at h
        cases h
      | rs l =>
        obtain ⟨hl, -, -⟩ := difference_rs hd
        rcases hsh with h' | h'
        · cases h'
        simp only [Br.flip] at hl
        subst hl
        have ha := h' _ (List.mem_cons_self ..)
        have hb := h' _ (List.mem_cons_of_mem _ (List.mem_cons_self ..))
        have hdis : CS.Disjoint ⟨i.lower, max i.lower I.lower, i.left, .exc⟩
            ⟨min i.upper I.upper, i.upper, .inc, i.right⟩ := by
          rintro x ⟨hx1, hx2⟩
          obtain ⟨n, rfl⟩ := norm_mem_fin ha hx1
          rw [ha.mem_iff] at hx1
          rw [hb.mem_iff] at hx2
          have := h5.1
          simp only at hx1 hx2 this
          grind
        have hcon : CS.contiguous ⟨i.lower, max i.lower I.lower, i.left, .exc⟩
            ⟨min i.upper I.upper, i.upper, .inc, i.right⟩ = false := by
          have h6 := h5.1
          have h7 := hi.1
          simp only [contiguous]
          simp only at h6
          rw [if_neg (fun h => (ne_of_lt h7) h.1), if_neg (fun h => (ne_of_lt h6) h.1)]
        obtain ⟨D, hD, -, hD'⟩ := RS.simplify_two ha.wf hb.wf ha.reg hb.reg ha.nonempty hdis hcon
        have hD' := hD' hb.nonempty
        have hle : max i.lower I.lower ≤ i.upper := by
          have := h5.1; simp only at this
          exact le_of_lt (lt_of_lt_of_le this (min_le_left _ _))
        simp only [hle, if_true] at hD'
        subst hD'
        simp only [leftover, hx, bind, Except.bind, hd, hD] at h
        simp only [Except.ok.injEq, NS.rs.injEq, List.cons.injEq, and_true] at h
        obtain ⟨rfl, rfl⟩ := h
        have := h5.1
        simp only at this ⊢
        exact le_of_lt this

/-- The loop of `overwrite_at` keeps the order and counts the pieces that begin before the interval ends. -/
theorem overwriteLoop_order {I : CS} (hI : I.HalfOpen) : ∀ (p : PF) (k : ℕ),
    (∀ s ∈ p, s.1.HalfOpen) → 2 * p.length ≤ k → ∀ r pos, overwriteLoop I k p = .ok (r, pos) →
    pos = r.countP (fun s => decide (I.uppermost > s.1.lowermost)) ∧ (p.Asc → r.Asc)
  | [], k, _, _, r, pos, h => by
    have : overwriteLoop I k [] = .ok ([], 0) := by cases k <;> rfl
    rw [this] at h
    cases h
    exact ⟨rfl, fun h => h⟩
  | (i, f) :: p, k, hp, hk, r, pos, h => by
    have hp' : ∀ s ∈ p, s.1.HalfOpen := fun s hs => hp s (by simp [hs])
    have hi := hp (i, f) (by simp)
    obtain ⟨k, rfl⟩ : ∃ k', k = k' + 1 := ⟨k - 1, by simp at hk; omega⟩
    have sub : ∀ (k : ℕ) (r : PF) (pos : ℕ), 2 * p.length ≤ k → overwriteLoop I k p = .ok (r, pos) →
        ∀ s ∈ r, ∃ t ∈ p, t.1.lower ≤ s.1.lower := by
      intro k r pos hk h s hs
      obtain ⟨r', pos', e1, e2, -, -, e5⟩ := overwriteLoop_spec hI p k (fun s hs => .inl (hp' s hs)) hk
      rw [h] at e1
      obtain ⟨rfl, rfl⟩ := Prod.mk.inj (Except.ok.inj e1)
      obtain ⟨t, ht, -, h'⟩ := e5 s hs
      exact ⟨t, ht, (halfOpen_bounds (e2 s hs) (hp' t ht) h').1⟩
    rcases leftover_spec hi hI with ⟨c, h1, h2, h3⟩ | ⟨a, b, h1, ha, hb, hd, h3⟩
    · obtain ⟨r', pos', e1, e2, -⟩ := overwriteLoop_spec hI p k (fun s hs => .inl (hp' s hs)) (by simp at hk; omega)
      have ih := overwriteLoop_order hI p k hp' (by simp at hk; omega) r' pos' e1
      by_cases hce : c.isempty = true
      · simp only [overwriteLoop, h1, bind, Except.bind, hce, e1, if_true] at h
        obtain ⟨rfl, rfl⟩ := Prod.mk.inj (Except.ok.inj h)
        exact ⟨ih.1, fun h => ih.2 h.tail⟩
      · have hch : c.HalfOpen := by
          rcases h2 with rfl | h2
          · exact absurd (by decide) hce
          · exact h2
        simp only [overwriteLoop, h1, bind, Except.bind, hce, e1, Bool.false_eq_true, if_false] at h
        obtain ⟨rfl, rfl⟩ := Prod.mk.inj (Except.ok.inj h)
        refine ⟨by simp only [List.countP_cons, ← ih.1, decide_eq_true_eq], fun hA => ?_⟩
        obtain ⟨d1, d2⟩ := List.pairwise_cons.1 hA
        refine List.pairwise_cons.2 ⟨fun s hs => ?_, ih.2 d2⟩
        obtain ⟨t, ht, h⟩ := sub k r' pos' (by simp at hk; omega) e1 s hs
        exact ((halfOpen_bounds hch hi (fun n hn => ((h3 n).1 hn).1)).2.trans (d1 t ht)).trans h
    · obtain ⟨k, rfl⟩ : ∃ k', k = k' + 1 := ⟨k - 1, by simp at hk; omega⟩
      obtain ⟨r', pos', e1, e2, -⟩ := overwriteLoop_spec hI p k (fun s hs => .inl (hp' s hs)) (by simp at hk; omega)
      have ih := overwriteLoop_order hI p k hp' (by simp at hk; omega) r' pos' e1
      have hemp : RS.isempty [a, b] = false := by simp [RS.isempty, ha.nonempty]
      have hbl := leftover_disjoint hb hI (fun n hn => ((h3 n).1 (.inr hn)).2)
      simp only [overwriteLoop, h1, hbl, bind, Except.bind, hemp, hb.nonempty, e1, Bool.false_eq_true, if_false] at h
      obtain ⟨rfl, rfl⟩ := Prod.mk.inj (Except.ok.inj h)
      refine ⟨by simp only [List.countP_cons, ← ih.1, decide_eq_true_eq], fun hA => ?_⟩
      obtain ⟨d1, d2⟩ := List.pairwise_cons.1 hA
      have aux : ∀ c : CS, c.HalfOpen → (∀ n : ℤ, c.Mem (fin n) → i.Mem (fin n)) → ∀ s ∈ r', c.upper ≤ s.1.lower := by
        intro c hc hci s hs
        obtain ⟨t, ht, h⟩ := sub k r' pos' (by simp at hk; omega) e1 s hs
        exact ((halfOpen_bounds hc hi hci).2.trans (d1 t ht)).trans h
      refine List.pairwise_cons.2 ⟨fun s hs => ?_, List.pairwise_cons.2 ⟨fun s hs => ?_, ih.2 d2⟩⟩
      · rcases List.mem_cons.1 hs with rfl | hs
        · exact leftover_order hi hI h1
        · exact aux a ha (fun n hn => ((h3 n).1 (.inl hn)).1) s hs
      · exact aux b hb (fun n hn => ((h3 n).1 (.inr hn)).1) s hs

/-- A piece that does not meet the interval begins before its end exactly if it ends before its begin. -/
theorem before_iff {s I : CS} (hs : s.HalfOpen) (hI : I.HalfOpen) (h : ∀ n : ℤ, s.Mem (fin n) → ¬ I.Mem (fin n)) :
    (I.uppermost > s.lowermost → s.upper ≤ I.lower) ∧ (¬ I.uppermost > s.lowermost → I.upper ≤ s.lower) := by
  have h0 := halfOpen_disjoint hs hI h
  obtain ⟨l, u, a, b⟩ := s
  obtain ⟨l', u', a', b'⟩ := I
  obtain ⟨h1, h2, h3⟩ := hs
  obtain ⟨h4, h5, h6⟩ := hI
  clear h
  simp only at *
  subst h2 h5
  cases l <;> cases l' <;> cases u <;> cases u' <;>
    simp_all [uppermost, lowermost, FP.lt_def, FP.le_def, FP.up, FP.dn, Iv.FP.leb] <;> omega

theorem insert_asc {I : CS × Fn} : ∀ {r : PF} {q : CS × Fn → Bool}, r.Asc → (∀ s ∈ r, s.1.lower < s.1.upper) →
    (∀ s ∈ r, (q s = true → s.1.upper ≤ I.1.lower) ∧ (q s = false → I.1.upper ≤ s.1.lower)) → I.1.lower < I.1.upper →
    Asc (r.insertIdx (r.countP q) I)
  | [], q, _, _, _, _ => by simp [Asc]
  | s :: r, q, h1, h2, h3, h4 => by
    obtain ⟨d1, d2⟩ := List.pairwise_cons.1 h1
    cases hq : q s with
    | true =>
      rw [List.countP_cons, hq]
      simp only [if_true, List.insertIdx_succ_cons]
      refine List.pairwise_cons.2 ⟨fun t ht => ?_, insert_asc d2 (fun t ht => h2 t (by simp [ht]))
        (fun t ht => h3 t (by simp [ht])) h4⟩
      rcases List.eq_or_mem_of_mem_insertIdx ht with rfl | ht
      · exact (h3 s (by simp)).1 hq
      · exact d1 t ht
    | false =>
      have h5 := (h3 s (by simp)).2 hq
      have hz : r.countP q = 0 := by
        rw [List.countP_eq_zero]
        intro t ht hqt
        have h6 := (h3 t (by simp [ht])).1 hqt
        have h7 := d1 t ht
        have h8 := h2 t (by simp [ht])
        have h9 := h2 s (by simp)
        exact absurd (lt_of_lt_of_le (lt_of_le_of_lt (h5.trans h9.le |>.trans h7) h8) h6) (not_lt.2 h4.le)
      rw [List.countP_cons, hq, hz]
      simp only [Bool.false_eq_true, if_false, Nat.add_zero, List.insertIdx_zero]
      refine List.pairwise_cons.2 ⟨fun t ht => ?_, h1⟩
      rcases List.mem_cons.1 ht with rfl | ht
      · exact h5
      · exact (h5.trans (h2 s (by simp)).le).trans (d1 t ht)

/-- `overwrite_at` keeps the order of the pieces. -/
theorem overwriteAt_asc {p r : PF} {I : CS} {f : Fn} (hp : ∀ s ∈ p, s.1.HalfOpen) (hI : I.HalfOpen) (hA : p.Asc)
    (h : overwriteAt p I f = .ok r) : r.Asc := by
  by_cases he : p.isEmpty = true
  · simp only [overwriteAt, he, if_true] at h
    cases h
    simp [Asc]
  · obtain ⟨r', pos, e1, e2, e3, -⟩ := overwriteLoop_spec hI p (3 * p.length) (fun s hs => .inl (hp s hs)) (by omega)
    have hb : I.boundaries none (some .exc) = .ok I := by
      have : mk? I.lower I.upper I.left I.right = .ok I := by simp [mk?, not_lt.2 (le_of_lt hI.1)]
      simp only [boundaries, this, bind, Except.bind]
      simp [convertEnds, hI.2.1]
    simp only [overwriteAt, he, e1, hb, bind, Except.bind, Bool.false_eq_true, if_false] at h
    cases h
    obtain ⟨o1, o2⟩ := overwriteLoop_order hI p _ hp (by omega) r' pos e1
    rw [o1, Nat.min_eq_left List.countP_le_length]
    refine insert_asc (o2 hA) (fun s hs => (e2 s hs).1) (fun s hs => ?_) hI.1
    have := before_iff (e2 s hs) hI (fun n hn => ((e3 (fun _ => 0) n _).1 ⟨s, hs, hn, rfl⟩).2)
    simpa using this

end PF
end Verif.Fun
