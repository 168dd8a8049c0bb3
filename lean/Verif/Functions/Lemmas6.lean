import Verif.Functions.Lemmas4
import Verif.Intervals.Lemmas10
import Verif.Intervals.Lemmas6

/-!
# Lemmas about `overwrite_at` and `RealSet.intersections`
-/

namespace Verif.Fun

open Iv Iv.FP Iv.CS

namespace PF

theorem norm_mem_fin {i : CS} (h : i.HalfOpen) {x : FP} (hx : i.Mem x) : ∃ n, x = fin n := by
  obtain ⟨h1, h2, h3⟩ := h
  obtain ⟨l, u, a, b⟩ := i
  simp only at h1 h2 h3
  subst h2
  cases x with
  | fin n => exact ⟨n, rfl⟩
  | ninf =>
    exfalso
    rcases h3 with ⟨rfl, rfl⟩ | ⟨h3, rfl⟩ <;> simp [CS.Mem, FP.lt_def, leb] at hx
    · exact h3 hx.1
  | pinf =>
    exfalso
    have := hx.2
    simp only [reduceCtorEq, and_false, or_false] at this
    exact absurd this (not_lt.2 (le_pinf _))

theorem mem_ext {i j : CS} (hi : i.HalfOpen)
    (h : ∀ n : ℤ, i.Mem (fin n) → j.Mem (fin n)) {x : FP} (hx : i.Mem x) : j.Mem x := by
  obtain ⟨n, rfl⟩ := norm_mem_fin hi hx
  exact h n hx

theorem mem_ninf_inc {u : FP} {b : Br} (n : ℤ) :
    (⟨ninf, u, .inc, b⟩ : CS).Mem (fin n) ↔ (⟨ninf, u, .exc, b⟩ : CS).Mem (fin n) := by
  simp [CS.Mem, FP.lt_def, leb]

/-- The difference of two intervals that both reach down to `-inf`. -/
theorem difference_ninf {u v : FP} (hu : ninf < u) (hv : ninf < v) (hvu : v ≤ u) :
    (⟨ninf, u, .exc, .exc⟩ : CS).difference ⟨ninf, v, .inc, .exc⟩ =
      .ok (.cs (if v = u then .emptyset else ⟨v, u, .inc, .exc⟩)) := by
  have hA : HalfOpen ⟨ninf, u, .exc, .exc⟩ := ⟨hu, rfl, .inl ⟨rfl, rfl⟩⟩
  have he : (⟨ninf, v, .inc, .exc⟩ : CS).isempty = false := by
    simp [CS.isempty, not_lt.2 (ninf_le v), ne_of_lt hv, CS.itype, Br.code]
  have hm : mk? ninf u .exc .exc = .ok ⟨ninf, u, .exc, .exc⟩ := by
    simp [mk?, not_lt.2 (ninf_le u)]
  by_cases e : v = u
  · subst e
    have hc : (⟨ninf, v, .inc, .exc⟩ : CS).containsInterval ⟨ninf, v, .exc, .exc⟩ = true := by
      simp [CS.containsInterval, he, CS.lowermost, CS.uppermost, up_ninf]
    simp [CS.difference, he, hc]
  · have hlt : v < u := lt_of_le_of_ne hvu e
    have hc : (⟨ninf, v, .inc, .exc⟩ : CS).containsInterval ⟨ninf, u, .exc, .exc⟩ = false := by
      simp [CS.containsInterval, he, CS.lowermost, CS.uppermost, up_ninf, dn_lt_dn, hlt]
    have hc2 : (⟨ninf, u, .exc, .exc⟩ : CS).containsInterval ⟨ninf, v, .inc, .exc⟩ true = false := by
      simp [CS.containsInterval, hA.nonempty]
    have hi : (⟨ninf, u, .exc, .exc⟩ : CS).intersects ⟨ninf, v, .inc, .exc⟩ = true := by
      simp [CS.intersects, he, not_lt.2 (ninf_le u), not_lt.2 (ninf_le v), ne_of_lt hv, ne_of_gt hu]
    have hd : v.dn < u := by
      cases v with
      | ninf => exact absurd hv (lt_irrefl _)
      | fin a => exact lt_trans (dn_lt (by simp) (by simp)) hlt
      | pinf => exact absurd hlt (not_lt.2 (le_pinf _))
    have hn : ninf < v.dn := by
      cases v with
      | ninf => exact absurd hv (lt_irrefl _)
      | fin a => simp [dn, FP.lt_def, leb]
      | pinf => exact absurd hlt (not_lt.2 (le_pinf _))
    have hv : (⟨ninf, u, .exc, .exc⟩ : CS).containsValue (⟨ninf, v, .inc, .exc⟩ : CS).uppermost = true ∧
        (⟨ninf, u, .exc, .exc⟩ : CS).uppermost ≠ (⟨ninf, v, .inc, .exc⟩ : CS).uppermost := by
      rw [containsValue_iff]
      refine ⟨⟨.inl ?_, .inl ?_⟩, ?_⟩
      · simpa [CS.uppermost] using hn
      · simpa [CS.uppermost] using hd
      · simp only [CS.uppermost]
        simpa [dn_inj] using fun h : u = v => e h.symm
    simp only [CS.difference, he, hc, hc2, hi, hm, bind, Except.bind, if_pos hv, Br.flip]
    simp [e]

/-- What `overwrite_at` keeps of one piece. -/
theorem leftover_spec {i I : CS} (hi : i.HalfOpen) (hI : I.HalfOpen) :
    (∃ c, leftover i I = .ok (.cs c) ∧ (c = .emptyset ∨ c.HalfOpen) ∧
      ∀ n : ℤ, c.Mem (fin n) ↔ i.Mem (fin n) ∧ ¬ I.Mem (fin n)) ∨
    (∃ a b, leftover i I = .ok (.rs [a, b]) ∧ a.HalfOpen ∧ b.HalfOpen ∧ a.Disjoint b ∧
      ∀ n : ℤ, (a.Mem (fin n) ∨ b.Mem (fin n)) ↔ i.Mem (fin n) ∧ ¬ I.Mem (fin n)) := by
  rcases halfOpen_intersection hi hI with ⟨h1, h2, h3⟩ | ⟨h1, h2, h3, br, h4, h5⟩
  · left
    refine ⟨i, ?_, .inr hi, fun n => ⟨fun h => ⟨h, ?_⟩, fun h => h.1⟩⟩
    · simp [leftover, intersectionEnds, h1, bind, Except.bind, difference_emptyset hi.wf]
    · rw [hi.mem_iff] at h
      rw [hI.mem_iff]
      grind
  · have hx : i.intersectionEnds I (some .inc) (some .exc) =
        .ok ⟨max i.lower I.lower, min i.upper I.upper, .inc, .exc⟩ := by
      simp only [intersectionEnds, h1, h4, bind, Except.bind]
      rcases h5.2.2 with ⟨e1, e2⟩ | ⟨e1, e2⟩
      · simp only at e1 e2
        simp [e1, e2, convertEnds, up_ninf]
      · simp only at e2
        simp [e2, convertEnds]
    by_cases hn : max i.lower I.lower = ninf
    · -- both reach down to -inf
      have hil : i.lower = ninf := by
        have := le_max_left i.lower I.lower; rw [hn] at this; exact le_antisymm this (ninf_le _)
      have hIl : I.lower = ninf := by
        have := le_max_right i.lower I.lower; rw [hn] at this; exact le_antisymm this (ninf_le _)
      have hie : i = ⟨ninf, i.upper, .exc, .exc⟩ := by
        obtain ⟨l, u, a, b⟩ := i
        obtain ⟨-, e2, e3⟩ := hi
        simp only at hil e2 e3
        subst hil; subst e2
        simpa using e3
      left
      have hd := difference_ninf (u := i.upper) (v := min i.upper I.upper) (hil ▸ hi.1)
        (lt_min (hil ▸ hi.1) (hIl ▸ hI.1)) (min_le_left _ _)
      rw [← hie] at hd
      refine ⟨_, by simp only [leftover, hx, hn, bind, Except.bind, hd]; rfl, ?_, ?_⟩
      · split
        · exact .inl rfl
        · rename_i hne
          refine .inr ⟨lt_of_le_of_ne (min_le_left _ _) hne, rfl, .inr ⟨?_, rfl⟩⟩
          have := lt_min (hil ▸ hi.1) (hIl ▸ hI.1)
          exact ne_of_gt this
      · intro n
        rw [hi.mem_iff, hI.mem_iff, hil, hIl]
        have := ninf_le (fin n)
        split
        · simp only [emptyset, CS.Mem]; grind
        · simp only [CS.Mem]; grind
    · have hbr : br = .inc := by
        rcases h5.2.2 with h | h
        · exact absurd h.1 hn
        · exact h.2
      subst hbr
      obtain ⟨d, hd, -, hsh⟩ := halfOpen_difference hi h5
      have hm := (difference_mem hi.wf h5.wf hi.reg h5.reg hd).1
      have hm' : ∀ n : ℤ, d.Mem (fin n) ↔ i.Mem (fin n) ∧ ¬ I.Mem (fin n) := by
        intro n
        rw [hm, h5.mem_iff, hi.mem_iff, hI.mem_iff]
        simp only
        grind
      cases d with
      | cs c =>
        left
        refine ⟨c, by simp only [leftover, hx, bind, Except.bind, hd], ?_, hm'⟩
        rcases hsh with h | h
        · left; injection h
        · exact .inr h
      | rs l =>
        right
        obtain ⟨hl, -, -⟩ := difference_rs hd
        rcases hsh with h | h
        · cases h
        simp only [Br.flip] at hl
        subst hl
        have ha := h _ (List.mem_cons_self ..)
        have hb := h _ (List.mem_cons_of_mem _ (List.mem_cons_self ..))
        have hdis : CS.Disjoint ⟨i.lower, max i.lower I.lower, i.left, .exc⟩
            ⟨min i.upper I.upper, i.upper, .inc, i.right⟩ := by
          rintro x ⟨hx1, hx2⟩
          obtain ⟨n, rfl⟩ := norm_mem_fin ha hx1
          rw [ha.mem_iff] at hx1
          rw [hb.mem_iff] at hx2
          have := h5.1
          simp only at hx1 hx2 this
          grind
        have hcon : CS.contiguous ⟨i.lower, max i.lower I.lower, i.left, .exc⟩
            ⟨min i.upper I.upper, i.upper, .inc, i.right⟩ = false := by
          have h6 := h5.1
          have h7 := hi.1
          simp only [contiguous]
          simp only at h6
          rw [if_neg (fun h => (ne_of_lt h7) h.1), if_neg (fun h => (ne_of_lt h6) h.1)]
        obtain ⟨D, hD, -, hD'⟩ := RS.simplify_two ha.wf hb.wf ha.reg hb.reg ha.nonempty hdis hcon
        have hD' := hD' hb.nonempty
        have hle : max i.lower I.lower ≤ i.upper := by
          have := h5.1; simp only at this
          exact le_of_lt (lt_of_lt_of_le this (min_le_left _ _))
        simp only [hle, if_true] at hD'
        subst hD'
        refine ⟨_, _, by simp only [leftover, hx, bind, Except.bind, hd, hD], ha, hb, hdis, fun n => ?_⟩
        rw [← hm']
        simp only [NS.Mem, RS.mem_pair]

theorem leftover_empty {I : CS} (hI : I.HalfOpen) : leftover .emptyset I = .ok (.cs .emptyset) := by
  cases hx : CS.intersects emptyset I with
  | false =>
    have := difference_emptyset (s := emptyset) (by decide)
    simp [leftover, intersectionEnds, hx, bind, Except.bind, this]
  | true =>
    obtain ⟨c, hc, hh⟩ := halfOpenOrEmpty_intersection (a := emptyset) (b := I) (.inr rfl) (.inl hI)
    have hcm := (CS.intersection_ok emptyset I (by decide) hI.wf)
    obtain ⟨c', hc', -, hm⟩ := hcm
    rw [hc] at hc'; cases hc'
    have hce : c = emptyset := by
      rcases hh with h | h
      · obtain ⟨x, hx⟩ := CS.exists_mem h.wf h.nonempty
        have := ((hm x).1 hx).1
        revert this; simp only [emptyset, CS.Mem]; grind
      · exact h
    subst hce
    have hd : emptyset.difference (emptyset.convertEnds (some .inc) (some .exc)) = .ok (.cs emptyset) := by
      decide +kernel
    simp [leftover, intersectionEnds, hx, bind, Except.bind, hc, hd]

theorem emptyset_not_mem (x : FP) : ¬ emptyset.Mem x := by
  simp only [emptyset, CS.Mem]; grind

theorem value_cons {val : ℤ → ℚ} {s : CS × Fn} {p : PF} {n : ℤ} {v : Option ℚ} :
    Value val (s :: p) n v ↔ (s.1.Mem (fin n) ∧ s.2.eval (val n) = v) ∨ Value val p n v := by
  simp [Value]

/-- What the pieces of the loop of `overwrite_at` look like. -/
theorem overwriteLoop_spec {I : CS} (hI : I.HalfOpen) : ∀ (p : PF) (k : Nat),
    (∀ s ∈ p, s.1.HalfOpenOrEmpty) → 2 * p.length ≤ k →
    ∃ r pos, overwriteLoop I k p = .ok (r, pos) ∧ (∀ s ∈ r, s.1.HalfOpen) ∧
      (∀ (val : ℤ → ℚ) n v, Value val r n v ↔ Value val p n v ∧ ¬ I.Mem (fin n)) ∧
      (p.Disj → r.Disj) ∧ (∀ s ∈ r, ∃ t ∈ p, s.2 = t.2 ∧ ∀ n : ℤ, s.1.Mem (fin n) → t.1.Mem (fin n))
  | [], k, _, _ => ⟨[], 0, by cases k <;> rfl, by simp, by simp [Value], fun h => h, by simp⟩
  | (i, f) :: p, k, hp, hk => by
    have hp' : ∀ s ∈ p, s.1.HalfOpenOrEmpty := fun s hs => hp s (by simp [hs])
    obtain ⟨k, rfl⟩ : ∃ k', k = k' + 1 := ⟨k - 1, by simp at hk; omega⟩
    have hl : (∃ c, leftover i I = .ok (.cs c) ∧ (c = .emptyset ∨ c.HalfOpen) ∧
        ∀ n : ℤ, c.Mem (fin n) ↔ i.Mem (fin n) ∧ ¬ I.Mem (fin n)) ∨
      (∃ a b, leftover i I = .ok (.rs [a, b]) ∧ a.HalfOpen ∧ b.HalfOpen ∧ a.Disjoint b ∧
        ∀ n : ℤ, (a.Mem (fin n) ∨ b.Mem (fin n)) ↔ i.Mem (fin n) ∧ ¬ I.Mem (fin n)) := by
      rcases hp (i, f) (by simp) with h | h
      · exact leftover_spec h hI
      · simp only at h
        subst h
        left
        exact ⟨_, leftover_empty hI, .inl rfl, fun n => by simp [emptyset_not_mem]⟩
    rcases hl with ⟨c, h1, h2, h3⟩ | ⟨a, b, h1, ha, hb, hd, h3⟩
    · obtain ⟨r, pos, e1, e2, e3, e4, e5⟩ := overwriteLoop_spec hI p k hp' (by simp at hk; omega)
      by_cases hce : c.isempty = true
      · refine ⟨r, pos, by simp [overwriteLoop, h1, bind, Except.bind, hce, e1], e2, ?_,
          fun h => e4 h.tail, fun s hs => ?_⟩
        · intro val n v
          have hno : ¬ c.Mem (fin n) := by
            rcases h2 with rfl | h2
            · exact emptyset_not_mem _
            · rw [h2.nonempty] at hce; cases hce
          rw [e3, value_cons]
          have := (h3 n).not.1 hno
          simp only
          tauto
        · obtain ⟨t, ht, h⟩ := e5 s hs
          exact ⟨t, by simp [ht], h⟩
      · have hch : c.HalfOpen := by
          rcases h2 with rfl | h2
          · exact absurd (by decide) hce
          · exact h2
        refine ⟨(c, f) :: r, pos + if I.uppermost > c.lowermost then 1 else 0,
          by simp [overwriteLoop, h1, bind, Except.bind, hce, e1], ?_, ?_, ?_, ?_⟩
        · intro s hs
          rcases List.mem_cons.1 hs with rfl | hs
          · exact hch
          · exact e2 s hs
        · intro val n v
          rw [value_cons, value_cons, e3]
          simp only [h3]
          tauto
        · intro hd
          obtain ⟨d1, d2⟩ := List.pairwise_cons.1 hd
          refine List.pairwise_cons.2 ⟨fun s hs => ?_, e4 d2⟩
          obtain ⟨t, ht, -, h⟩ := e5 s hs
          rintro x ⟨hx1, hx2⟩
          obtain ⟨n, rfl⟩ := norm_mem_fin hch hx1
          exact d1 t ht _ ⟨((h3 n).1 hx1).1, h n hx2⟩
        · intro s hs
          rcases List.mem_cons.1 hs with rfl | hs
          · exact ⟨(i, f), by simp, rfl, fun n hn => ((h3 n).1 hn).1⟩
          · obtain ⟨t, ht, h⟩ := e5 s hs
            exact ⟨t, by simp [ht], h⟩
    · obtain ⟨k, rfl⟩ : ∃ k', k = k' + 1 := ⟨k - 1, by simp at hk; omega⟩
      obtain ⟨r, pos, e1, e2, e3, e4, e5⟩ := overwriteLoop_spec hI p k hp' (by simp at hk; omega)
      have hemp : RS.isempty [a, b] = false := by simp [RS.isempty, ha.nonempty]
      -- the second part is looked at again and stays as it is
      have hbI : ∀ n : ℤ, b.Mem (fin n) → ¬ I.Mem (fin n) := fun n hn => ((h3 n).1 (.inr hn)).2
      have hbl : leftover b I = .ok (.cs b) := by
        rcases halfOpen_intersection hb hI with ⟨g1, g2, g3⟩ | ⟨g1, g2, g3, br, g4, g5⟩
        · simp [leftover, intersectionEnds, g1, bind, Except.bind, difference_emptyset hb.wf]
        · exfalso
          obtain ⟨x, hx⟩ := CS.exists_mem g5.wf g5.nonempty
          obtain ⟨n, rfl⟩ := norm_mem_fin g5 hx
          rw [g5.mem_iff] at hx
          refine hbI n ?_ ?_
          · rw [hb.mem_iff]; simp only at hx; grind
          · rw [hI.mem_iff]; simp only at hx; grind
      refine ⟨(a, f) :: (b, f) :: r, (pos + if I.uppermost > b.lowermost then 1 else 0) +
          if I.uppermost > a.lowermost then 1 else 0,
        by simp [overwriteLoop, h1, hbl, bind, Except.bind, hemp, hb.nonempty, e1], ?_, ?_, ?_, ?_⟩
      · intro s hs
        rcases List.mem_cons.1 hs with rfl | hs
        · exact ha
        rcases List.mem_cons.1 hs with rfl | hs
        · exact hb
        · exact e2 s hs
      · intro val n v
        rw [value_cons, value_cons, value_cons, e3]
        simp only
        have := h3 n
        tauto
      · intro hdj
        obtain ⟨d1, d2⟩ := List.pairwise_cons.1 hdj
        have aux : ∀ c : CS, c.HalfOpen → (∀ n : ℤ, c.Mem (fin n) → i.Mem (fin n)) → ∀ s ∈ r, c.Disjoint s.1 := by
          intro c hch hci s hs
          obtain ⟨t, ht, -, h⟩ := e5 s hs
          rintro x ⟨hx1, hx2⟩
          obtain ⟨n, rfl⟩ := norm_mem_fin hch hx1
          exact d1 t ht _ ⟨hci n hx1, h n hx2⟩
        refine List.pairwise_cons.2 ⟨fun s hs => ?_, List.pairwise_cons.2 ⟨fun s hs => ?_, e4 d2⟩⟩
        · rcases List.mem_cons.1 hs with rfl | hs
          · exact hd
          · exact aux a ha (fun n hn => ((h3 n).1 (.inl hn)).1) s hs
        · exact aux b hb (fun n hn => ((h3 n).1 (.inr hn)).1) s hs
      · intro s hs
        rcases List.mem_cons.1 hs with rfl | hs
        · exact ⟨(i, f), by simp, rfl, fun n hn => ((h3 n).1 (.inl hn)).1⟩
        rcases List.mem_cons.1 hs with rfl | hs
        · exact ⟨(i, f), by simp, rfl, fun n hn => ((h3 n).1 (.inr hn)).1⟩
        · obtain ⟨t, ht, h⟩ := e5 s hs
          exact ⟨t, by simp [ht], h⟩

theorem disj_perm {p q : PF} (h : p.Perm q) : p.Disj → q.Disj :=
  fun hd => (h.pairwise_iff (fun hab x hx => hab x ⟨hx.2, hx.1⟩)).1 hd

/-- `overwrite_at` replaces the values on the interval and keeps all others. -/
theorem overwriteAt_spec {p : PF} {I : CS} {f : Fn} (hp : ∀ s ∈ p, s.1.HalfOpenOrEmpty) (hI : I.HalfOpen) :
    ∃ r, overwriteAt p I f = .ok r ∧ (∀ s ∈ r, s.1.HalfOpen) ∧ (p.Disj → r.Disj) ∧
      (∀ (val : ℤ → ℚ) n v, Value val r n v ↔ (I.Mem (fin n) ∧ f.eval (val n) = v) ∨
        (¬ I.Mem (fin n) ∧ Value val p n v)) ∧
      (∀ s ∈ r, s.2 = f ∨ ∃ t ∈ p, s.2 = t.2 ∧ t.1.HalfOpen) := by
  by_cases he : p.isEmpty = true
  · rw [List.isEmpty_iff] at he
    subst he
    refine ⟨[(I, f)], rfl, by simpa using hI, by simp [Disj], fun val n v => by simp [Value], by simp⟩
  · obtain ⟨r, pos, e1, e2, e3, e4, e5⟩ := overwriteLoop_spec hI p (3 * p.length) hp (by omega)
    have hb : I.boundaries none (some .exc) = .ok I := by
      have : mk? I.lower I.upper I.left I.right = .ok I := by simp [mk?, not_lt.2 (le_of_lt hI.1)]
      simp only [boundaries, this, bind, Except.bind]
      simp [convertEnds, hI.2.1]
    have hperm : (r.insertIdx (min pos r.length) (I, f)).Perm ((I, f) :: r) :=
      List.perm_insertIdx _ _ (Nat.min_le_right _ _)
    refine ⟨_, by simp only [overwriteAt, he, e1, hb, bind, Except.bind]; rfl, ?_, ?_, ?_, ?_⟩
    · intro s hs
      rcases List.mem_cons.1 (hperm.mem_iff.1 hs) with rfl | hs
      · exact hI
      · exact e2 s hs
    · intro hd
      refine disj_perm hperm.symm (List.pairwise_cons.2 ⟨fun s hs => ?_, e4 hd⟩)
      rintro x ⟨hx1, hx2⟩
      obtain ⟨n, rfl⟩ := norm_mem_fin hI hx1
      exact ((e3 (fun _ => 0) n _).1 ⟨s, hs, hx2, rfl⟩).2 hx1
    · intro val n v
      rw [value_perm hperm, value_cons, e3]
      simp only
      tauto
    · intro s hs
      rcases List.mem_cons.1 (hperm.mem_iff.1 hs) with rfl | hs
      · exact .inl rfl
      · obtain ⟨t, ht, h, h'⟩ := e5 s hs
        refine .inr ⟨t, ht, h, ?_⟩
        rcases hp t ht with h'' | h''
        · exact h''
        · obtain ⟨x, hx⟩ := CS.exists_mem (e2 s hs).wf (e2 s hs).nonempty
          obtain ⟨n, rfl⟩ := norm_mem_fin (e2 s hs) hx
          have := h' n hx
          rw [h''] at this
          exact absurd this (emptyset_not_mem _)

theorem insertSeg_map (s : CS) : ∀ l : List CS, insertSeg (s, .undef) (l.map (fun i => (i, Fn.undef))) =
    (insertCS s l).map (fun r => r.map (fun i => (i, Fn.undef)))
  | [] => rfl
  | t :: l => by
    simp only [List.map_cons, insertSeg, insertCS, bind, Except.bind, insertSeg_map s l]
    cases CS.comparator s t with
    | error e => rfl
    | ok c =>
      simp only
      split
      · rfl
      · cases insertCS s l <;> rfl

theorem sortSegs_map : ∀ l : List CS, sortSegs (l.map (fun i => (i, Fn.undef))) =
    (sortCS l).map (fun r => r.map (fun i => (i, Fn.undef)))
  | [] => rfl
  | s :: l => by
    simp only [List.map_cons, sortSegs, sortCS, bind, Except.bind, sortSegs_map l]
    cases sortCS l with
    | error e => rfl
    | ok r => exact insertSeg_map s r

theorem sortCS_spec {l : List CS} (h : ∀ i ∈ l, i.HalfOpen) (hd : l.Pairwise CS.Disjoint) :
    ∃ r, sortCS l = .ok r ∧ r.Perm l := by
  obtain ⟨q, hq⟩ := sortSegs_ok (p := l.map (fun i => (i, Fn.undef)))
    (fun t ht => by
      obtain ⟨i, hi, rfl⟩ := List.mem_map.1 ht
      exact norm_ne (h i hi))
    (by rw [Disj, List.pairwise_map]; exact hd)
  have hperm := sortSegs_perm hq
  rw [sortSegs_map] at hq
  cases hs : sortCS l with
  | error e => rw [hs] at hq; cases hq
  | ok r =>
    rw [hs] at hq
    cases hq
    refine ⟨r, rfl, ?_⟩
    have := hperm.map (fun s : CS × Fn => s.1)
    simpa [List.map_map, Function.comp_def] using this

theorem eraseDups_nodup {α : Type} [BEq α] [LawfulBEq α] : ∀ {l : List α}, l.Nodup → l.eraseDups = l
  | [], _ => rfl
  | a :: l, h => by
    obtain ⟨h1, h2⟩ := List.nodup_cons.1 h
    have : l.filter (fun b => !b == a) = l := by
      rw [List.filter_eq_self]
      intro b hb
      have : b ≠ a := fun e => h1 (e ▸ hb)
      simpa using this
    rw [List.eraseDups_cons, this, eraseDups_nodup h2]

/-- `RealSet.intersections` of two families of disjoint half-open intervals. -/
theorem intersections_spec {l o : List CS} (hl : ∀ i ∈ l, i.HalfOpen) (ho : ∀ i ∈ o, i.HalfOpen)
    (dl : l.Pairwise CS.Disjoint) (dO : o.Pairwise CS.Disjoint) :
    ∃ dom, intersections l o = .ok dom ∧ (∀ d ∈ dom, d.HalfOpen) ∧ dom.Pairwise CS.Disjoint ∧
      (∀ d ∈ dom, ∃ i ∈ l, ∃ j ∈ o, d.lower = max i.lower j.lower ∧ d.upper = min i.upper j.upper ∧
        ∀ x, d.Mem x ↔ i.Mem x ∧ j.Mem x) ∧
      (∀ x, RS.Mem l x → RS.Mem o x → RS.Mem dom x) := by
  have hok : ∃ r, (l.flatMap (fun i => o.map (fun j => (i, j)))).mapM (fun p => p.1.intersection p.2) = .ok r := by
    cases hm : (l.flatMap (fun i => o.map (fun j => (i, j)))).mapM (fun p => p.1.intersection p.2) with
    | ok r => exact ⟨r, rfl⟩
    | error e =>
      obtain ⟨p, hp, he⟩ := mapM_error _ _ _ hm
      obtain ⟨i, hi, hp⟩ := List.mem_flatMap.1 hp
      obtain ⟨j, hj, rfl⟩ := List.mem_map.1 hp
      obtain ⟨c, hc, -⟩ := CS.intersection_ok i j (hl i hi).wf (ho j hj).wf
      simp only at he
      rw [hc] at he; cases he
  obtain ⟨r, hr⟩ := hok
  have hf := (mapM_ok_iff _ _ _).1 hr
  have hmem : ∀ c ∈ r, ∃ i ∈ l, ∃ j ∈ o, i.intersection j = .ok c := by
    intro c hc
    obtain ⟨p, hp, e⟩ := forall₂_mem_right hf hc
    obtain ⟨i, hi, hp⟩ := List.mem_flatMap.1 hp
    obtain ⟨j, hj, rfl⟩ := List.mem_map.1 hp
    exact ⟨i, hi, j, hj, e⟩
  have hne : ∀ c ∈ r.filter (fun i => !i.isempty), ∃ i ∈ l, ∃ j ∈ o, c.HalfOpen ∧
      c.lower = max i.lower j.lower ∧ c.upper = min i.upper j.upper ∧ ∀ x, c.Mem x ↔ i.Mem x ∧ j.Mem x := by
    intro c hc
    rw [List.mem_filter] at hc
    obtain ⟨i, hi, j, hj, e⟩ := hmem c hc.1
    obtain ⟨c', hc', -, hm⟩ := CS.intersection_ok i j (hl i hi).wf (ho j hj).wf
    rw [e] at hc'; cases hc'
    refine ⟨i, hi, j, hj, ?_⟩
    rcases halfOpen_intersection (hl i hi) (ho j hj) with ⟨-, -, e'⟩ | ⟨-, -, -, br, e', hn⟩
    · rw [e] at e'; cases e'
      exact absurd hc.2 (by decide)
    · rw [e] at e'; cases e'
      exact ⟨hn, rfl, rfl, hm⟩
  have hdisj : (r.filter (fun i => !i.isempty)).Pairwise CS.Disjoint := by
    refine List.Pairwise.filter _ ?_
    have hpp : (l.flatMap (fun i => o.map (fun j => (i, j)))).Pairwise
        (fun p q => (p.1.Disjoint q.1 ∨ p.2.Disjoint q.2)) := by
      rw [List.pairwise_flatMap]
      refine ⟨fun i hi => ?_, ?_⟩
      · rw [List.pairwise_map]
        exact dO.imp (fun h => .inr h)
      · refine dl.imp (fun {a b} h x hx y hy => ?_)
        obtain ⟨j, -, rfl⟩ := List.mem_map.1 hx
        obtain ⟨k, -, rfl⟩ := List.mem_map.1 hy
        exact .inl h
    have hf' : List.Forall₂ (fun (p : CS × CS) c => ∀ x, c.Mem x → p.1.Mem x ∧ p.2.Mem x)
        (l.flatMap (fun i => o.map (fun j => (i, j)))) r := by
      refine List.Forall₂.imp ?_ ((List.forall₂_and_left (p := fun p : CS × CS => p.1 ∈ l ∧ p.2 ∈ o) _ _).2 ⟨?_, hf⟩)
      · rintro ⟨i, j⟩ c ⟨⟨hi, hj⟩, e⟩
        obtain ⟨c', hc', -, hm⟩ := CS.intersection_ok i j (hl i hi).wf (ho j hj).wf
        simp only at e
        rw [e] at hc'; cases hc'
        exact fun x hx => (hm x).1 hx
      · intro p hp
        obtain ⟨i, hi, hp⟩ := List.mem_flatMap.1 hp
        obtain ⟨j, hj, rfl⟩ := List.mem_map.1 hp
        exact ⟨hi, hj⟩
    refine RS.forall₂_pairwise (fun a a' b b' h1 h2 hR => ?_) hf' hpp
    rintro x ⟨hx, hx'⟩
    rcases hR with hR | hR
    · exact hR x ⟨(h1 x hx).1, (h2 x hx').1⟩
    · exact hR x ⟨(h1 x hx).2, (h2 x hx').2⟩
  have hnd : (r.filter (fun i => !i.isempty)).Nodup := by
    refine (List.Pairwise.and_mem.1 hdisj).imp ?_
    rintro a b ⟨ha, hb, h⟩ rfl
    obtain ⟨i, hi, j, hj, hn, -⟩ := hne a ha
    obtain ⟨x, hx⟩ := CS.exists_mem hn.wf hn.nonempty
    exact h x ⟨hx, hx⟩
  obtain ⟨dom, hdom, hperm⟩ := sortCS_spec (l := r.filter (fun i => !i.isempty))
    (fun c hc => by obtain ⟨i, hi, j, hj, hn, -⟩ := hne c hc; exact hn) hdisj
  refine ⟨dom, ?_, ?_, ?_, ?_, ?_⟩
  · have hr' : isectPairs l o = .ok (r.filter (fun i => !i.isempty)) := by
      simp only [isectPairs, hr, bind, Except.bind, eraseDups_nodup hnd]
    simp only [intersections, hr', bind, Except.bind, hdom]
  · intro d hd
    obtain ⟨i, hi, j, hj, hn, -⟩ := hne d (hperm.mem_iff.1 hd)
    exact hn
  · exact (hperm.symm.pairwise_iff (fun hab x hx => hab x ⟨hx.2, hx.1⟩)).1 hdisj
  · intro d hd
    obtain ⟨i, hi, j, hj, -, h⟩ := hne d (hperm.mem_iff.1 hd)
    exact ⟨i, hi, j, hj, h⟩
  · rintro x ⟨i, hi, hxi⟩ ⟨j, hj, hxj⟩
    obtain ⟨c, hc, e⟩ := RS.forall₂_mem_left hf (a := (i, j))
      (List.mem_flatMap.2 ⟨i, hi, List.mem_map.2 ⟨j, hj, rfl⟩⟩)
    obtain ⟨c', hc', hw, hm⟩ := CS.intersection_ok i j (hl i hi).wf (ho j hj).wf
    simp only at e
    rw [e] at hc'; cases hc'
    have hcx := (hm x).2 ⟨hxi, hxj⟩
    refine ⟨c, hperm.mem_iff.2 (List.mem_filter.2 ⟨hc, ?_⟩), hcx⟩
    cases he : c.isempty with
    | false => rfl
    | true => exact absurd ⟨x, hcx⟩ ((CS.isempty_iff c hw).1 he)

end PF
end Verif.Fun
