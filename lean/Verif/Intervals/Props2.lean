import Verif.Intervals.Lemmas10
import Verif.Intervals.Props

/-!
# Half-open intervals

For intervals `[a, b)` and `(-inf, b)`, the form in which trees and piecewise functions use them, the
set operations never raise, are exact in whatever order the intervals are given, and stay within this
form.  This covers what the `_partial` theorems of `Verif.Intervals.Props` leave open.
-/

namespace Verif.Iv
open FP

/-- **C06 (half-open).** `A.difference(B)` returns, and contains exactly the points of `A` not in `B`. -/
theorem C06_half_open {A B : CS} (hA : A.HalfOpen) (hB : B.HalfOpen) :
    ∃ D, A.difference B = .ok D ∧ (∀ x, D.Mem x ↔ A.Mem x ∧ ¬ B.Mem x) ∧ D.All CS.HalfOpenOrEmpty := by
  obtain ⟨D, h1, h2, -⟩ := CS.halfOpen_difference hA hB
  exact ⟨D, h1, (CS.difference_mem hA.wf hB.wf hA.reg hB.reg h1).1, h2⟩

example : (⟨fin 0, fin 9, .inc, .exc⟩ : CS).HalfOpen ∧ (⟨fin 1, fin 8, .inc, .exc⟩ : CS).HalfOpen ∧
    (⟨fin 0, fin 9, .inc, .exc⟩ : CS).difference ⟨fin 1, fin 8, .inc, .exc⟩ =
      .ok (.rs [⟨fin 0, fin 1, .inc, .exc⟩, ⟨fin 8, fin 9, .inc, .exc⟩]) := by decide +kernel

/-- **C06 (half-open, unions).** `S.difference(T)` returns and is exact, whatever the order of the
intervals and whether or not they overlap. -/
theorem C06_realset_half_open {l o : List CS} (hl : ∀ s ∈ l, s.HalfOpen) (ho : ∀ s ∈ o, s.HalfOpen) :
    ∃ D, RS.difference l o = .ok D ∧ (∀ x, D.Mem x ↔ RS.Mem l x ∧ ¬ RS.Mem o x) ∧
      D.All CS.HalfOpenOrEmpty :=
  RS.difference_halfOpen (fun s h => .inl (hl s h)) (fun s h => .inl (ho s h))

/-- **C10 (half-open).** `simplify` returns for half-open intervals in any order; the result has the
same members and is in normal form: half-open, increasing, neighbours not contiguous. -/
theorem C10_half_open {l : List CS} (hl : ∀ s ∈ l, s.HalfOpen) :
    ∃ D, RS.simplify l = .ok D ∧ (∀ x, D.Mem x ↔ RS.Mem l x) ∧
      ∃ r : List CS, (D = .cs .emptyset ∧ r = [] ∨ (∃ c, D = .cs c ∧ r = [c]) ∨ D = .rs r ∧ 2 ≤ r.length) ∧
        (∀ s ∈ r, s.HalfOpen) ∧ r.Pairwise RS.Before ∧ r.IsChain (fun a b => a.upper < b.lower) := by
  obtain ⟨D, h1, h2, -, r, h4, h5, h6, h7⟩ := RS.simplify_halfOpen (fun s h => .inl (hl s h))
  refine ⟨D, h1, h2, r, h4, h5, h6, ?_⟩
  have h8 := RS.isChain_and h7 (S := fun a b => a ∈ r ∧ b ∈ r ∧ a.upper ≤ b.lower) (by
    refine (List.Pairwise.and_mem.1 h6).imp ?_
    rintro a b ⟨ha, hb, hbef⟩
    refine ⟨ha, hb, ?_⟩
    have ha := h5 a ha
    have hb := h5 b hb
    by_contra hc
    rw [not_le] at hc
    have hi : a.intersects b = true := by
      rw [CS.halfOpen_intersects ha hb]
      refine ⟨hc, ?_⟩
      by_contra hc'
      rw [not_lt] at hc'
      obtain ⟨x, hx⟩ := CS.exists_mem ha.wf ha.nonempty
      obtain ⟨y, hy⟩ := CS.exists_mem hb.wf hb.nonempty
      have := hbef x y hx hy
      revert hx hy; simp only [CS.Mem]; grind
    rcases CS.halfOpen_intersection ha hb with ⟨h, -⟩ | ⟨-, -, -, br, e, hn⟩
    · rw [hi] at h; cases h
    · obtain ⟨x, hx⟩ := CS.exists_mem hn.wf hn.nonempty
      obtain ⟨c, hc1, -, hm⟩ := CS.intersection_ok a b ha.wf hb.wf
      rw [e] at hc1; cases hc1
      have := (hm x).1 hx
      exact lt_irrefl _ (hbef x x this.1 this.2))
  refine h8.imp ?_
  rintro a b ⟨h9, ha, hb, h10⟩
  have ha := h5 a ha
  have hb := h5 b hb
  refine lt_of_le_of_ne h10 (fun e => ?_)
  have hle : b.left = .inc := by
    rcases hb.2.2 with h | h
    · have := ha.1
      rw [e, h.1] at this
      exact absurd this (not_lt.2 (ninf_le _))
    · exact h.2
  rw [CS.contiguous] at h9
  simp [e, hle, ha.2.1, Br.code] at h9

example : RS.simplify [⟨fin 5, pinf, .inc, .exc⟩, ⟨fin 0, fin 3, .inc, .exc⟩, ⟨fin 1, fin 4, .inc, .exc⟩,
    ⟨ninf, fin 0, .exc, .exc⟩] = .ok (.rs [⟨ninf, fin 4, .exc, .exc⟩, ⟨fin 5, pinf, .inc, .exc⟩]) := by
  decide +kernel

/-- **C05 (half-open, unions).** `S.union(T)` returns and contains exactly the points of both. -/
theorem C05_realset_half_open {l o : List CS} (hl : ∀ s ∈ l, s.HalfOpen) (ho : ∀ s ∈ o, s.HalfOpen) :
    ∃ D, RS.union l o = .ok D ∧ (∀ x, D.Mem x ↔ RS.Mem l x ∨ RS.Mem o x) ∧ D.All CS.HalfOpenOrEmpty := by
  obtain ⟨D, h1, h2, h3, -⟩ := RS.simplify_halfOpen (l := l ++ o) (fun s h => by
    rcases List.mem_append.1 h with h | h
    · exact .inl (hl s h)
    · exact .inl (ho s h))
  exact ⟨D, h1, fun x => by rw [h2, RS.mem_append], h3⟩

/-- **C04 (half-open, unions).** `S.intersection(T)` returns and contains exactly the common points. -/
theorem C04_realset_half_open {l o : List CS} (hl : ∀ s ∈ l, s.HalfOpen) (ho : ∀ s ∈ o, s.HalfOpen) :
    ∃ D, RS.intersection l o = .ok D ∧ (∀ x, D.Mem x ↔ RS.Mem l x ∧ RS.Mem o x) ∧
      D.All CS.HalfOpenOrEmpty := by
  obtain ⟨r, h1, -, h2, -⟩ := RS.inter_list (l := l) (o := o) (fun s h => ⟨(hl s h).wf, (hl s h).reg⟩)
    (fun s h => ⟨(ho s h).wf, (ho s h).reg⟩)
  have h3 : ∀ s ∈ r, s.HalfOpenOrEmpty := by
    intro c hc
    obtain ⟨p, hp, e⟩ := forall₂_mem_right ((mapM_ok_iff _ _ _).1 h1) hc
    obtain ⟨i, hi, hp⟩ := List.mem_flatMap.1 hp
    obtain ⟨j, hj, rfl⟩ := List.mem_map.1 hp
    obtain ⟨c', e', h⟩ := CS.halfOpenOrEmpty_intersection (.inl (ho j hj)) (.inl (hl i hi))
    rw [e] at e'; cases e'
    exact h
  obtain ⟨D, h4, h5, h6, -⟩ := RS.simplify_halfOpen h3
  refine ⟨D, ?_, fun x => by rw [h5, h2], h6⟩
  have h1' : (l.flatMap (fun i => o.map (fun j => (i, j)))).mapM (fun p => p.2.intersection p.1) = .ok r := h1
  rw [RS.intersection, h1']
  exact h4

/-- **C06 (half-open, complement).** The complement of a union of half-open intervals. -/
theorem C06_complement_half_open {l : List CS} (hl : ∀ s ∈ l, s.HalfOpen) :
    ∃ D, RS.complement l = .ok D ∧ (∀ n : ℤ, D.Mem (fin n) ↔ ¬ RS.Mem l (fin n)) ∧
      D.All CS.HalfOpenOrEmpty := by
  have hR : CS.allnumbers.HalfOpen := by decide
  obtain ⟨D, h1, h2, h3⟩ := C06_realset_half_open (l := [.allnumbers]) (o := l) (by simp [hR]) hl
  have hm : ∀ n : ℤ, RS.Mem [CS.allnumbers] (fin n) := fun n =>
    ⟨CS.allnumbers, by simp, by simp [CS.allnumbers, CS.Mem, FP.lt_def, leb]⟩
  cases D with
  | cs c =>
    exact ⟨.cs c, by simp [RS.complement, h1, bind, Except.bind],
      fun n => by rw [h2]; simp [hm n], h3⟩
  | rs r =>
    obtain ⟨D', g1, g2, g3, -⟩ := RS.simplify_halfOpen (l := r) h3
    refine ⟨D', by simp [RS.complement, h1, bind, Except.bind, g1], fun n => ?_, g3⟩
    rw [g2]
    have := h2 (fin n)
    simp only [NS.Mem] at this
    rw [this]; simp [hm n]

example : RS.complement [⟨fin 5, pinf, .inc, .exc⟩, ⟨fin 0, fin 3, .inc, .exc⟩] =
    .ok (.rs [⟨ninf, fin 0, .exc, .exc⟩, ⟨fin 3, fin 5, .inc, .exc⟩]) ∧
    RS.union [⟨fin 5, pinf, .inc, .exc⟩] [⟨fin 0, fin 3, .inc, .exc⟩] =
    .ok (.rs [⟨fin 0, fin 3, .inc, .exc⟩, ⟨fin 5, pinf, .inc, .exc⟩]) ∧
    RS.intersection [⟨fin 2, pinf, .inc, .exc⟩] [⟨fin 0, fin 3, .inc, .exc⟩] =
    .ok (.cs ⟨fin 2, fin 3, .inc, .exc⟩) := ⟨by decide +kernel, by decide +kernel, by decide +kernel⟩

end Verif.Iv
