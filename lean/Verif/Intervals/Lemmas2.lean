import Verif.Intervals.Lemmas

/-! # Lemmas about containment and difference of intervals -/

namespace Verif.Iv
open FP
namespace CS
theorem lowermost_mem {s : CS} (h : s.WF) (he : s.isempty = false) (hl : s.lower ≠ ninf ∨ s.left = .inc)
   : s.Mem s.lowermost := by
  obtain ⟨l, u, a, b⟩ := s
  revert h he hl
  cases a <;> cases b <;>
    simp only [isempty, isclosed, itype, Br.code, WF, Mem, lowermost, if_true, if_false, reduceCtorEq] <;>
    grind [up_pinf, le_pinf u, ninf_lt_pinf]
theorem uppermost_mem {s : CS} (h : s.WF) (he : s.isempty = false) (hl : s.upper ≠ pinf ∨ s.right = .inc)
   : s.Mem s.uppermost := by
  obtain ⟨l, u, a, b⟩ := s
  revert h he hl
  cases a <;> cases b <;>
    simp only [isempty, isclosed, itype, Br.code, WF, Mem, uppermost, if_true, if_false, reduceCtorEq] <;>
    grind [dn_ninf, ninf_le l, ninf_lt_pinf]

theorem lower_unbounded {s : CS} (h : s.WF) (he : s.isempty = false) (hl : s.lower = ninf)
   (n : Int) : ∃ x, x ≤ fin n ∧ s.Mem x := by
  obtain ⟨l, u, a, b⟩ := s
  subst hl
  cases u with
  | ninf =>
    refine ⟨ninf, ninf_le _, ?_⟩
    revert h he
    cases a <;> cases b <;> simp [isempty, isclosed, itype, Br.code, WF, Mem]
  | fin m =>
    refine ⟨fin (min n (m-1)), ?_, ?_⟩
    · simp [FP.le_def, leb]
    · simp [Mem, FP.lt_def, leb]; omega
  | pinf => exact ⟨fin n, le_refl _, by simp [Mem, FP.lt_def, leb]⟩

theorem upper_unbounded {s : CS} (h : s.WF) (he : s.isempty = false) (hl : s.upper = pinf)
   (n : Int) : ∃ x, fin n ≤ x ∧ s.Mem x := by
  obtain ⟨l, u, a, b⟩ := s
  subst hl
  cases l with
  | pinf =>
    refine ⟨pinf, le_pinf _, ?_⟩
    revert h he
    cases a <;> cases b <;> simp [isempty, isclosed, itype, Br.code, WF, Mem]
  | fin m =>
    refine ⟨fin (max n (m+1)), ?_, ?_⟩
    · simp [FP.le_def, leb]
    · simp [Mem, FP.lt_def, leb]; omega
  | ninf => exact ⟨fin n, le_refl _, by simp [Mem, FP.lt_def, leb]⟩

theorem lower_le_of_subset {s o : CS} (ho : o.WF) (he : o.isempty = false)
    (h : ∀ x, o.Mem x → s.Mem x) : s.lowermost ≤ o.lowermost := by
  by_cases hl : o.lower ≠ ninf ∨ o.left = .inc
  · exact lowermost_le (h _ (lowermost_mem ho he hl))
  · simp only [not_or, Classical.not_not] at hl
    obtain ⟨x0, hx0⟩ := exists_mem ho he
    have hs0 := h _ hx0
    rw [lowermost, lowermost, if_neg hl.2, hl.1]
    by_contra hc
    rw [not_le, up_ninf] at hc
    rcases hs : s.lower with _ | n | _
    · revert hc; rw [hs]; simp [up_ninf]
    · obtain ⟨x, hx, hm⟩ := lower_unbounded ho he hl.1 (n - 1)
      have := (h _ hm).1
      rw [hs] at this
      revert this hx
      cases x <;> simp [FP.lt_def, FP.le_def, leb]; omega
    · obtain ⟨x, hx, hm⟩ := lower_unbounded ho he hl.1 0
      have := (h _ hm).1
      rw [hs] at this
      revert this hx
      cases x <;> simp [FP.lt_def, FP.le_def, leb]

theorem le_upper_of_subset {s o : CS} (ho : o.WF) (he : o.isempty = false)
    (h : ∀ x, o.Mem x → s.Mem x) : o.uppermost ≤ s.uppermost := by
  by_cases hl : o.upper ≠ pinf ∨ o.right = .inc
  · exact le_uppermost (h _ (uppermost_mem ho he hl))
  · simp only [not_or, Classical.not_not] at hl
    rw [uppermost, uppermost, if_neg hl.2, hl.1]
    by_contra hc
    rw [not_le, dn_pinf] at hc
    rcases hs : s.upper with _ | n | _
    · obtain ⟨x, hx, hm⟩ := upper_unbounded ho he hl.1 0
      have := (h _ hm).2
      rw [hs] at this
      revert this hx
      cases x <;> simp [FP.lt_def, FP.le_def, leb]
    · obtain ⟨x, hx, hm⟩ := upper_unbounded ho he hl.1 (n + 1)
      have := (h _ hm).2
      rw [hs] at this
      revert this hx
      cases x <;> simp [FP.lt_def, FP.le_def, leb]; omega
    · revert hc; rw [hs]; simp [dn_pinf]

/-- `contains_interval` is complete for a non-empty argument. -/
theorem containsInterval_complete {s o : CS} (ho : o.WF) (he : o.isempty = false)
    (h : ∀ x, o.Mem x → s.Mem x) : s.containsInterval o = true := by
  obtain ⟨x, hx⟩ := exists_mem ho he
  have hse := isempty_false_of_mem (h x hx)
  have h1 := lower_le_of_subset ho he h
  have h2 := le_upper_of_subset ho he h
  have h3 : ¬ (s.lower = o.lower ∧ s.left = .exc ∧ o.left = .inc) := by
    rintro ⟨e, f, g⟩
    have := h _ (lowermost_mem ho he (.inr g))
    revert this
    simp only [lowermost, g, if_true, Mem, e, f]
    grind
  have h4 : ¬ (s.upper = o.upper ∧ s.right = .exc ∧ o.right = .inc) := by
    rintro ⟨e, f, g⟩
    have := h _ (uppermost_mem ho he (.inr g))
    revert this
    simp only [uppermost, g, if_true, Mem, e, f]
    grind
  simp only [containsInterval, hse, not_lt.mpr h1, not_lt.mpr h2, h3, h4, or_self, if_false, Bool.false_eq_true, and_false]

theorem mk?_ok {l u : FP} {a b : Br} {c : CS} (h : mk? l u a b = .ok c) :
    c = ⟨l, u, a, b⟩ ∧ l ≤ u := by
  unfold mk? at h
  split at h
  · cases h
  · rename_i hh; cases h; exact ⟨rfl, not_lt.mp hh⟩

theorem mk?_self {s : CS} (h : s.WF) : mk? s.lower s.upper s.left s.right = .ok s := by
  unfold mk?; rw [if_neg (not_lt.mpr h)]

theorem split_mem {s o : CS} (ho : o.WF) (he : o.isempty = false)
    (h1 : s.lower ≤ o.lower) (h2 : o.upper ≤ s.upper) (x : FP) :
    ((⟨s.lower, o.lower, s.left, o.left.flip⟩ : CS).Mem x ∨
      (⟨o.upper, s.upper, o.right.flip, s.right⟩ : CS).Mem x) ↔ s.Mem x ∧ ¬ o.Mem x := by
  obtain ⟨l, u, a, b⟩ := s
  obtain ⟨l', u', a', b'⟩ := o
  revert ho he h1 h2
  cases a' <;> cases b' <;>
    simp only [isempty, isclosed, itype, Br.code, WF, Mem, Br.flip] <;> grind

theorem proper_reg {s o : CS} (rs : s.Reg) (ro : o.Reg)
    (hp : s.containsInterval o true = true)
    (h1 : s.lower ≤ o.lower) (h2 : o.upper ≤ s.upper) :
    (⟨s.lower, o.lower, s.left, o.left.flip⟩ : CS).Reg ∧
    (⟨o.upper, s.upper, o.right.flip, s.right⟩ : CS).Reg := by
  have h3 := ninf_le s.lower
  have h4 := le_pinf s.upper
  revert rs ro hp
  simp only [Reg, containsInterval]
  grind

/-- The branch of `difference` that cuts off the left part of `s`. -/
theorem cutLeft {s o : CS} (hs : s.WF) (ho : o.WF) (rs : s.Reg) (ro : o.Reg)
    (he : o.isempty = false) (hp : s.containsInterval o true = false)
    (hm : s.Mem o.uppermost) (hne : s.uppermost ≠ o.uppermost) (x : FP) :
    ((⟨o.upper, s.upper, o.right.flip, s.right⟩ : CS).Mem x ↔ s.Mem x ∧ ¬ o.Mem x) := by
  have hse := isempty_false_of_mem hm
  obtain ⟨l, u, a, b⟩ := s
  obtain ⟨l', u', a', b'⟩ := o
  revert hp
  simp only [containsInterval, hse]
  revert ho he hs rs ro hm hne
  cases a <;> cases b <;> cases a' <;> cases b' <;>
    simp only [isempty, isclosed, itype, Br.code, WF, Mem, Br.flip, Reg, uppermost, lowermost,
      gt_iff_lt, up_lt_up, dn_lt_dn, if_true, if_false, reduceCtorEq] <;>
    grind [up_ninf, up_pinf, dn_ninf, dn_pinf]

/-- The branch of `difference` that cuts off the right part of `s`. -/
theorem cutRight {s o : CS} (hs : s.WF) (ho : o.WF) (rs : s.Reg) (ro : o.Reg)
    (he : o.isempty = false) (hp : s.containsInterval o true = false)
    (hm : s.Mem o.lowermost) (hne : s.lowermost ≠ o.lowermost) (x : FP) :
    ((⟨s.lower, o.lower, s.left, o.left.flip⟩ : CS).Mem x ↔ s.Mem x ∧ ¬ o.Mem x) := by
  have hse := isempty_false_of_mem hm
  obtain ⟨l, u, a, b⟩ := s
  obtain ⟨l', u', a', b'⟩ := o
  revert hp
  simp only [containsInterval, hse]
  revert ho he hs rs ro hm hne
  cases a <;> cases b <;> cases a' <;> cases b' <;>
    simp only [isempty, isclosed, itype, Br.code, WF, Mem, Br.flip, Reg, uppermost, lowermost,
      gt_iff_lt, up_lt_up, dn_lt_dn, if_true, if_false, reduceCtorEq] <;>
    grind [up_ninf, up_pinf, dn_ninf, dn_pinf]

theorem wf_cutLeft {s o : CS} (ho : o.WF) (rs : s.Reg) (ro : o.Reg)
    (hm : s.Mem o.uppermost) (hne : s.uppermost ≠ o.uppermost) :
    (⟨o.upper, s.upper, o.right.flip, s.right⟩ : CS).WF ∧
    (⟨o.upper, s.upper, o.right.flip, s.right⟩ : CS).Reg := by
  obtain ⟨l, u, a, b⟩ := s
  obtain ⟨l', u', a', b'⟩ := o
  revert ho rs ro hm hne
  cases b <;> cases b' <;>
    simp only [WF, Mem, Br.flip, Reg, uppermost, if_true, if_false, reduceCtorEq] <;>
    grind [up_ninf, up_pinf, dn_ninf, dn_pinf, le_pinf u, ninf_le u, le_pinf l, ninf_le l,
      ninf_lt_pinf]

theorem wf_cutRight {s o : CS} (ho : o.WF) (rs : s.Reg) (ro : o.Reg)
    (hm : s.Mem o.lowermost) (hne : s.lowermost ≠ o.lowermost) :
    (⟨s.lower, o.lower, s.left, o.left.flip⟩ : CS).WF ∧
    (⟨s.lower, o.lower, s.left, o.left.flip⟩ : CS).Reg := by
  obtain ⟨l, u, a, b⟩ := s
  obtain ⟨l', u', a', b'⟩ := o
  revert ho rs ro hm hne
  cases a <;> cases a' <;>
    simp only [WF, Mem, Br.flip, Reg, lowermost, if_true, if_false, reduceCtorEq] <;>
    grind [up_ninf, up_pinf, dn_ninf, dn_pinf, le_pinf u, ninf_le u, le_pinf l, ninf_le l,
      ninf_lt_pinf]

/-- The last branch of `difference`: nothing to cut off. -/
theorem cutNone {s o : CS} (hs : s.WF) (ho : o.WF) (rs : s.Reg) (ro : o.Reg)
    (he : o.isempty = false) (hc : o.containsInterval s = false)
    (h1 : ¬ (s.Mem o.uppermost ∧ s.uppermost ≠ o.uppermost))
    (h2 : ¬ (s.Mem o.lowermost ∧ s.lowermost ≠ o.lowermost)) : s.Disjoint o := by
  intro x ⟨hx, hy⟩
  have hse := isempty_false_of_mem hx
  obtain ⟨l, u, a, b⟩ := s
  obtain ⟨l', u', a', b'⟩ := o
  revert hc
  simp only [containsInterval, he]
  revert ho he hs rs ro h1 h2 hx hy
  cases a <;> cases b <;> cases a' <;> cases b' <;>
    simp only [isempty, isclosed, itype, Br.code, WF, Mem, Reg, uppermost, lowermost,
      gt_iff_lt, up_lt_up, dn_lt_dn, if_true, if_false, reduceCtorEq] <;>
    grind [up_ninf, up_pinf, dn_ninf, dn_pinf]

theorem difference_mem {s o : CS} (hs : s.WF) (ho : o.WF) (rs : s.Reg) (ro : o.Reg) {d : NS}
    (h : s.difference o = .ok d) :
    (∀ x, d.Mem x ↔ s.Mem x ∧ ¬ o.Mem x) ∧ d.All CS.WF ∧ d.All CS.Reg := by
  unfold difference at h
  rw [mk?_self hs] at h
  by_cases he : o.isempty = true
  · rw [if_pos he] at h
    cases h
    refine ⟨fun x => ?_, hs, rs⟩
    have := (isempty_iff o ho).1 he
    exact ⟨fun hx => ⟨hx, fun hy => this ⟨x, hy⟩⟩, fun hx => hx.1⟩
  rw [if_neg he] at h
  rw [Bool.not_eq_true] at he
  by_cases hc : o.containsInterval s = true
  · rw [if_pos hc] at h
    cases h
    refine ⟨fun x => ⟨fun hx => ?_, fun hx => ?_⟩, (by decide : emptyset.WF),
      (by decide : emptyset.Reg)⟩
    · revert hx; simp only [NS.Mem, emptyset, Mem]; grind
    · exact absurd (containsInterval_sound hc hx.1) hx.2
  rw [if_neg hc] at h
  rw [Bool.not_eq_true] at hc
  by_cases hp : s.containsInterval o true = true
  · rw [if_pos hp] at h
    unfold mk? at h
    by_cases h1 : s.lower > o.lower
    · simp [h1, bind, Except.bind] at h
    by_cases h2 : o.upper > s.upper
    · simp [h1, h2, bind, Except.bind] at h
    simp only [h1, h2, bind, Except.bind, if_false] at h
    cases h
    rw [gt_iff_lt, not_lt] at h1 h2
    obtain ⟨r1, r2⟩ := proper_reg rs ro hp h1 h2
    refine ⟨fun x => ?_, ?_, ?_⟩
    · rw [← split_mem ho he h1 h2 x]
      simp [NS.Mem, RS.Mem]
    · simp [NS.All, WF, h1, h2]
    · simp [NS.All, r1, r2]
  rw [if_neg hp] at h
  rw [Bool.not_eq_true] at hp
  by_cases hi : s.intersects o = true
  · rw [if_pos hi] at h
    simp only [containsValue_iff, bind, Except.bind] at h
    by_cases h1 : s.Mem o.uppermost ∧ s.uppermost ≠ o.uppermost
    · rw [if_pos h1] at h
      cases h
      exact ⟨cutLeft hs ho rs ro he hp h1.1 h1.2, wf_cutLeft ho rs ro h1.1 h1.2⟩
    rw [if_neg h1] at h
    by_cases h2 : s.Mem o.lowermost ∧ s.lowermost ≠ o.lowermost
    · rw [if_pos h2] at h
      cases h
      exact ⟨cutRight hs ho rs ro he hp h2.1 h2.2, wf_cutRight ho rs ro h2.1 h2.2⟩
    rw [if_neg h2] at h
    cases h
    have := cutNone hs ho rs ro he hc h1 h2
    exact ⟨fun x => ⟨fun hx => ⟨hx, fun hy => this x ⟨hx, hy⟩⟩, fun hx => hx.1⟩, hs, rs⟩
  · rw [if_neg hi] at h
    rw [Bool.not_eq_true] at hi
    cases h
    have := not_mem_of_not_intersects hi
    exact ⟨fun x => ⟨fun hx => ⟨hx, fun hy => this x ⟨hx, hy⟩⟩, fun hx => hx.1⟩, hs, rs⟩

/-- When `difference` raises. -/
theorem difference_error {s o : CS} (hs : s.WF) (e : Err) :
    s.difference o = .error e ↔ e = .valueError ∧ o.isempty = false ∧
      o.containsInterval s = false ∧ s.containsInterval o true = true ∧
      (o.lower < s.lower ∨ s.upper < o.upper) := by
  unfold difference
  rw [mk?_self hs]
  by_cases he : o.isempty = true
  · simp [he, bind, Except.bind]
  by_cases hc : o.containsInterval s = true
  · simp [he, hc]
  by_cases hp : s.containsInterval o true = true
  · simp only [he, hc, hp, mk?, bind, Except.bind]
    grind
  · simp only [he, hc, hp, bind, Except.bind]
    grind

end CS
end Verif.Iv
