import Verif.Intervals.Spec

/-! # Lemmas about floats and single intervals -/

namespace Verif.Iv
open FP

namespace FP

theorem le_up (x : FP) : x ≤ x.up := by cases x <;> simp [up, FP.le_def, leb]; omega
theorem dn_le (x : FP) : x.dn ≤ x := by cases x <;> simp [dn, FP.le_def, leb]; omega
theorem up_le {x y : FP} (h : x < y) : x.up ≤ y := by
  revert h; cases x <;> cases y <;> simp [up, FP.le_def, FP.lt_def, leb]; omega
theorem le_dn {x y : FP} (h : x < y) : x ≤ y.dn := by
  revert h; cases x <;> cases y <;> simp [dn, FP.le_def, FP.lt_def, leb]; omega
theorem lt_up {x : FP} (h1 : x ≠ ninf) (h2 : x ≠ pinf) : x < x.up := by
  cases x <;> simp_all [up, FP.lt_def, leb]; omega
theorem dn_lt {x : FP} (h1 : x ≠ ninf) (h2 : x ≠ pinf) : x.dn < x := by
  cases x <;> simp_all [dn, FP.lt_def, leb]; omega
theorem up_ninf : up ninf = ninf := rfl
theorem up_pinf : up pinf = pinf := rfl
theorem dn_ninf : dn ninf = ninf := rfl
theorem dn_pinf : dn pinf = pinf := rfl
theorem ninf_le (x : FP) : ninf ≤ x := by cases x <;> simp [FP.le_def, leb]
theorem le_pinf (x : FP) : x ≤ pinf := by cases x <;> simp [FP.le_def, leb]
theorem ninf_lt_pinf : ninf < pinf := by decide
theorem dn_up (x : FP) : x.up.dn = x := by cases x <;> simp [up, dn]
theorem up_dn (x : FP) : x.dn.up = x := by cases x <;> simp [up, dn]
theorem neg_neg (x : FP) : x.neg.neg = x := by cases x <;> simp [neg]
theorem neg_lt_neg {x y : FP} : x.neg < y.neg ↔ y < x := by
  cases x <;> cases y <;> simp [neg, FP.lt_def, leb]
theorem neg_inj {x y : FP} : x.neg = y.neg ↔ x = y := by
  cases x <;> cases y <;> simp [neg]
theorem up_mono {x y : FP} (h : x ≤ y) : x.up ≤ y.up := by
  revert h; cases x <;> cases y <;> simp [up, FP.le_def, leb]
theorem dn_mono {x y : FP} (h : x ≤ y) : x.dn ≤ y.dn := by
  revert h; cases x <;> cases y <;> simp [dn, FP.le_def, leb]
/-- Between two different floats, one of them infinite, there is a finite one. -/
theorem exists_between {x y : FP} (h : x.up < y) : ∃ z, x < z ∧ z < y := by
  cases x with
  | ninf => cases y with
    | ninf => exact absurd h (by decide)
    | fin m => exact ⟨fin (m - 1), by simp [FP.lt_def, leb], by simp [FP.lt_def, leb]; omega⟩
    | pinf => exact ⟨fin 0, by decide, by decide⟩
  | fin n => exact ⟨(fin n).up, lt_up (by simp) (by simp), h⟩
  | pinf => exact absurd (lt_of_lt_of_le h (le_pinf y)) (by decide)

/-- Nothing lies strictly between a float and its successor. -/
theorem up_or (x y : FP) : y ≤ x ∨ x.up ≤ y := by
  rcases le_or_gt y x with h | h
  · exact .inl h
  · exact .inr (up_le h)
theorem dn_or (x y : FP) : x ≤ y ∨ y ≤ x.dn := by
  rcases le_or_gt x y with h | h
  · exact .inl h
  · exact .inr (le_dn h)
theorem lt_up_or (x : FP) : x = ninf ∨ x = pinf ∨ x < x.up := by
  cases x <;> simp [up, FP.lt_def, leb]; omega
theorem dn_lt_or (x : FP) : x = ninf ∨ x = pinf ∨ x.dn < x := by
  cases x <;> simp [dn, FP.lt_def, leb]; omega

theorem up_lt_up {x y : FP} : x.up < y.up ↔ x < y := by
  cases x <;> cases y <;> simp [up, FP.lt_def, leb]
theorem dn_lt_dn {x y : FP} : x.dn < y.dn ↔ x < y := by
  cases x <;> cases y <;> simp [dn, FP.lt_def, leb]
theorem up_fin (x : FP) : x = ninf ∨ x = pinf ∨ (ninf < x ∧ x < x.up ∧ x.up < pinf) := by
  cases x <;> simp [up, FP.lt_def, leb]; omega
theorem dn_fin (x : FP) : x = ninf ∨ x = pinf ∨ (ninf < x.dn ∧ x.dn < x ∧ x < pinf) := by
  cases x <;> simp [dn, FP.lt_def, leb]; omega

grind_pattern up_or => x < y, up x
grind_pattern up_or => y < x, up x
grind_pattern up_or => x ≤ y, up x
grind_pattern up_or => y ≤ x, up x
grind_pattern dn_or => x < y, dn x
grind_pattern dn_or => y < x, dn x
grind_pattern dn_or => x ≤ y, dn x
grind_pattern dn_or => y ≤ x, dn x
grind_pattern up_fin => up x
grind_pattern dn_fin => dn x
grind_pattern le_up => up x
grind_pattern dn_le => dn x

end FP

namespace CS

theorem isempty_iff (s : CS) (h : s.WF) : s.isempty = true ↔ ¬ ∃ x, s.Mem x := by
  obtain ⟨l, u, a, b⟩ := s
  constructor
  · intro he ⟨x, hx⟩
    revert he hx h
    cases a <;> cases b <;>
      simp only [isempty, isclosed, itype, Br.code, Mem, WF] <;> grind
  · intro hn
    by_contra he
    apply hn
    by_cases h1 : a = .inc ∧ (l < u ∨ b = .inc)
    · exact ⟨l, by revert he h; simp only [isempty, isclosed, itype, Br.code, Mem, WF]; grind⟩
    · by_cases h2 : b = .inc ∧ l < u
      · exact ⟨u, by revert he h; simp only [isempty, isclosed, itype, Br.code, Mem, WF]; grind⟩
      · have hb : a = .exc ∧ b = .exc := by
          cases a <;> cases b <;> revert he h <;>
            simp only [isempty, isclosed, itype, Br.code, WF] <;> grind
        obtain ⟨rfl, rfl⟩ := hb
        have : l.up < u := by
          revert he h; simp only [isempty, isclosed, itype, Br.code, WF]; grind
        obtain ⟨z, h3, h4⟩ := exists_between this
        exact ⟨z, by simp [Mem, h3, h4]⟩

theorem exists_mem {s : CS} (h : s.WF) (he : s.isempty = false) : ∃ x, s.Mem x := by
  by_contra hc
  rw [← isempty_iff s h] at hc
  simp [he] at hc

theorem isempty_false_of_mem {s : CS} {x : FP} (hx : s.Mem x) : s.isempty = false := by
  obtain ⟨l, u, a, b⟩ := s
  revert hx
  cases a <;> cases b <;>
    simp only [isempty, isclosed, itype, Br.code, Mem] <;> grind

theorem wf_of_mem {s : CS} {x : FP} (hx : s.Mem x) : s.WF := by
  revert hx; simp only [Mem, WF]; grind

theorem containsValue_iff (s : CS) (x : FP) : s.containsValue x = true ↔ s.Mem x := by
  obtain ⟨l, u, a, b⟩ := s
  cases a <;> cases b <;>
    simp only [containsValue, intersects, isempty, isclosed, itype, Br.code, Mem] <;> grind

theorem intersects_of_mem {s o : CS} {x : FP} (h1 : s.Mem x) (h2 : o.Mem x) :
    s.intersects o = true := by
  have := isempty_false_of_mem h2
  revert h1 h2
  simp only [intersects, this, Mem]
  grind

theorem not_mem_of_not_intersects {s o : CS} (h : s.intersects o = false) : s.Disjoint o := by
  intro x ⟨h1, h2⟩
  rw [intersects_of_mem h1 h2] at h
  exact absurd h (by decide)

/-- On valid intervals `intersection` never raises and its result is a valid interval. -/
theorem intersection_ok (s o : CS) (hs : s.WF) (ho : o.WF) :
    ∃ c, s.intersection o = .ok c ∧ c.WF ∧ ∀ x, c.Mem x ↔ s.Mem x ∧ o.Mem x := by
  by_cases hi : s.intersects o = true
  · have hle : max s.lower o.lower ≤ min s.upper o.upper := by
      revert hi hs ho
      simp only [intersects, WF]
      grind
    refine ⟨⟨max s.lower o.lower, min s.upper o.upper, _, _⟩, by
      simp only [intersection, hi, mk?, gt_iff_lt, not_lt.mpr hle, bind, Except.bind, if_false,
        not_true_eq_false]; rfl, hle, ?_⟩
    intro x
    obtain ⟨l, u, a, b⟩ := s
    obtain ⟨l', u', a', b'⟩ := o
    cases a <;> cases b <;> cases a' <;> cases b' <;> simp only [Mem, Br.max, Br.code] <;>
      grind
  · rw [Bool.not_eq_true] at hi
    refine ⟨emptyset, by simp [intersection, hi], by decide, ?_⟩
    intro x
    have := not_mem_of_not_intersects hi x
    constructor
    · intro h; revert h; simp only [emptyset, Mem]; grind
    · intro h; exact absurd h this

theorem lowermost_le {s : CS} {x : FP} (h : s.Mem x) : s.lowermost ≤ x := by
  revert h; simp only [Mem, lowermost]; grind

theorem le_uppermost {s : CS} {x : FP} (h : s.Mem x) : x ≤ s.uppermost := by
  revert h; simp only [Mem, uppermost]; grind

/-- `contains_interval` is sound: everything in `o` is in `s`. -/
theorem containsInterval_sound {s o : CS} {p : Bool} (h : s.containsInterval o p = true) {x : FP}
    (hx : o.Mem x) : s.Mem x := by
  have h1 := lowermost_le hx
  have h2 := le_uppermost hx
  obtain ⟨l, u, a, b⟩ := s
  obtain ⟨l', u', a', b'⟩ := o
  revert h h1 h2 hx
  cases a <;> cases b <;> cases a' <;> cases b' <;>
    simp only [containsInterval, Mem, lowermost, uppermost, gt_iff_lt, up_lt_up, dn_lt_dn,
      if_true, if_false, reduceCtorEq] <;>
    grind [up_ninf, up_pinf, dn_ninf, dn_pinf, ninf_le x, le_pinf x, ninf_le l',
      le_pinf u', ninf_le u', le_pinf l', ninf_le u, le_pinf l, ninf_lt_pinf]

end CS
end Verif.Iv
