import Verif.XQ
import Verif.Vars.Model2
import Mathlib.Order.Basic
import Mathlib.Tactic.Linarith

/-!
# Value sets: what a split or an evidence assigns to a variable

A numeric variable is restricted by a `ContinuousSet`, a symbolic or integer variable by a set of
value indices.  Numbers are exact; in contrast to `Verif.Intervals`, which models the interval
classes on the float line, the line is dense here, so the only trace of `nextafter`
(`isempty`, intervals.pyx 662-671, adjacent floats) is dropped.
-/

namespace Verif

namespace XQ

/-- Extended numbers are ordered as usual. -/
instance : LinearOrder XQ where
  le a b := a.le b = true
  lt a b := a.le b = true ∧ ¬ b.le a = true
  le_refl a := by cases a <;> simp [le]
  le_trans a b c := by
    cases a <;> cases b <;> cases c <;> simp [le]
    exact fun h h' => h.trans h'
  lt_iff_le_not_ge _ _ := Iff.rfl
  le_antisymm a b := by
    cases a <;> cases b <;> simp [le]
    exact fun h h' => le_antisymm h h'
  le_total a b := by
    cases a <;> cases b <;> simp [le]
    exact le_total _ _
  toDecidableLE := fun a b => inferInstanceAs (Decidable (a.le b = true))

@[simp] theorem fin_le (a b : ℚ) : (fin a ≤ fin b) ↔ a ≤ b := by
  show (fin a).le (fin b) = true ↔ _
  simp [le]

@[simp] theorem fin_lt (a b : ℚ) : (fin a < fin b) ↔ a < b := by
  rw [lt_iff_not_ge, fin_le, not_le]

@[simp] theorem ninf_le (a : XQ) : ninf ≤ a := by
  show ninf.le a = true
  cases a <;> rfl

@[simp] theorem le_pinf (a : XQ) : a ≤ pinf := by
  show a.le pinf = true
  cases a <;> rfl

@[simp] theorem ninf_lt_fin (a : ℚ) : ninf < fin a := by
  rw [lt_iff_not_ge]
  show ¬ (fin a).le ninf = true
  simp [le]

@[simp] theorem fin_lt_pinf (a : ℚ) : fin a < pinf := by
  rw [lt_iff_not_ge]
  show ¬ (pinf).le (fin a) = true
  simp [le]

@[simp] theorem ninf_lt_pinf : ninf < pinf := by
  rw [lt_iff_not_ge]
  show ¬ (pinf).le ninf = true
  simp [le]

/-- Between any two extended numbers lies a third one. -/
theorem dense {a b : XQ} (h : a < b) : ∃ c, a < c ∧ c < b := by
  cases a with
  | ninf =>
    cases b with
    | ninf => exact absurd h (lt_irrefl _)
    | fin q => exact ⟨fin (q - 1), by simp, by simp⟩
    | pinf => exact ⟨fin 0, by simp, by simp⟩
  | fin p =>
    cases b with
    | ninf => exact absurd (lt_trans h (ninf_lt_fin p)) (lt_irrefl _)
    | fin q =>
      rw [fin_lt] at h
      exact ⟨fin ((p + q) / 2), by rw [fin_lt]; linarith, by rw [fin_lt]; linarith⟩
    | pinf => exact ⟨fin (p + 1), by simp, by simp⟩
  | pinf => exact absurd (lt_of_lt_of_le h (le_pinf b)) (lt_irrefl _)

end XQ

namespace Trees

open Vars (RI)
open Iv (Br)

/-- `x` lies in the interval: between the bounds, a bound itself only where the flag says so. -/
def RIMem (c : RI) (x : XQ) : Prop :=
  (c.lower < x ∨ c.lower = x ∧ c.left = .inc) ∧ (x < c.upper ∨ x = c.upper ∧ c.right = .inc)

instance (c : RI) (x : XQ) : Decidable (RIMem c x) := by unfold RIMem; infer_instance

/-- An interval that has a point: the bounds are in order, and a single point is closed. -/
def RIOK (c : RI) : Prop :=
  c.lower ≤ c.upper ∧ (c.lower = c.upper → c.left = .inc ∧ c.right = .inc)

instance (c : RI) : Decidable (RIOK c) := by unfold RIOK; infer_instance

/-- `ContinuousSet.isempty` (intervals.pyx 662-671) on a dense line. -/
def riEmpty (c : RI) : Bool :=
  if c.lower = c.upper then !(decide (c.left = .inc) && decide (c.right = .inc)) else false

/-- `ContinuousSet.intersects` (intervals.pyx 919-938). -/
def riIntersects (s o : RI) : Bool :=
  if riEmpty o then false
  else if o.lower > s.upper ∨ o.upper < s.lower then false
  else if s.lower = o.upper ∧ (o.right = .exc ∨ s.left = .exc) then false
  else if s.upper = o.lower ∧ (s.right = .exc ∨ o.left = .exc) then false
  else true

/-- `EMPTY` (intervals.pyx 39, 699-705). -/
def riEmptyset : RI := ⟨.fin 0, .fin 0, .exc, .exc⟩

/-- `ContinuousSet.intersection` (intervals.pyx 948-981).  The constructor cannot fail here, because
the greater lower bound is not above the smaller upper bound of intersecting intervals. -/
def riInter (s o : RI) : RI :=
  if !riIntersects s o then riEmptyset
  else
    ⟨max s.lower o.lower, min s.upper o.upper,
      if o.lower = s.lower then Br.max s.left o.left
        else if s.lower > o.lower then s.left else o.left,
      if o.upper = s.upper then Br.max s.right o.right
        else if s.upper < o.upper then s.right else o.right⟩

/-- What restricts a variable: an interval or a set of value indices. -/
inductive Region
  | num (c : RI)
  | set (l : List ℤ)
  deriving DecidableEq

namespace Region

/-- `x` is one of the values. -/
def Mem : Region → XQ → Prop
  | num c, x => RIMem c x
  | set l, x => ∃ z ∈ l, x = .fin (z : ℚ)

instance (r : Region) (x : XQ) : Decidable (r.Mem x) := by
  cases r <;> unfold Mem <;> infer_instance

/-- Intervals are not degenerate. -/
def OK : Region → Prop
  | num c => RIOK c
  | set _ => True

instance (r : Region) : Decidable r.OK := by
  cases r <;> unfold OK <;> infer_instance

/-- `isdisjoint`, of an interval (intervals.pyx 940-946) or of a set.  An interval and a set never
meet: the values of one variable are all of the same kind. -/
def disjoint : Region → Region → Bool
  | num a, num b => !riIntersects a b
  | set a, set b => a.all (fun z => !b.contains z)
  | num a, set b => b.all (fun z => !decide (RIMem a (.fin (z : ℚ))))
  | set a, num b => a.all (fun z => !decide (RIMem b (.fin (z : ℚ))))

/-- `intersection`, of an interval (intervals.pyx 948-981) or of a set. -/
def inter : Region → Region → Region
  | num a, num b => num (riInter a b)
  | set a, set b => set (a.filter (fun z => b.contains z))
  | num a, set b => set (b.filter (fun z => decide (RIMem a (.fin (z : ℚ)))))
  | set a, num b => set (a.filter (fun z => decide (RIMem b (.fin (z : ℚ)))))

end Region

/-! ## The operations are those of sets -/

theorem brmax_inc (a b : Br) : Br.max a b = .inc ↔ a = .inc ∧ b = .inc := by
  cases a <;> cases b <;> decide

theorem br_exc (a : Br) : a = .exc ↔ a ≠ .inc := by cases a <;> decide

theorem riEmpty_iff {c : RI} (h : RIOK c) : riEmpty c = false := by
  unfold riEmpty
  split
  · rename_i h1
    obtain ⟨h2, h3⟩ := h.2 h1
    simp [h2, h3]
  · rfl

theorem lower_inter (al bl x : XQ) (a1 b1 : Br) :
    (max al bl < x ∨ max al bl = x ∧
      (if bl = al then Br.max a1 b1 else if al > bl then a1 else b1) = .inc) ↔
      (al < x ∨ al = x ∧ a1 = .inc) ∧ (bl < x ∨ bl = x ∧ b1 = .inc) := by
  rcases lt_trichotomy al bl with h | h | h
  · rw [max_eq_right h.le, if_neg h.ne', if_neg (not_lt.2 h.le)]
    constructor
    · rintro (h1 | ⟨rfl, h1⟩)
      · exact ⟨.inl (h.trans h1), .inl h1⟩
      · exact ⟨.inl h, .inr ⟨rfl, h1⟩⟩
    · rintro ⟨-, h1⟩
      exact h1
  · subst h
    rw [max_self, if_pos rfl, brmax_inc]
    constructor
    · rintro (h1 | ⟨h1, h2, h3⟩)
      · exact ⟨.inl h1, .inl h1⟩
      · exact ⟨.inr ⟨h1, h2⟩, .inr ⟨h1, h3⟩⟩
    · rintro ⟨h1 | h1, h2 | h2⟩
      · exact .inl h1
      · exact .inl h1
      · exact .inl h2
      · exact .inr ⟨h1.1, h1.2, h2.2⟩
  · rw [max_eq_left h.le, if_neg h.ne, if_pos h]
    constructor
    · rintro (h1 | ⟨rfl, h1⟩)
      · exact ⟨.inl h1, .inl (h.trans h1)⟩
      · exact ⟨.inr ⟨rfl, h1⟩, .inl h⟩
    · rintro ⟨h1, -⟩
      exact h1

theorem upper_inter (au bu x : XQ) (a2 b2 : Br) :
    (x < min au bu ∨ x = min au bu ∧
      (if bu = au then Br.max a2 b2 else if au < bu then a2 else b2) = .inc) ↔
      (x < au ∨ x = au ∧ a2 = .inc) ∧ (x < bu ∨ x = bu ∧ b2 = .inc) := by
  rcases lt_trichotomy au bu with h | h | h
  · rw [min_eq_left h.le, if_neg h.ne', if_pos h]
    constructor
    · rintro (h1 | ⟨rfl, h1⟩)
      · exact ⟨.inl h1, .inl (h1.trans h)⟩
      · exact ⟨.inr ⟨rfl, h1⟩, .inl h⟩
    · rintro ⟨h1, -⟩
      exact h1
  · subst h
    rw [min_self, if_pos rfl, brmax_inc]
    constructor
    · rintro (h1 | ⟨h1, h2, h3⟩)
      · exact ⟨.inl h1, .inl h1⟩
      · exact ⟨.inr ⟨h1, h2⟩, .inr ⟨h1, h3⟩⟩
    · rintro ⟨h1 | h1, h2 | h2⟩
      · exact .inl h1
      · exact .inl h1
      · exact .inl h2
      · exact .inr ⟨h1.1, h1.2, h2.2⟩
  · rw [min_eq_right h.le, if_neg h.ne, if_neg (not_lt.2 h.le)]
    constructor
    · rintro (h1 | ⟨rfl, h1⟩)
      · exact ⟨.inl (h1.trans h), .inl h1⟩
      · exact ⟨.inl h, .inr ⟨rfl, h1⟩⟩
    · rintro ⟨-, h1⟩
      exact h1

theorem riInter_mem {a b : RI} (hi : riIntersects a b = true) (x : XQ) :
    RIMem (riInter a b) x ↔ RIMem a x ∧ RIMem b x := by
  have h : riInter a b = ⟨max a.lower b.lower, min a.upper b.upper,
      if b.lower = a.lower then Br.max a.left b.left
        else if a.lower > b.lower then a.left else b.left,
      if b.upper = a.upper then Br.max a.right b.right
        else if a.upper < b.upper then a.right else b.right⟩ := by
    unfold riInter
    rw [hi]
    rfl
  rw [h]
  exact (and_congr (lower_inter _ _ _ _ _) (upper_inter _ _ _ _ _)).trans
    ⟨fun h => ⟨⟨h.1.1, h.2.1⟩, h.1.2, h.2.2⟩, fun h => ⟨⟨h.1.1, h.2.1⟩, h.1.2, h.2.2⟩⟩

theorem riIntersects_of_mem {a b : RI} {x : XQ} (ha : RIMem a x) (hb : RIMem b x) :
    riIntersects a b = true := by
  rcases a with ⟨al, au, a1, a2⟩
  rcases b with ⟨bl, bu, b1, b2⟩
  unfold RIMem at ha hb
  simp only at ha hb
  obtain ⟨ha1, ha2⟩ := ha
  obtain ⟨hb1, hb2⟩ := hb
  have la : al ≤ x := by rcases ha1 with h | h; exacts [h.le, h.1.le]
  have ua : x ≤ au := by rcases ha2 with h | h; exacts [h.le, h.1.le]
  have lb : bl ≤ x := by rcases hb1 with h | h; exacts [h.le, h.1.le]
  have ub : x ≤ bu := by rcases hb2 with h | h; exacts [h.le, h.1.le]
  unfold riIntersects riEmpty
  simp only
  have he : ¬ ((if bl = bu then !(decide (b1 = Br.inc) && decide (b2 = Br.inc)) else false) = true) := by
    split
    · rename_i h
      subst h
      have hx : x = bl := le_antisymm ub lb
      subst hx
      have h1 : b1 = .inc := by rcases hb1 with h | h; exacts [absurd h (lt_irrefl _), h.2]
      have h2 : b2 = .inc := by rcases hb2 with h | h; exacts [absurd h (lt_irrefl _), h.2]
      simp [h1, h2]
    · simp
  rw [if_neg he, if_neg, if_neg, if_neg]
  · rintro ⟨rfl, h⟩
    have hx : x = au := le_antisymm ua lb
    subst hx
    rcases h with h | h
    · rcases ha2 with h' | h'
      · exact lt_irrefl _ h'
      · rw [h] at h'; exact absurd h'.2 (by decide)
    · rcases hb1 with h' | h'
      · exact lt_irrefl _ h'
      · rw [h] at h'; exact absurd h'.2 (by decide)
  · rintro ⟨rfl, h⟩
    have hx : x = al := le_antisymm ub la
    subst hx
    rcases h with h | h
    · rcases hb2 with h' | h'
      · exact lt_irrefl _ h'
      · rw [h] at h'; exact absurd h'.2 (by decide)
    · rcases ha1 with h' | h'
      · exact lt_irrefl _ h'
      · rw [h] at h'; exact absurd h'.2 (by decide)
  · rintro (h | h)
    · exact absurd (lb.trans ua) (not_le.2 h)
    · exact absurd (la.trans ub) (not_le.2 h)

/-- Intersecting intervals have a common point. -/
theorem mem_of_riIntersects {a b : RI} (ha : RIOK a) (hb : RIOK b)
    (h : riIntersects a b = true) : ∃ x, RIMem a x ∧ RIMem b x := by
  have hmem := fun x => (riInter_mem h x)
  suffices hs : ∃ x, RIMem (riInter a b) x by
    obtain ⟨x, hx⟩ := hs
    exact ⟨x, (hmem x).1 hx⟩
  clear hmem
  have h0 := h
  rcases a with ⟨al, au, a1, a2⟩
  rcases b with ⟨bl, bu, b1, b2⟩
  unfold riInter
  simp only [h0, Bool.not_true, Bool.false_eq_true, if_false]
  unfold riIntersects at h
  rw [riEmpty_iff hb] at h
  unfold RIOK at ha hb
  simp only at ha hb
  simp only [Bool.false_eq_true, if_false] at h
  by_cases c1 : bl > au ∨ bu < al
  · simp [c1] at h
  rw [if_neg c1] at h
  by_cases c2 : al = bu ∧ (b2 = .exc ∨ a1 = .exc)
  · rw [if_pos c2] at h
    exact absurd h (by decide)
  rw [if_neg c2] at h
  by_cases c3 : au = bl ∧ (a2 = .exc ∨ b1 = .exc)
  · rw [if_pos c3] at h
    exact absurd h (by decide)
  clear h h0
  simp only [br_exc] at c2 c3
  push Not at c1 c2 c3
  obtain ⟨c1, c1'⟩ := c1
  have hle : max al bl ≤ min au bu := le_min (max_le ha.1 c1) (max_le c1' hb.1)
  rcases hle.lt_or_eq with hlt | heq
  · obtain ⟨x, h1, h2⟩ := XQ.dense hlt
    exact ⟨x, .inl h1, .inl h2⟩
  · refine ⟨max al bl, .inr ⟨rfl, ?_⟩, .inr ⟨heq, ?_⟩⟩
    · show (if bl = al then Br.max a1 b1 else if al > bl then a1 else b1) = .inc
      rcases lt_trichotomy al bl with h | h | h
      · rw [if_neg h.ne', if_neg (not_lt.2 h.le)]
        rw [max_eq_right h.le] at heq
        rcases le_total au bu with h' | h'
        · rw [min_eq_left h'] at heq
          exact (c3 heq.symm).2
        · rw [min_eq_right h'] at heq
          exact (hb.2 heq).1
      · subst h
        rw [if_pos rfl, brmax_inc]
        rw [max_self] at heq
        rcases le_total au bu with h' | h'
        · rw [min_eq_left h'] at heq
          exact ⟨(ha.2 heq).1, (c3 heq.symm).2⟩
        · rw [min_eq_right h'] at heq
          exact ⟨(c2 heq).2, (hb.2 heq).1⟩
      · rw [if_neg h.ne, if_pos h]
        rw [max_eq_left h.le] at heq
        rcases le_total au bu with h' | h'
        · rw [min_eq_left h'] at heq
          exact (ha.2 heq).1
        · rw [min_eq_right h'] at heq
          exact (c2 heq).2
    · show (if bu = au then Br.max a2 b2 else if au < bu then a2 else b2) = .inc
      rcases lt_trichotomy au bu with h | h | h
      · rw [if_neg h.ne', if_pos h]
        rw [min_eq_left h.le] at heq
        rcases le_total al bl with h' | h'
        · rw [max_eq_right h'] at heq
          exact (c3 heq.symm).1
        · rw [max_eq_left h'] at heq
          exact (ha.2 heq).2
      · subst h
        rw [if_pos rfl, brmax_inc]
        rw [min_self] at heq
        rcases le_total al bl with h' | h'
        · rw [max_eq_right h'] at heq
          exact ⟨(c3 heq.symm).1, (hb.2 heq).2⟩
        · rw [max_eq_left h'] at heq
          exact ⟨(ha.2 heq).2, (c2 heq).1⟩
      · rw [if_neg h.ne, if_neg (not_lt.2 h.le)]
        rw [min_eq_right h.le] at heq
        rcases le_total al bl with h' | h'
        · rw [max_eq_right h'] at heq
          exact (hb.2 heq).2
        · rw [max_eq_left h'] at heq
          exact (c2 heq).1

namespace Region

theorem fin_int_inj {a b : ℤ} : XQ.fin (a : ℚ) = XQ.fin (b : ℚ) ↔ a = b := by
  constructor
  · intro h
    injection h with h
    exact_mod_cast h
  · rintro rfl; rfl

/-- `isdisjoint` is truly disjointness. -/
theorem disjoint_iff {a b : Region} (ha : a.OK) (hb : b.OK) :
    a.disjoint b = true ↔ ∀ x, ¬ (a.Mem x ∧ b.Mem x) := by
  cases a with
  | num a =>
    cases b with
    | num b =>
      simp only [disjoint, Bool.not_eq_true']
      constructor
      · intro h x ⟨h1, h2⟩
        rw [riIntersects_of_mem h1 h2] at h
        exact absurd h (by decide)
      · intro h
        cases hi : riIntersects a b
        · rfl
        · obtain ⟨x, hx⟩ := mem_of_riIntersects ha hb hi
          exact absurd hx (h x)
    | set b =>
      simp only [disjoint, List.all_eq_true, Bool.not_eq_true', decide_eq_false_iff_not, Mem]
      constructor
      · rintro h x ⟨h1, z, hz, rfl⟩
        exact h z hz h1
      · intro h z hz hm
        exact h _ ⟨hm, z, hz, rfl⟩
  | set a =>
    cases b with
    | num b =>
      simp only [disjoint, List.all_eq_true, Bool.not_eq_true', decide_eq_false_iff_not, Mem]
      constructor
      · rintro h x ⟨⟨z, hz, rfl⟩, h1⟩
        exact h z hz h1
      · intro h z hz hm
        exact h _ ⟨⟨z, hz, rfl⟩, hm⟩
    | set b =>
      simp only [disjoint, List.all_eq_true, Bool.not_eq_true', Mem]
      constructor
      · rintro h x ⟨⟨z, hz, rfl⟩, y, hy, he⟩
        rw [fin_int_inj] at he
        subst he
        have := h z hz
        simp [hy] at this
      · intro h z hz
        cases hc : b.contains z
        · rfl
        · exact absurd ⟨⟨z, hz, rfl⟩, z, by simpa using hc, rfl⟩ (h (.fin (z : ℚ)))

/-- `intersection` is truly the intersection. -/
theorem mem_inter {a b : Region} (x : XQ) :
    (a.inter b).Mem x ↔ a.Mem x ∧ b.Mem x := by
  cases a with
  | num a =>
    cases b with
    | num b =>
      simp only [inter, Mem]
      cases hi : riIntersects a b
      · constructor
        · intro h
          unfold riInter at h
          simp only [hi, Bool.not_false, if_true] at h
          unfold RIMem riEmptyset at h
          simp only at h
          obtain ⟨h1, h2⟩ := h
          rcases h1 with h1 | h1
          · rcases h2 with h2 | h2
            · exact absurd (h1.trans h2) (lt_irrefl _)
            · exact absurd h2.2 (by decide)
          · exact absurd h1.2 (by decide)
        · rintro ⟨h1, h2⟩
          rw [riIntersects_of_mem h1 h2] at hi
          exact absurd hi (by decide)
      · exact riInter_mem hi x
    | set b =>
      simp only [inter, Mem, List.mem_filter, decide_eq_true_eq]
      constructor
      · rintro ⟨z, ⟨h1, h2⟩, rfl⟩
        exact ⟨h2, z, h1, rfl⟩
      · rintro ⟨h2, z, h1, rfl⟩
        exact ⟨z, ⟨h1, h2⟩, rfl⟩
  | set a =>
    cases b with
    | num b =>
      simp only [inter, Mem, List.mem_filter, decide_eq_true_eq]
      constructor
      · rintro ⟨z, ⟨h1, h2⟩, rfl⟩
        exact ⟨⟨z, h1, rfl⟩, h2⟩
      · rintro ⟨⟨z, h1, rfl⟩, h2⟩
        exact ⟨z, ⟨h1, h2⟩, rfl⟩
    | set b =>
      simp only [inter, Mem, List.mem_filter, List.contains_iff_mem]
      constructor
      · rintro ⟨z, ⟨h1, h2⟩, rfl⟩
        exact ⟨⟨z, h1, rfl⟩, z, h2, rfl⟩
      · rintro ⟨⟨z, h1, rfl⟩, y, h2, he⟩
        rw [fin_int_inj] at he
        subst he
        exact ⟨z, ⟨h1, h2⟩, rfl⟩

end Region

end Trees

end Verif
