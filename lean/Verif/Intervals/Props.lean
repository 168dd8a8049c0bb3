import Verif.Intervals.Lemmas11

/-!
# C01–C13: properties of intervals and unions of intervals

Each theorem is followed by `example`s showing concrete intervals that meet its hypotheses.
`fin n` is the `n`-th float after 0; `WF` is what the constructor checks (`lower ≤ upper`);
`Reg` excludes intervals that contain `±inf` itself.
-/

namespace Verif.Iv
open FP

/-- `[0, 5)` on the float line, used in the examples. -/
def exA : CS := ⟨fin 0, fin 5, .inc, .exc⟩
/-- `(3, inf)`. -/
def exB : CS := ⟨fin 3, pinf, .exc, .exc⟩

/-! ## C01 membership -/

/-- **C01.** `x in I` is true exactly when `x` lies between the bounds, a bound counting only where
its bracket is closed.  No hypothesis: this also holds for empty intervals and for intervals with
`lower > upper` (which have no members). -/
theorem C01_contains_iff (I : CS) (x : FP) : I.containsValue x = true ↔ I.Mem x :=
  CS.containsValue_iff I x

example : exA.containsValue (fin 0) = true ∧ exA.containsValue (fin 5) = false ∧
    exB.containsValue pinf = false ∧ exB.containsValue (fin 4) = true := by decide

/-! ## C02 emptiness -/

/-- **C02.** `isempty()` is true exactly when no float is a member. -/
theorem C02_isempty_iff (I : CS) (h : I.WF) : I.isempty = true ↔ ¬ ∃ x, I.Mem x :=
  CS.isempty_iff I h

example : (⟨fin 1, fin 2, .exc, .exc⟩ : CS).WF ∧ (⟨fin 1, fin 2, .exc, .exc⟩ : CS).isempty = true ∧
    exA.WF ∧ exA.isempty = false := by decide

/-- C02 fails for intervals with `lower > upper`: `parse("[5,3]")` accepts such an interval
(`intervals.pyx` 606-651 does not check the bounds) and `isempty()` says `False` although nothing
is a member. -/
theorem C02_violated_by_parse : ∃ I, CS.parse (.pair '[' (fin 5) (fin 3) ']') = .ok I ∧
    I.isempty = false ∧ ∀ x, ¬ I.Mem x := by
  refine ⟨⟨fin 5, fin 3, .inc, .inc⟩, rfl, by decide, fun x hx => ?_⟩
  have := CS.wf_of_mem hx
  exact absurd this (by decide)

/-! ## C03 intersects / isdisjoint -/

/-- **C03 (one direction).** A common point is never missed: if some float lies in both intervals
then `intersects` says so, in both directions, and `isdisjoint` denies it. -/
theorem C03_intersects_of_common (A B : CS) {x : FP} (hA : A.Mem x) (hB : B.Mem x) :
    A.intersects B = true ∧ B.intersects A = true ∧ A.isdisjoint B = false := by
  have := CS.intersects_of_mem hA hB
  exact ⟨this, CS.intersects_of_mem hB hA, by simp [CS.isdisjoint, this]⟩

example : exA.Mem (fin 4) ∧ exB.Mem (fin 4) := by decide

/-- **C03 (partial).** `intersects` decides whether a common float exists when the receiver is not
empty and the overlap of the two bounds does not consist of two neighbouring floats.
Missing from the full property: the cases of `C03_violated_neighbours` and
`C03_violated_empty_receiver`, where the code answers `True` without a common float. -/
theorem C03_intersects_iff_partial (A B : CS) (hA : A.WF) (hB : B.WF) (he : A.isempty = false)
    (hn : (max A.lower B.lower).up ≠ min A.upper B.upper) :
    A.intersects B = true ↔ ∃ x, A.Mem x ∧ B.Mem x :=
  CS.intersects_iff A B hA hB he hn

example : exA.WF ∧ exB.WF ∧ exA.isempty = false ∧
    (max exA.lower exB.lower).up ≠ min exA.upper exB.upper ∧ exA.intersects exB = true := by decide

/-- **C03 (symmetry).** For non-empty valid intervals `intersects` is symmetric. -/
theorem C03_symmetric (A B : CS) (hA : A.WF) (hB : B.WF) (hAe : A.isempty = false)
    (hBe : B.isempty = false) : A.intersects B = B.intersects A := by
  revert hA hB
  simp only [CS.intersects, hAe, hBe, CS.WF]
  grind

/-- C03 fails for overlapping open intervals with neighbouring bounds: `(0, 2)` contains only the
float 1, `(1, 3)` only the float 2, but `intersects` is `True`. -/
theorem C03_violated_neighbours : ∃ A B : CS, A.WF ∧ B.WF ∧ A.isempty = false ∧
    B.isempty = false ∧ A.intersects B = true ∧ ¬ ∃ x, A.Mem x ∧ B.Mem x := by
  refine ⟨⟨fin 0, fin 2, .exc, .exc⟩, ⟨fin 1, fin 3, .exc, .exc⟩, by decide, by decide, by decide,
    by decide, by decide, ?_⟩
  rintro ⟨x, h1, h2⟩
  cases x <;> simp [CS.Mem, FP.lt_def, leb] at h1 h2; omega

/-- C03 fails for an empty receiver, and is then not symmetric: the empty set "intersects"
`[-1, 1]`. -/
theorem C03_violated_empty_receiver : ∃ A B : CS, A.WF ∧ B.WF ∧ A.intersects B = true ∧
    B.intersects A = false ∧ ¬ ∃ x, A.Mem x := by
  refine ⟨.emptyset, ⟨fin (-1), fin 1, .inc, .inc⟩, by decide, by decide, by decide, by decide, ?_⟩
  rw [← CS.isempty_iff _ (by decide)]; decide

/-! ## C04 intersection -/

/-- **C04.** The intersection of two intervals never raises, is again a valid interval, has exactly
the common members, and is the canonical empty set when `intersects` is `False`. -/
theorem C04_intersection (A B : CS) (hA : A.WF) (hB : B.WF) :
    ∃ C, A.intersection B = .ok C ∧ C.WF ∧ (∀ x, C.Mem x ↔ A.Mem x ∧ B.Mem x) ∧
      (A.intersects B = false → C = ⟨fin 0, fin 0, .exc, .exc⟩) := by
  obtain ⟨c, hc, hw, hm⟩ := CS.intersection_ok A B hA hB
  refine ⟨c, hc, hw, hm, fun h => ?_⟩
  simp only [CS.intersection, h] at hc
  cases hc; rfl

example : exA.WF ∧ exB.WF ∧ exA.intersection exB = .ok ⟨fin 3, fin 5, .exc, .exc⟩ := by
  decide

/-- **C04 (with requested brackets, partial).** `intersection(B, left=…, right=…)` changes the
notation of the bounds, not the (finite) members, provided the intersection is not empty.
Missing: the cases of `C04_violated_requested_brackets`. -/
theorem C04_intersectionEnds_partial (A B : CS) (hA : A.WF) (hB : B.WF) (l r : Option Br) {x : FP}
    (h1 : A.Mem x) (h2 : B.Mem x) :
    ∃ C, A.intersectionEnds B l r = .ok C ∧
      ∀ y, y ≠ ninf → y ≠ pinf → (C.Mem y ↔ A.Mem y ∧ B.Mem y) := by
  obtain ⟨c, hc, hw, hm⟩ := CS.intersection_ok A B hA hB
  have hi := CS.intersects_of_mem h1 h2
  refine ⟨c.convertEnds l r, ?_, fun y hy1 hy2 => ?_⟩
  · simp [CS.intersectionEnds, hi, hc, bind, Except.bind]
  · rw [← hm y]
    have hx := (hm x).2 ⟨h1, h2⟩
    obtain ⟨lo, up, a, b⟩ := c
    have hy3 := ninf_le y
    have hy4 := le_pinf y
    clear hm hc hi
    revert hx
    rcases l with _ | _ | _ <;> rcases r with _ | _ | _ <;> cases a <;> cases b <;>
      simp only [CS.convertEnds, CS.Mem, if_true, if_false, reduceCtorEq, and_self, and_true,
        and_false, false_and, true_and, or_false] <;>
      grind [up_ninf, up_pinf, dn_ninf, dn_pinf]

example : exA.Mem (fin 4) ∧ exB.Mem (fin 4) ∧
    exA.intersectionEnds exB (some .inc) (some .inc) = .ok ⟨fin 4, fin 4, .inc, .inc⟩ := by decide

/-- C04 fails when closed brackets are requested and the overlap contains no float: the result has
`lower > upper` and `isempty()` says `False`. -/
theorem C04_violated_requested_brackets : ∃ A B C : CS, A.WF ∧ B.WF ∧
    A.intersectionEnds B (some .inc) (some .inc) = .ok C ∧ ¬ C.WF ∧ C.isempty = false := by
  refine ⟨⟨fin 0, fin 2, .exc, .exc⟩, ⟨fin 1, fin 3, .exc, .exc⟩, ⟨fin 2, fin 1, .inc, .inc⟩, ?_⟩
  decide

/-! ## C05 union -/

/-- **C05.** `A.union(B)` always returns, and `x in A.union(B)` iff `x in A or x in B`. -/
theorem C05_union (A B : CS) (hA : A.WF) (hB : B.WF) (rA : A.Reg) (rB : B.Reg) :
    ∃ D, A.union B = .ok D ∧ ∀ x, D.Mem x ↔ A.Mem x ∨ B.Mem x :=
  CS.union_spec hA hB rA rB

example : exA.WF ∧ exB.WF ∧ exA.Reg ∧ exB.Reg ∧
    exA.union exB = .ok (.cs ⟨fin 0, pinf, .inc, .exc⟩) ∧
    exA.union ⟨fin 7, fin 9, .inc, .inc⟩ = .ok (.rs [exA, ⟨fin 7, fin 9, .inc, .inc⟩]) := by
  refine ⟨by decide, by decide, by decide, by decide, by decide, ?_⟩
  decide +kernel

/-! ## C06 difference and complement -/

/-- **C06 (partial).** Whenever `A.difference(B)` returns, `x in A.difference(B)` iff `x in A` and
not `x in B`.  Missing from the full property: the call may raise (`C06_raises_iff`), and intervals
that contain `±inf` (`C06_violated_infinite`). -/
theorem C06_difference_partial (A B : CS) (hA : A.WF) (hB : B.WF) (rA : A.Reg) (rB : B.Reg) {D : NS}
    (h : A.difference B = .ok D) : ∀ x, D.Mem x ↔ A.Mem x ∧ ¬ B.Mem x :=
  (CS.difference_mem hA hB rA rB h).1

/-- **C06 (no exception).** If no bound of `B` is the float next to a bound of `A`, the call
returns. -/
theorem C06_difference_returns_partial (A B : CS) (hA : A.WF) (hl : B.lower.up ≠ A.lower ∨ B.lower = ninf)
    (hu : A.upper.up ≠ B.upper ∨ A.upper = pinf ∨ B.upper = ninf) :
    ∃ D, A.difference B = .ok D := by
  cases h : A.difference B with
  | ok d => exact ⟨d, rfl⟩
  | error e =>
    exfalso
    obtain ⟨-, ho, hc, hp, hb⟩ := (CS.difference_error hA e).1 h
    clear h hc
    revert hp hb ho
    have e1 : B.lower < A.lower → B.lower.up ≤ A.lower := FP.up_le
    have e2 : A.upper < B.upper → A.upper.up ≤ B.upper := FP.up_le
    have e3 := FP.up_dn B.upper
    have := FP.le_up A.lower
    have := FP.dn_le A.upper
    have := ninf_le A.lower
    have := ninf_le A.upper
    have := le_pinf B.upper
    obtain ⟨l, u, a, b⟩ := A
    obtain ⟨l', u', a', b'⟩ := B
    cases a <;> cases b <;> cases a' <;> cases b' <;>
      simp only [CS.containsInterval, CS.lowermost, CS.uppermost, if_true, if_false, reduceCtorEq,
        up_lt_up, dn_lt_dn, gt_iff_lt] at * <;>
      grind [up_ninf, up_pinf, dn_ninf, dn_pinf]

/-- **C06 (exceptions).** Exactly when `A.difference(B)` raises, and what: `B` is not empty, does not
cover `A`, is properly contained in `A` according to the float neighbours, but one of its bounds
lies outside the bounds of `A`. -/
theorem C06_raises_iff (A B : CS) (hA : A.WF) (e : Err) :
    A.difference B = .error e ↔ e = .valueError ∧ B.isempty = false ∧
      B.containsInterval A = false ∧ A.containsInterval B true = true ∧
      (B.lower < A.lower ∨ A.upper < B.upper) :=
  CS.difference_error hA e

example : exA.Reg ∧ exB.Reg ∧ exA.difference exB = .ok (.cs ⟨fin 0, fin 3, .inc, .inc⟩) ∧
    exA.difference ⟨fin 1, fin 2, .inc, .inc⟩ =
      .ok (.rs [⟨fin 0, fin 1, .inc, .exc⟩, ⟨fin 2, fin 5, .exc, .exc⟩]) ∧
    exB.lower.up ≠ exA.lower ∧ exA.upper.up ≠ exB.upper := by decide

/-- C06 fails: subtracting `(0, 3]` from `[1, 5]` (with 1 the float after 0) raises. -/
theorem C06_violated_raises : ∃ A B : CS, A.WF ∧ B.WF ∧ A.Reg ∧ B.Reg ∧
    A.difference B = .error .valueError := by
  refine ⟨⟨fin 1, fin 5, .inc, .inc⟩, ⟨fin 0, fin 3, .exc, .inc⟩, ?_⟩
  decide

/-- C06 fails for intervals containing `-inf`: `[-inf, 0] − (-inf, 0]` returns `[-inf, 0]`. -/
theorem C06_violated_infinite : ∃ A B D : CS, A.WF ∧ B.WF ∧ A.difference B = .ok (.cs D) ∧
    D.Mem (fin 0) ∧ B.Mem (fin 0) := by
  refine ⟨⟨ninf, fin 0, .inc, .inc⟩, ⟨ninf, fin 0, .exc, .inc⟩, ⟨ninf, fin 0, .inc, .inc⟩, ?_⟩
  decide

/-- **C06 (complement).** The complement of a regular interval never raises and consists of exactly
the finite numbers outside the interval. -/
theorem C06_complement (A : CS) (hA : A.WF) (rA : A.Reg) :
    ∃ D, A.complement = .ok D ∧ ∀ x, D.Mem x ↔ ¬ A.Mem x ∧ x ≠ ninf ∧ x ≠ pinf := by
  have hall : ∀ x, CS.allnumbers.Mem x ↔ x ≠ ninf ∧ x ≠ pinf := by
    intro x; cases x <;> simp [CS.Mem, CS.allnumbers, FP.lt_def, leb]
  have : ∃ D, A.complement = .ok D := by
    apply C06_difference_returns_partial _ _ (by decide)
    · by_cases h : A.lower = ninf
      · exact .inr h
      · left; intro h'
        cases hl : A.lower with
        | ninf => exact h hl
        | pinf => exact rA.1 hl
        | fin n => rw [hl] at h'; simp [up, CS.allnumbers] at h'
    · right; left; rfl
  obtain ⟨D, hD⟩ := this
  refine ⟨D, hD, fun x => ?_⟩
  rw [C06_difference_partial _ A (by decide) hA (by decide) rA hD, hall]
  tauto

example : exA.WF ∧ exA.Reg ∧ exA.complement =
    .ok (.rs [⟨ninf, fin 0, .exc, .exc⟩, ⟨fin 5, pinf, .inc, .exc⟩]) := by decide

/-- **C06 (union of intervals, partial).** `S.difference(T)` for unions of intervals never adds a
wrong point; it is exact when the receiver's intervals are in increasing order.  Missing: receivers
whose intervals are not in order may lose points (`C10_violated_loses_points`). -/
theorem C06_realset_difference_partial (l o : List CS) (hl : ∀ s ∈ l, s.WF ∧ s.Reg)
    (ho : ∀ s ∈ o, s.WF ∧ s.Reg) {D : NS} (h : RS.difference l o = .ok D) :
    (∀ x, D.Mem x → RS.Mem l x ∧ ¬ RS.Mem o x) ∧
    (l.Pairwise RS.Before → ∀ x, D.Mem x ↔ RS.Mem l x ∧ ¬ RS.Mem o x) :=
  RS.difference_spec hl ho h

/-- **C06 (union of intervals, no exception).** If no two bounds are neighbouring floats the call
returns. -/
theorem C06_realset_difference_returns (l o : List CS) (hl : ∀ s ∈ l, s.WF ∧ s.Reg)
    (ho : ∀ s ∈ o, s.WF ∧ s.Reg) (hs : RS.Spaced (l ++ o)) : ∃ D, RS.difference l o = .ok D := by
  refine RS.difference_spaced
    (P := fun a => a = fin 0 ∨ ∃ s ∈ l ++ o, a = s.lower ∨ a = s.upper) hs (.inl rfl) ?_ ?_
  · intro s h
    exact ⟨hl s h, .inr ⟨s, by simp [h], .inl rfl⟩, .inr ⟨s, by simp [h], .inr rfl⟩⟩
  · intro s h
    exact ⟨ho s h, .inr ⟨s, by simp [h], .inl rfl⟩, .inr ⟨s, by simp [h], .inr rfl⟩⟩

/-- Two separate intervals, in order: `[0, 5) ∪ [10, 20]`. -/
def exL : List CS := [exA, ⟨fin 10, fin 20, .inc, .inc⟩]
/-- `(3, 12)`. -/
def exM : List CS := [⟨fin 3, fin 12, .exc, .exc⟩]

example : (∀ s ∈ exL, s.WF ∧ s.Reg) ∧ (∀ s ∈ exM, s.WF ∧ s.Reg) ∧
    RS.difference exL exM =
      .ok (.rs [⟨fin 0, fin 3, .inc, .inc⟩, ⟨fin 12, fin 20, .inc, .inc⟩]) := by
  refine ⟨by decide, by decide, ?_⟩
  decide +kernel

theorem exL_ordered : exL.Pairwise RS.Before := by
  simp only [exL, exA, List.pairwise_cons, List.mem_singleton, forall_eq, List.not_mem_nil,
    false_imp_iff, implies_true, List.Pairwise.nil, and_true]
  intro x y hx hy
  revert hx hy
  have : (fin 5 : FP) < fin 10 := by decide
  simp only [CS.Mem]
  grind

example : RS.Spaced (exL ++ exM) := by
  intro a b ha hb h
  have ha' : a = fin 0 ∨ a = fin 5 ∨ a = fin 10 ∨ a = fin 20 ∨ a = fin 3 ∨ a = fin 12 := by
    simp [exL, exM, exA] at ha; grind
  have hb' : b = fin 0 ∨ b = fin 5 ∨ b = fin 10 ∨ b = fin 20 ∨ b = fin 3 ∨ b = fin 12 := by
    simp [exL, exM, exA] at hb; grind
  rcases ha' with rfl | rfl | rfl | rfl | rfl | rfl <;>
    rcases hb' with rfl | rfl | rfl | rfl | rfl | rfl <;> revert h <;> decide

/-- **C06 (complement of a union).** Exact for every union of regular intervals, in any order. -/
theorem C06_realset_complement (l : List CS) (hl : ∀ s ∈ l, s.WF ∧ s.Reg) {D : NS}
    (h : RS.complement l = .ok D) : ∀ x, D.Mem x ↔ ¬ RS.Mem l x ∧ x ≠ ninf ∧ x ≠ pinf := by
  have hall : ∀ x, RS.Mem [CS.allnumbers] x ↔ x ≠ ninf ∧ x ≠ pinf := by
    intro x; rw [RS.mem_single]; cases x <;> simp [CS.Mem, CS.allnumbers, FP.lt_def, leb]
  have hg : ∀ s ∈ [CS.allnumbers], s.WF ∧ s.Reg := by decide
  simp only [RS.complement, bind, Except.bind] at h
  cases hd : RS.difference [CS.allnumbers] l with
  | error e => simp [hd] at h
  | ok d =>
    simp only [hd] at h
    have hspec := (RS.difference_spec hg hl hd).2 (by simp)
    have key : ∀ x, D.Mem x ↔ d.Mem x := by
      cases d with
      | cs c => simp only [Except.ok.injEq] at h; subst h; exact fun _ => Iff.rfl
      | rs r =>
        simp only at h
        -- the intervals of `r` are again in order
        have hr : (∀ s ∈ r, RS.Good s) ∧ r.Pairwise RS.Before := by
          unfold RS.difference at hd
          split at hd
          · rw [RS.mapM_mk? (fun s hs => (hg s hs).1)] at hd
            simp only [bind, Except.bind, Except.ok.injEq, NS.rs.injEq] at hd
            subst hd
            exact ⟨hg, by simp⟩
          · simp only [bind, Except.bind] at hd
            cases hr : RS.diffOuter l ([CS.allnumbers].length * (l.length + 1)) [CS.allnumbers] with
            | error e => rw [hr] at hd; cases hd
            | ok q =>
              rw [hr] at hd
              obtain ⟨k1, k2, k3⟩ := RS.diffOuter_spec hl _ hg hr
              obtain ⟨r', hr', hm, hform⟩ := RS.simplify_ok hd
              have hrr : r' = r := by
                rcases hform with ⟨h, -⟩ | ⟨c, h, -⟩ | ⟨h, -⟩
                · cases h
                · cases h
                · exact (NS.rs.inj h).symm
              subst hrr
              obtain ⟨-, q2, q3, -⟩ := RS.simplifyList_spec k2
                ((k3 (by simp)).imp RS.notBelow_of_before) hr'
              exact ⟨fun s hs => ⟨(q2 s hs).1, RS.simplifyList_reg k2 hr' s hs⟩, q3⟩
        obtain ⟨r', hr', hm, -⟩ := RS.simplify_ok h
        intro x
        rw [hm, (RS.simplifyList_spec hr.1 (hr.2.imp RS.notBelow_of_before) hr').1]
        rfl
    intro x
    rw [key, hspec, hall]
    tauto

example : (∀ s ∈ exL, s.WF ∧ s.Reg) ∧ RS.complement exL =
    .ok (.rs [⟨ninf, fin 0, .exc, .exc⟩, ⟨fin 5, fin 10, .inc, .exc⟩, ⟨fin 20, pinf, .exc, .exc⟩]) := by
  refine ⟨by decide, ?_⟩
  decide +kernel

/-! ## C07 containment -/

/-- **C07 (partial).** For a non-empty `B`, `A.contains_interval(B)` is true exactly when every
member of `B` is a member of `A`.  Missing: the empty `B` (`C07_violated_empty`). -/
theorem C07_contains_interval_partial (A B : CS) (hB : B.WF) (he : ∃ x, B.Mem x) :
    A.containsInterval B = true ↔ ∀ x, B.Mem x → A.Mem x := by
  constructor
  · intro h x hx; exact CS.containsInterval_sound h hx
  · intro h
    obtain ⟨x, hx⟩ := he
    exact CS.containsInterval_complete hB (CS.isempty_false_of_mem hx) h

example : exA.WF ∧ exA.Mem (fin 2) ∧ exA.containsInterval ⟨fin 0, fin 4, .inc, .inc⟩ = true ∧
    exA.containsInterval ⟨fin 0, fin 5, .inc, .inc⟩ = false := by decide

/-- **C07 (soundness, proper containment).** With `proper_containment` the answer `True` still means
that all members of `B` are members of `A`. -/
theorem C07_proper_sound (A B : CS) (h : A.containsInterval B true = true) :
    ∀ x, B.Mem x → A.Mem x := fun _ hx => CS.containsInterval_sound h hx

example : exA.containsInterval ⟨fin 1, fin 4, .inc, .inc⟩ true = true := by decide

/-- C07 fails for the empty set: it is not always reported as a subset. -/
theorem C07_violated_empty : ∃ A B : CS, A.WF ∧ B.WF ∧ A.isempty = false ∧ B.isempty = true ∧
    A.containsInterval B = false :=
  ⟨⟨fin 5, fin 9, .inc, .inc⟩, .emptyset, by decide⟩

/-- **C07 (unions).** `RealSet.contains_interval` never claims a containment that does not hold. -/
theorem C07_realset_sound (l o : List CS) (h : RS.containsRealSet l o = true) :
    ∀ x, RS.Mem o x → RS.Mem l x := by
  rintro x ⟨i, hi, hx⟩
  simp only [RS.containsRealSet, List.all_eq_true, RS.containsInterval, List.any_eq_true] at h
  obtain ⟨s, hs, hc⟩ := h i hi
  exact ⟨s, hs, CS.containsInterval_sound hc hx⟩

example : RS.containsRealSet exL [⟨fin 1, fin 2, .inc, .inc⟩, ⟨fin 11, fin 12, .inc, .inc⟩] = true := by
  decide

/-- C07 fails for unions: `[0, 1) ∪ [1, 2]` does not "contain" `[0, 2]`. -/
theorem C07_violated_union : ∃ (l : List CS) (B : CS), (∀ s ∈ l, s.WF) ∧ B.WF ∧
    RS.containsInterval l B = false ∧ ∀ x, B.Mem x → RS.Mem l x := by
  refine ⟨[⟨fin 0, fin 1, .inc, .exc⟩, ⟨fin 1, fin 2, .inc, .inc⟩], ⟨fin 0, fin 2, .inc, .inc⟩,
    by decide, by decide, by decide, fun x hx => ?_⟩
  rw [RS.mem_pair]
  have : (fin 0 : FP) < fin 1 := by decide
  have : (fin 1 : FP) < fin 2 := by decide
  revert hx; simp only [CS.Mem]; grind

/-! ## C08 membership in unions -/

/-- **C08.** `x in S` iff `x` lies in one of the intervals; `isempty()` iff there is no member. -/
theorem C08_realset_contains_iff (l : List CS) (x : FP) :
    RS.containsValue l x = true ↔ ∃ s ∈ l, s.Mem x := by
  simp [RS.containsValue, CS.containsValue_iff]

theorem C08_realset_isempty_iff (l : List CS) (h : ∀ s ∈ l, s.WF) :
    RS.isempty l = true ↔ ¬ ∃ x, ∃ s ∈ l, s.Mem x := RS.isempty_iff h

example : (∀ s ∈ exL, s.WF) ∧ RS.isempty exL = false ∧ RS.containsValue exL (fin 15) = true ∧
    RS.containsValue exL (fin 7) = false := by decide

/-- **C08 (intersects, one direction).** A common point of two unions is never missed. -/
theorem C08_realset_intersects_of_common (l o : List CS) {x : FP} (h1 : ∃ s ∈ l, s.Mem x)
    (h2 : ∃ s ∈ o, s.Mem x) : RS.intersects l o = true := by
  obtain ⟨s, hs, hx⟩ := h1
  obtain ⟨t, ht, hy⟩ := h2
  simp only [RS.intersects, List.any_eq_true]
  exact ⟨s, hs, t, ht, CS.intersects_of_mem hx hy⟩

/-- **C08 (intersects, partial).** Exact for non-empty intervals with no neighbouring bounds.
Missing: the cases of `C03_violated_*`. -/
theorem C08_realset_intersects_iff_partial (l o : List CS) (hl : ∀ s ∈ l, s.WF ∧ s.isempty = false)
    (ho : ∀ s ∈ o, s.WF)
    (hn : ∀ s ∈ l, ∀ t ∈ o, (max s.lower t.lower).up ≠ min s.upper t.upper) :
    RS.intersects l o = true ↔ ∃ x, (∃ s ∈ l, s.Mem x) ∧ ∃ s ∈ o, s.Mem x := by
  constructor
  · intro h
    simp only [RS.intersects, List.any_eq_true] at h
    obtain ⟨s, hs, t, ht, h⟩ := h
    obtain ⟨x, h1, h2⟩ := (CS.intersects_iff s t (hl s hs).1 (ho t ht) (hl s hs).2 (hn s hs t ht)).1 h
    exact ⟨x, ⟨s, hs, h1⟩, ⟨t, ht, h2⟩⟩
  · rintro ⟨x, h1, h2⟩
    exact C08_realset_intersects_of_common l o h1 h2

example : (∀ s ∈ exL, s.WF ∧ s.isempty = false) ∧ (∀ s ∈ exM, s.WF) ∧
    (∀ s ∈ exL, ∀ t ∈ exM, (max s.lower t.lower).up ≠ min s.upper t.upper) ∧
    RS.intersects exL exM = true := by decide

/-- C08 fails, as C03 does, for overlapping open intervals with neighbouring bounds: `(0, 2)` and `(1, 3)` as unions of
one interval each. -/
theorem C08_violated_neighbours : ∃ l o : List CS, (∀ s ∈ l, s.WF ∧ s.isempty = false) ∧ (∀ s ∈ o, s.WF ∧ s.isempty = false) ∧
    RS.intersects l o = true ∧ ¬ ∃ x, RS.Mem l x ∧ RS.Mem o x := by
  refine ⟨[⟨fin 0, fin 2, .exc, .exc⟩], [⟨fin 1, fin 3, .exc, .exc⟩], by decide, by decide, by decide, ?_⟩
  rintro ⟨x, ⟨s, h1, h2⟩, t, h3, h4⟩
  simp only [List.mem_singleton] at h1 h3
  subst h1
  subst h3
  cases x <;> simp [CS.Mem, FP.lt_def, leb] at h2 h4; omega

/-! ## C09 intersection of unions -/

/-- **C09 (partial).** The intersection of two unions never adds a wrong point, and is exact when the
intervals of both are in increasing order.  It can only raise `ValueError`.  Missing: unordered
arguments may lose points because of `simplify` (`C10_violated_loses_points`). -/
theorem C09_realset_intersection_partial (l o : List CS) (hl : ∀ s ∈ l, s.WF ∧ s.Reg)
    (ho : ∀ s ∈ o, s.WF ∧ s.Reg) {D : NS} (h : RS.intersection l o = .ok D) :
    (∀ x, D.Mem x → RS.Mem l x ∧ RS.Mem o x) ∧
    (l.Pairwise RS.Before → o.Pairwise RS.Before → ∀ x, D.Mem x ↔ RS.Mem l x ∧ RS.Mem o x) := by
  obtain ⟨r, hr, h1, h2, h3⟩ := RS.inter_list hl ho
  simp only [RS.intersection, hr, bind, Except.bind] at h
  obtain ⟨r', hr', hm, -⟩ := RS.simplify_ok h
  refine ⟨fun x hx => (h2 x).1 (RS.simplifyList_sub h1 hr' ((hm x).1 hx)), fun hb1 hb2 x => ?_⟩
  rw [hm, (RS.simplifyList_spec h1 ((h3 hb1 hb2).imp RS.notBelow_of_before) hr').1, h2]

example : (∀ s ∈ exL, s.WF ∧ s.Reg) ∧ (∀ s ∈ exM, s.WF ∧ s.Reg) ∧ RS.intersection exL exM =
    .ok (.rs [⟨fin 3, fin 5, .exc, .exc⟩, ⟨fin 10, fin 12, .inc, .exc⟩]) := by
  refine ⟨by decide, by decide, ?_⟩
  decide +kernel

/-- **C09 (returns).** The intersection of unions whose intervals are in increasing order never raises, and has exactly
the common members. -/
theorem C09_ordered (l o : List CS) (hl : ∀ s ∈ l, s.WF ∧ s.Reg) (ho : ∀ s ∈ o, s.WF ∧ s.Reg)
    (hb : l.Pairwise RS.Before) (hb' : o.Pairwise RS.Before) :
    ∃ D, RS.intersection l o = .ok D ∧ ∀ x, D.Mem x ↔ RS.Mem l x ∧ RS.Mem o x := by
  obtain ⟨r, hr, h1, -, h3⟩ := RS.inter_list hl ho
  obtain ⟨D, hD⟩ := RS.simplify_apart h1 ((h3 hb hb').imp RS.apart_of_before)
  have : RS.intersection l o = .ok D := by
    simp only [RS.intersection, hr, bind, Except.bind, hD]
  exact ⟨D, this, (C09_realset_intersection_partial l o hl ho this).2 hb hb'⟩

/-- C09 fails for unions given out of order: `({1} ∪ [0, 1)) ∩ [0, 5]` is the empty set. -/
theorem C09_violated_loses_points : ∃ (l o : List CS) (c : CS), (∀ s ∈ l, s.WF ∧ s.Reg) ∧ (∀ s ∈ o, s.WF ∧ s.Reg) ∧
    RS.intersection l o = .ok (.cs c) ∧ RS.Mem l (fin 1) ∧ RS.Mem o (fin 1) ∧ ¬ ∃ x, c.Mem x := by
  refine ⟨[⟨fin 1, fin 1, .inc, .inc⟩, ⟨fin 0, fin 1, .inc, .exc⟩], [⟨fin 0, fin 5, .inc, .inc⟩],
    ⟨fin 1, fin 1, .inc, .exc⟩, by decide, by decide, by decide +kernel, by decide, by decide, ?_⟩
  rw [← CS.isempty_iff _ (by decide)]; decide

/-! ## C10 simplify -/

/-- **C10 (partial).** `simplify` never adds a point.  If the intervals are given in order (no
interval has points below all points of an earlier one), the result has exactly the same members
and is in normal form: no empty interval, increasing, neighbours not contiguous.
Missing: intervals given out of order (`C10_violated_loses_points`). -/
theorem C10_simplify_partial (l : List CS) (hl : ∀ s ∈ l, s.WF ∧ s.Reg) {D : NS}
    (h : RS.simplify l = .ok D) :
    (∀ x, D.Mem x → RS.Mem l x) ∧
    (l.Pairwise CS.NotBelow → (∀ x, D.Mem x ↔ RS.Mem l x) ∧
      ∃ r : List CS, (D = .cs .emptyset ∧ r = [] ∨ (∃ c, D = .cs c ∧ r = [c]) ∨ D = .rs r ∧ 2 ≤ r.length) ∧
        (∀ s ∈ r, s.WF ∧ ∃ x, s.Mem x) ∧ r.Pairwise RS.Before ∧
        r.IsChain (fun a b => ¬ (a.upper = b.lower ∧ (a.right = .inc ∨ b.left = .inc)))) := by
  obtain ⟨r, hr, hm, hform⟩ := RS.simplify_ok h
  refine ⟨fun x hx => RS.simplifyList_sub hl hr ((hm x).1 hx), fun ho => ?_⟩
  obtain ⟨h1, h2, h3, h4⟩ := RS.simplifyList_spec hl ho hr
  refine ⟨fun x => by rw [hm, h1], r, hform, fun s hs => ⟨(h2 s hs).1, CS.exists_mem (h2 s hs).1 (h2 s hs).2⟩,
    h3, ?_⟩
  -- closed brackets on both sides of a common bound contradict the order
  have : r.IsChain (fun a b => a.contiguous b = false ∧
      (a.upper = b.lower → ¬ (a.right = .inc ∧ b.left = .inc))) := by
    have h5 : r.Pairwise (fun a b => a.upper = b.lower → ¬ (a.right = .inc ∧ b.left = .inc)) := by
      have hp := List.Pairwise.and_mem.1 h3
      refine hp.imp ?_
      rintro a b ⟨ha, hb, hbef⟩ he ⟨h6, h7⟩
      have wa := h2 a ha
      have wb := h2 b hb
      have m1 : a.Mem a.upper := by
        obtain ⟨x, hx⟩ := CS.exists_mem wa.1 wa.2
        revert hx; simp only [CS.Mem, h6]; grind
      have m2 : b.Mem b.lower := by
        obtain ⟨x, hx⟩ := CS.exists_mem wb.1 wb.2
        revert hx; simp only [CS.Mem, h7]; grind
      have := hbef _ _ m1 m2
      rw [he] at this
      exact lt_irrefl _ this
    exact RS.isChain_and h4 h5
  refine this.imp ?_
  rintro a b ⟨h5, h6⟩ ⟨h7, h8⟩
  have h6 := h6 h7
  cases har : a.right <;> cases hbl : b.left <;>
    simp_all [CS.contiguous, Br.code]

/-- **C10 (no exception).** If no two bounds are neighbouring floats, `simplify` returns; and the
only exception it can raise otherwise is not the model's fuel running out: its loop terminates. -/
theorem C10_simplify_returns (l : List CS) (hl : ∀ s ∈ l, s.WF ∧ s.Reg) :
    (RS.Spaced l → ∃ D, RS.simplify l = .ok D) ∧ RS.simplify l ≠ .error .outOfFuel := by
  refine ⟨fun hs => RS.simplify_spaced
    (P := fun a => a = fin 0 ∨ ∃ s ∈ l, a = s.lower ∨ a = s.upper) hs (.inl rfl) ?_,
    fun h => RS.simplify_error hl h rfl⟩
  intro s h
  exact ⟨hl s h, .inr ⟨s, h, .inl rfl⟩, .inr ⟨s, h, .inr rfl⟩⟩

/-- **C10 (no exception).** Intervals without common members are simplified without an exception. -/
theorem C10_disjoint_returns (l : List CS) (hl : ∀ s ∈ l, s.WF ∧ s.Reg)
    (hd : l.Pairwise (fun a b => ∀ x, a.Mem x → ¬ b.Mem x)) : ∃ D, RS.simplify l = .ok D := RS.simplify_apart hl hd

example : RS.simplify [⟨fin 0, fin 3, .inc, .inc⟩, ⟨fin 2, fin 5, .inc, .exc⟩, ⟨fin 8, fin 9, .inc, .inc⟩] =
    .ok (.rs [⟨fin 0, fin 5, .inc, .exc⟩, ⟨fin 8, fin 9, .inc, .inc⟩]) := by decide +kernel

example : ([⟨fin 0, fin 3, .inc, .inc⟩, ⟨fin 2, fin 5, .inc, .exc⟩] : List CS).Pairwise CS.NotBelow := by
  simp only [List.pairwise_cons, List.mem_singleton, forall_eq, List.not_mem_nil, false_imp_iff,
    implies_true, List.Pairwise.nil, and_true]
  intro y hy _
  refine ⟨fin 0, by decide, ?_⟩
  have : (fin 0 : FP) < fin 2 := by decide
  revert hy; simp only [CS.Mem]; grind

/-- C10 fails for intervals given out of order: `{1} ∪ [0, 1)` simplifies to the empty set `[1, 1)`. -/
theorem C10_violated_loses_points : ∃ (l : List CS) (c : CS), (∀ s ∈ l, s.WF ∧ s.Reg) ∧
    RS.simplify l = .ok (.cs c) ∧ RS.Mem l (fin 1) ∧ ¬ ∃ x, c.Mem x := by
  refine ⟨[⟨fin 1, fin 1, .inc, .inc⟩, ⟨fin 0, fin 1, .inc, .exc⟩], ⟨fin 1, fin 1, .inc, .exc⟩,
    by decide, by decide +kernel, by decide, ?_⟩
  rw [← CS.isempty_iff _ (by decide)]; decide

/-- C10 fails: `simplify` can raise. -/
theorem C10_violated_raises : ∃ l : List CS, (∀ s ∈ l, s.WF ∧ s.Reg) ∧
    RS.simplify l = .error .valueError := by
  refine ⟨[⟨fin 0, fin 3, .exc, .inc⟩, ⟨fin 1, fin 5, .inc, .inc⟩], by decide, by decide +kernel⟩

/-- C10 fails: `simplify` changes its receiver.  The first interval of `[0, 1] ∪ (1, 2]` becomes
`[0, 2]` in the receiver itself. -/
theorem C10_violated_mutates : ∃ (l : List CS) (f : CS), l.head? = some ⟨fin 0, fin 1, .inc, .inc⟩ ∧
    RS.simplifyReceiver l = .ok (some f) ∧ f = ⟨fin 0, fin 2, .inc, .inc⟩ := by
  refine ⟨[⟨fin 0, fin 1, .inc, .inc⟩, ⟨fin 1, fin 2, .exc, .inc⟩], _, rfl, ?_, rfl⟩
  decide +kernel

/-! ## C11 chop -/

/-- **C11.** `I.chop(points)` partitions `I`: the pieces are non-empty, increasing, cover exactly the
members of `I`; no piece has points on both sides of a requested point, and two neighbouring pieces
meet at a requested point, which belongs to the right one. -/
theorem C11_chop (I : CS) (h : I.WF) (points : List FP) :
    (∀ x, (∃ c ∈ I.chop points, c.Mem x) ↔ I.Mem x) ∧
    (∀ c ∈ I.chop points, ∃ x, c.Mem x) ∧
    (I.chop points).Pairwise RS.Before ∧
    (∀ c ∈ I.chop points, ∀ p ∈ points, ∀ x y, c.Mem x → c.Mem y → ¬ (x < p ∧ p ≤ y)) ∧
    (I.chop points).IsChain
      (fun a b => a.upper = b.lower ∧ a.upper ∈ points ∧ a.right = .exc ∧ b.left = .inc) := by
  have hs : (points.insertionSort (· ≤ ·)).Pairwise (· ≤ ·) := List.pairwise_insertionSort _ _
  have hm : ∀ p, p ∈ points.insertionSort (· ≤ ·) ↔ p ∈ points :=
    fun p => List.mem_insertionSort _
  obtain ⟨h1, h2, h3, h4, h5⟩ := CS.chopLoop_spec _ I h hs
  refine ⟨h1, fun c hc => (h2 c hc).2, h3, fun c hc p hp => h4 c hc p ((hm p).2 hp), h5.imp ?_⟩
  rintro a b ⟨k1, k2, k3⟩
  exact ⟨k1, (hm _).1 k2, k3⟩

example : exA.WF ∧ exA.chop [fin 4, fin 2, fin 9, fin 0] =
    [⟨fin 0, fin 2, .inc, .exc⟩, ⟨fin 2, fin 4, .inc, .exc⟩, ⟨fin 4, fin 5, .inc, .exc⟩] := by
  refine ⟨by decide, ?_⟩
  decide +kernel

/-- C11 fails for a union whose simplified form is a single interval: `chop` raises
`AttributeError`. -/
theorem C11_violated_realset : RS.chop [exA] [fin 2] = .error .attributeError := by decide +kernel

/-- **C11 (unions, partial).** When the simplified union has at least two intervals, `chop` covers
exactly the members of the simplified union.  Missing: `C11_violated_realset`. -/
theorem C11_realset_chop_partial (l : List CS) (hl : ∀ s ∈ l, s.WF ∧ s.Reg)
    (ho : l.Pairwise CS.NotBelow) (points : List FP) {cs : List CS} (h : RS.chop l points = .ok cs) :
    ∀ x, (∃ c ∈ cs, c.Mem x) ↔ RS.Mem l x := by
  simp only [RS.chop, bind, Except.bind] at h
  cases hd : RS.simplify l with
  | error e => simp [hd] at h
  | ok d =>
    have hs := C10_simplify_partial l hl hd
    obtain ⟨h1, r, h2, h3, -⟩ := hs.2 ho
    cases d with
    | cs c => simp [hd] at h
    | rs r' =>
      simp only [hd, Except.ok.injEq] at h
      subst h
      have : r' = r := by
        rcases h2 with ⟨h, -⟩ | ⟨c, h, -⟩ | ⟨h, -⟩
        · cases h
        · cases h
        · exact NS.rs.inj h
      subst this
      intro x
      rw [← h1 x]
      constructor
      · rintro ⟨c, hc, hx⟩
        obtain ⟨i, hi, hc⟩ := List.mem_flatMap.1 hc
        exact ⟨i, hi, ((C11_chop i (h3 i hi).1 points).1 x).1 ⟨c, hc, hx⟩⟩
      · rintro ⟨i, hi, hx⟩
        obtain ⟨c, hc, hx⟩ := ((C11_chop i (h3 i hi).1 points).1 x).2 hx
        exact ⟨c, List.mem_flatMap.2 ⟨i, hi, hc⟩, hx⟩

example : (∀ s ∈ exL, s.WF ∧ s.Reg) ∧ exL.Pairwise CS.NotBelow ∧ RS.chop exL [fin 2] =
    .ok [⟨fin 0, fin 2, .inc, .exc⟩, ⟨fin 2, fin 5, .inc, .exc⟩, ⟨fin 10, fin 20, .inc, .inc⟩] := by
  refine ⟨by decide, exL_ordered.imp RS.notBelow_of_before, ?_⟩
  decide +kernel

/-! ## C12 equality and hash -/

/-- **C12 (partial).** Two intervals without infinite members are equal iff they have the same
members.  Missing: intervals containing `±inf` (`C12_violated_infinite`), hash consistency
(`C12_violated_hash`). -/
theorem C12_eq_iff_partial (A B : CS) (hA : A.WF) (hB : B.WF) (rA : A.Reg) (rB : B.Reg) :
    A.eq B = true ↔ ∀ x, A.Mem x ↔ B.Mem x := CS.eq_iff hA hB rA rB

/-- **C12 (equivalence).** Hence `==` is an equivalence relation on these intervals. -/
theorem C12_eq_equivalence_partial :
    Equivalence (fun A B : {A : CS // A.WF ∧ A.Reg} => A.1.eq B.1 = true) where
  refl A := by rw [CS.eq_iff A.2.1 A.2.1 A.2.2 A.2.2]; exact fun _ => Iff.rfl
  symm {A B} h := by
    rw [CS.eq_iff A.2.1 B.2.1 A.2.2 B.2.2] at h
    rw [CS.eq_iff B.2.1 A.2.1 B.2.2 A.2.2]; exact fun x => (h x).symm
  trans {A B C} h1 h2 := by
    rw [CS.eq_iff A.2.1 B.2.1 A.2.2 B.2.2] at h1
    rw [CS.eq_iff B.2.1 C.2.1 B.2.2 C.2.2] at h2
    rw [CS.eq_iff A.2.1 C.2.1 A.2.2 C.2.2]; exact fun x => (h1 x).trans (h2 x)

example : exA.eq ⟨fin 0, fin 4, .inc, .inc⟩ = true ∧ exA.eq ⟨fin 0, fin 5, .inc, .inc⟩ = false ∧
    exA.WF ∧ exA.Reg := by decide

/-- C12 fails at infinity: `[-inf, 0] == (-inf, 0]`. -/
theorem C12_violated_infinite : ∃ A B : CS, A.WF ∧ B.WF ∧ A.eq B = true ∧ A.Mem ninf ∧ ¬ B.Mem ninf :=
  ⟨⟨ninf, fin 0, .inc, .inc⟩, ⟨ninf, fin 0, .exc, .inc⟩, by decide⟩

/-- C12 fails: `==` is not transitive, `[-inf, -inf] == (-inf, -inf) == ∅ != [-inf, -inf]`. -/
theorem C12_violated_transitive : ∃ A B C : CS, A.WF ∧ B.WF ∧ C.WF ∧ A.eq B = true ∧ B.eq C = true ∧
    A.eq C = false :=
  ⟨⟨ninf, ninf, .inc, .inc⟩, ⟨ninf, ninf, .exc, .exc⟩, .emptyset, by decide⟩

/-- C12 fails for hashes: equal intervals are hashed by different tuples, `[0, 5)` and `[0, 4]` with
4 the float before 5. -/
theorem C12_violated_hash : ∃ A B : CS, A.WF ∧ B.WF ∧ A.Reg ∧ B.Reg ∧ A.eq B = true ∧
    A.hashKey ≠ B.hashKey :=
  ⟨exA, ⟨fin 0, fin 4, .inc, .inc⟩, by decide⟩

/-- **C12 (unions, partial).** If two ordered unions compare equal they have the same members.
Missing: the converse (`C12_violated_realset`). -/
theorem C12_realset_eq_sound_partial (l o : List CS) (hl : ∀ s ∈ l, s.WF ∧ s.Reg)
    (ho : ∀ s ∈ o, s.WF ∧ s.Reg) (ol : l.Pairwise CS.NotBelow) (oo : o.Pairwise CS.NotBelow)
    (h : RS.eq l o = .ok true) : ∀ x, RS.Mem l x ↔ RS.Mem o x := by
  intro x
  unfold RS.eq at h
  split at h
  · rename_i he
    rw [Bool.and_eq_true, RS.isempty_iff (fun s hs => (hl s hs).1),
      RS.isempty_iff (fun s hs => (ho s hs).1)] at he
    exact ⟨fun h => absurd ⟨x, h⟩ he.1, fun h => absurd ⟨x, h⟩ he.2⟩
  · simp only [bind, Except.bind] at h
    cases ha : RS.simplify l with
    | error e => simp [ha] at h
    | ok a =>
      cases hb : RS.simplify o with
      | error e => simp [ha, hb] at h
      | ok b =>
        simp only [ha, hb] at h
        rw [← ((C10_simplify_partial l hl ha).2 ol).1 x, ← ((C10_simplify_partial o ho hb).2 oo).1 x]
        obtain ⟨r, hr, -, fr⟩ := RS.simplify_ok ha
        obtain ⟨q, hq, -, fq⟩ := RS.simplify_ok hb
        have gr : ∀ s ∈ r, RS.Good s := fun s hs =>
          ⟨((RS.simplifyList_spec hl ol hr).2.1 s hs).1, RS.simplifyList_reg hl hr s hs⟩
        have gq : ∀ s ∈ q, RS.Good s := fun s hs =>
          ⟨((RS.simplifyList_spec ho oo hq).2.1 s hs).1, RS.simplifyList_reg ho hq s hs⟩
        have ge : RS.Good CS.emptyset := by decide
        cases a with
        | cs a =>
          cases b with
          | rs b => simp at h
          | cs b =>
            simp only [Except.ok.injEq] at h
            have ga : RS.Good a := by
              rcases fr with ⟨h, -⟩ | ⟨c, h, rfl⟩ | ⟨h, -⟩
              · cases h; exact ge
              · cases h; exact gr _ (by simp)
              · cases h
            have gb : RS.Good b := by
              rcases fq with ⟨h, -⟩ | ⟨c, h, rfl⟩ | ⟨h, -⟩
              · cases h; exact ge
              · cases h; exact gq _ (by simp)
              · cases h
            exact (CS.eq_iff ga.1 gb.1 ga.2 gb.2).1 h x
        | rs a =>
          cases b with
          | cs b => simp at h
          | rs b =>
            simp only [Except.ok.injEq] at h
            have ea : a = r := by
              rcases fr with ⟨h, -⟩ | ⟨c, h, rfl⟩ | ⟨h, -⟩
              · cases h
              · cases h
              · exact NS.rs.inj h
            have eb : b = q := by
              rcases fq with ⟨h, -⟩ | ⟨c, h, rfl⟩ | ⟨h, -⟩
              · cases h
              · cases h
              · exact NS.rs.inj h
            subst ea eb
            exact RS.eqLists_sound gr gq h x

example : RS.eq exL [⟨fin 0, fin 4, .inc, .inc⟩, ⟨fin 9, fin 20, .exc, .inc⟩] = .ok true := by
  decide +kernel

/-- C12 fails for unions: `[0, 1] ∪ [2, 3]` and `[0, 1] ∪ (1, 3]` contain the same floats (2 is the
float after 1) but are not equal. -/
theorem C12_violated_realset : ∃ l o : List CS, (∀ s ∈ l, s.WF ∧ s.Reg) ∧ (∀ s ∈ o, s.WF ∧ s.Reg) ∧
    RS.eq l o = .ok false ∧ ∀ x, RS.Mem l x ↔ RS.Mem o x := by
  refine ⟨[⟨fin 0, fin 1, .inc, .inc⟩, ⟨fin 2, fin 3, .inc, .inc⟩],
    [⟨fin 0, fin 1, .inc, .inc⟩, ⟨fin 1, fin 3, .exc, .inc⟩], by decide, by decide,
    by decide +kernel, fun x => ?_⟩
  rw [RS.mem_pair, RS.mem_pair]
  cases x <;> simp [CS.Mem, FP.lt_def, leb]
  omega

/-! ## C13 serialisation -/

/-- **C13 (JSON).** `from_json(to_json(I))` gives back the identical interval. -/
theorem C13_json_roundtrip (I : CS) (h : I.WF) : CS.fromJson I.toJson = .ok I := by
  have : CS.mk? I.lower I.upper I.left I.right = .ok I := CS.mk?_self h
  simpa [CS.fromJson, CS.toJson, List.lookup, bind, Except.bind] using this

example : exA.WF := by decide

/-- **C13 (JSON, converse).** An interval with `lower > upper` cannot be read back. -/
theorem C13_json_invalid (I : CS) (h : ¬ I.WF) : CS.fromJson I.toJson = .error .valueError := by
  have : CS.mk? I.lower I.upper I.left I.right = .error .valueError := by
    rw [CS.mk?, if_pos (not_le.1 h)]
  simpa [CS.fromJson, CS.toJson, List.lookup, bind, Except.bind] using this

example : ¬ (⟨fin 5, fin 3, .inc, .inc⟩ : CS).WF := by decide

/-- **C13 (text, partial).** Parsing the printed text of an interval gives back the identical
interval if it is not empty and not a single point in closed brackets, and the canonical empty
interval if it is empty.  Missing: `C13_violated_point_text`. -/
theorem C13_text_roundtrip_partial (I : CS) :
    (I.isempty = true → CS.parse I.pfmt = .ok .emptyset) ∧
    (I.isempty = false → ¬ (I.lower = I.upper ∧ I.left = .inc ∧ I.right = .inc) →
      CS.parse I.pfmt = .ok I) := by
  constructor
  · intro h; simp [CS.pfmt, h, CS.parse]
  · intro h h'
    obtain ⟨l, u, a, b⟩ := I
    simp only [CS.pfmt, h, if_neg h']
    cases a <;> cases b <;> simp [CS.parse]

example : exA.isempty = false ∧ ¬ (exA.lower = exA.upper ∧ exA.left = .inc ∧ exA.right = .inc) := by
  decide

/-- C13 fails for a single point: the printed text `{x}` is rejected by the parser. -/
theorem C13_violated_point_text (x : FP) :
    CS.parse (CS.pfmt ⟨x, x, .inc, .inc⟩) = .error .valueError := by
  simp [CS.pfmt, CS.isempty, CS.isclosed, CS.itype, Br.code, CS.parse]

/-- C13 fails for every union of intervals: `from_json(to_json(S))` always raises. -/
theorem C13_violated_realset_json (l : List CS) :
    RS.fromJson (RS.toJson l) = .error (if l = [] then .keyError else .typeError) := by
  cases l with
  | nil => rfl
  | cons a l =>
    simp only [RS.toJson, List.getLast?_cons]
    simp [RS.fromJson, CS.toJson]

end Verif.Iv
