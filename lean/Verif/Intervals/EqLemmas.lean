import Verif.Intervals.Equality
import Verif.Intervals.Props2

/-! # Lemmas about the equality of unions of intervals -/

namespace Verif.Iv

open FP

theorem CS.HalfOpen.member {s : CS} (h : s.HalfOpen) (z : FP) (hz : s.lower < z) (hp : z ≤ s.upper) :
    ∃ n, s.Mem (fin n) ∧ fin n < z := by
  obtain ⟨h1, h2, h3⟩ := h
  have hm := CS.HalfOpen.mem_iff ⟨h1, h2, h3⟩
  cases hl : s.lower with
  | pinf => rw [hl] at hz; cases z <;> simp [FP.lt_def, leb] at hz
  | fin a => exact ⟨a, (hm a).2 ⟨by rw [hl], by rw [← hl]; exact h1⟩, by rw [← hl]; exact hz⟩
  | ninf =>
    cases z with
    | ninf => rw [hl] at hz; simp at hz
    | fin b =>
      refine ⟨b - 1, (hm _).2 ⟨by rw [hl]; exact ninf_le _, lt_of_lt_of_le ?_ hp⟩, ?_⟩ <;> simp [FP.lt_def, leb] <;> omega
    | pinf =>
      cases hu : s.upper with
      | ninf => rw [hl, hu] at h1; simp at h1
      | fin b => rw [hu] at hp; simp [FP.le_def, leb] at hp
      | pinf => exact ⟨0, (hm _).2 ⟨by rw [hl]; exact ninf_le _, by rw [hu]; simp [FP.lt_def, leb]⟩, by simp [FP.lt_def, leb]⟩

/-- Half-open intervals, increasing and apart. -/
structure RS.Normal (r : List CS) : Prop where
  halfOpen : ∀ s ∈ r, s.HalfOpen
  apart : r.IsChain (fun a b => a.upper < b.lower)

theorem RS.Normal.tail {a : CS} {r : List CS} (h : RS.Normal (a :: r)) : RS.Normal r :=
  ⟨fun s hs => h.halfOpen s (by simp [hs]), by
    cases r with
    | nil => exact .nil
    | cons b r => exact (List.isChain_cons_cons.1 h.apart).2⟩

theorem RS.Normal.above {r : List CS} : ∀ {a : CS}, RS.Normal (a :: r) → ∀ s ∈ r, a.upper < s.lower := by
  induction r with
  | nil => intro a _ s hs; cases hs
  | cons b r ih =>
    intro a h s hs
    have hab := (List.isChain_cons_cons.1 h.apart).1
    rcases List.mem_cons.1 hs with rfl | hs
    · exact hab
    · exact hab.trans ((h.halfOpen b (by simp)).1.trans (ih h.tail s hs))

theorem RS.normal_lower {a b : CS} {r q : List CS} (ha : RS.Normal (a :: r)) (hb : RS.Normal (b :: q))
    (h : ∀ n, RS.Mem (a :: r) (fin n) → RS.Mem (b :: q) (fin n)) : b.lower ≤ a.lower := by
  by_contra hc
  rw [not_le] at hc
  have hA := ha.halfOpen a (by simp)
  obtain ⟨n, hn, hlt⟩ := hA.member (min a.upper b.lower) (lt_min hA.1 hc) (min_le_left _ _)
  obtain ⟨s, hs, hm⟩ := h n ⟨a, by simp, hn⟩
  have hs' : b.lower ≤ s.lower := by
    rcases List.mem_cons.1 hs with rfl | hs'
    · exact le_rfl
    · exact (hb.halfOpen b (by simp)).1.le.trans (hb.above s hs').le
  have := ((hb.halfOpen s hs).mem_iff n).1 hm
  exact absurd (hlt.trans_le (min_le_right _ _)) (not_lt.2 (hs'.trans this.1))

theorem RS.normal_upper {a b : CS} {r q : List CS} (ha : RS.Normal (a :: r)) (hb : RS.Normal (b :: q))
    (hl : a.lower = b.lower) (h : ∀ n, RS.Mem (b :: q) (fin n) → RS.Mem (a :: r) (fin n)) : b.upper ≤ a.upper := by
  by_contra hc
  rw [not_le] at hc
  have hA := ha.halfOpen a (by simp)
  have hB := hb.halfOpen b (by simp)
  cases hu : a.upper with
  | ninf => have := hA.1; rw [hu] at this; exact absurd this (not_lt.2 (ninf_le _))
  | pinf => rw [hu] at hc; exact absurd hc (not_lt.2 (le_pinf _))
  | fin m =>
    obtain ⟨s, hs, hm⟩ := h m ⟨b, by simp, (hB.mem_iff m).2 ⟨by rw [← hu, ← hl]; exact hA.1.le, by rw [← hu]; exact hc⟩⟩
    have hm := ((ha.halfOpen s hs).mem_iff m).1 hm
    rw [← hu] at hm
    rcases List.mem_cons.1 hs with rfl | hs'
    · exact lt_irrefl _ hm.2
    · exact absurd (ha.above s hs') (not_lt.2 hm.1)

theorem CS.HalfOpen.ext {a b : CS} (ha : a.HalfOpen) (hb : b.HalfOpen) (hl : a.lower = b.lower) (hu : a.upper = b.upper) :
    a = b := by
  obtain ⟨al, au, ax, ay⟩ := a
  obtain ⟨bl, bu, bx, byy⟩ := b
  obtain ⟨-, h2, h3⟩ := ha
  obtain ⟨-, h5, h6⟩ := hb
  simp only at *
  subst hl hu h2 h5
  rcases h3 with ⟨h, rfl⟩ | ⟨h, rfl⟩ <;> rcases h6 with ⟨h', rfl⟩ | ⟨h', rfl⟩ <;> first | rfl | exact absurd h' h | exact absurd h h'

/-- The normal form is unique. -/
theorem RS.normal_unique : ∀ {r q : List CS}, RS.Normal r → RS.Normal q →
    (∀ n, RS.Mem r (fin n) ↔ RS.Mem q (fin n)) → r = q
  | [], [], _, _, _ => rfl
  | [], b :: q, _, hq, h => by
    have hB := hq.halfOpen b (by simp)
    obtain ⟨n, hn, -⟩ := hB.member b.upper hB.1 le_rfl
    obtain ⟨s, hs, -⟩ := (h n).2 ⟨b, by simp, hn⟩
    cases hs
  | a :: r, [], hr, _, h => by
    have hA := hr.halfOpen a (by simp)
    obtain ⟨n, hn, -⟩ := hA.member a.upper hA.1 le_rfl
    obtain ⟨s, hs, -⟩ := (h n).1 ⟨a, by simp, hn⟩
    cases hs
  | a :: r, b :: q, hr, hq, h => by
    have hl : a.lower = b.lower := le_antisymm (RS.normal_lower hq hr (fun n => (h n).2)) (RS.normal_lower hr hq (fun n => (h n).1))
    have hu : a.upper = b.upper := le_antisymm (RS.normal_upper hq hr hl.symm (fun n => (h n).1))
      (RS.normal_upper hr hq hl (fun n => (h n).2))
    have hA := hr.halfOpen a (by simp)
    have hab := hA.ext (hq.halfOpen b (by simp)) hl hu
    subst hab
    have key : ∀ {r : List CS}, RS.Normal (a :: r) → ∀ n, RS.Mem r (fin n) ↔ RS.Mem (a :: r) (fin n) ∧ ¬ a.Mem (fin n) := by
      intro r hr n
      constructor
      · rintro ⟨s, hs, hm⟩
        refine ⟨⟨s, by simp [hs], hm⟩, fun hn => ?_⟩
        have h1 := ((hr.halfOpen s (by simp [hs])).mem_iff n).1 hm
        have h2 := (hA.mem_iff n).1 hn
        exact absurd (h2.2.trans (hr.above s hs)) (not_lt.2 h1.1)
      · rintro ⟨⟨s, hs, hm⟩, hn⟩
        rcases List.mem_cons.1 hs with rfl | hs
        · exact absurd hm hn
        · exact ⟨s, hs, hm⟩
    rw [RS.normal_unique hr.tail hq.tail (fun n => by rw [key hr, key hq, h n])]

theorem CS.halfOpen_inf {s : CS} (h : s.HalfOpen) : ¬ s.Mem ninf ∧ ¬ s.Mem pinf := by
  obtain ⟨h1, h2, h3⟩ := h
  obtain ⟨l, u, a, b⟩ := s
  simp only at h1 h2 h3
  subst h2
  cases l <;> cases u <;> simp_all [CS.Mem, FP.lt_def, leb]

theorem CS.eq_refl' (s : CS) : s.eq s = true := by simp [CS.eq]

theorem RS.eqLists_refl : ∀ l : List CS, RS.eqLists l l = true
  | [] => rfl
  | a :: l => by simp [RS.eqLists, CS.eq_refl', RS.eqLists_refl l]

theorem RS.halfOpen_normal {l : List CS} (hl : ∀ s ∈ l, s.HalfOpen) : ∃ D r, RS.simplify l = .ok D ∧ RS.Normal r ∧
    (∀ x, RS.Mem r x ↔ RS.Mem l x) ∧
    (D = .cs .emptyset ∧ r = [] ∨ (∃ c, D = .cs c ∧ r = [c]) ∨ D = .rs r ∧ 2 ≤ r.length) := by
  obtain ⟨D, h1, h2, r, h3, h4, -, h6⟩ := C10_half_open hl
  refine ⟨D, r, h1, ⟨h4, h6⟩, fun x => ?_, h3⟩
  rw [← h2 x]
  rcases h3 with ⟨rfl, rfl⟩ | ⟨c, rfl, rfl⟩ | ⟨rfl, -⟩
  · simp only [RS.Mem, NS.Mem, List.not_mem_nil, false_and, exists_false, false_iff]
    cases x <;> simp [CS.Mem, CS.emptyset, FP.lt_def, leb]
    omega
  · simp [RS.Mem, NS.Mem]
  · rfl

end Verif.Iv
