import Verif.Intervals.EqLemmas
import Mathlib.Data.List.Pairwise

/-!
# C12 for unions of half-open intervals

This covers what `C12_realset_eq_sound_partial` leaves open, for the form in which trees and piecewise functions use
intervals.
-/

namespace Verif.Iv

open FP

/-- **C12 (unions of half-open intervals).** `S == T` returns for all unions of half-open intervals, in whatever order
the intervals are given and whether or not they overlap, and says whether the two have the same members. -/
theorem C12_half_open {l o : List CS} (hl : ∀ s ∈ l, s.HalfOpen) (ho : ∀ s ∈ o, s.HalfOpen) :
    ∃ b, RS.eq l o = .ok b ∧ (b = true ↔ ∀ x, RS.Mem l x ↔ RS.Mem o x) := by
  obtain ⟨D, r, h1, h2, h3, h4⟩ := RS.halfOpen_normal hl
  obtain ⟨E, q, k1, k2, k3, k4⟩ := RS.halfOpen_normal ho
  have hsame : (∀ x, RS.Mem l x ↔ RS.Mem o x) ↔ r = q := by
    constructor
    · intro h
      exact RS.normal_unique h2 k2 (fun n => by rw [h3, k3, h])
    · rintro rfl x
      rw [← h3, k3]
  have hemp : ∀ {l : List CS} (hl : ∀ s ∈ l, s.HalfOpen) {r : List CS}, RS.Normal r → (∀ x, RS.Mem r x ↔ RS.Mem l x) →
      (RS.isempty l = true ↔ r = []) := by
    intro l hl r hr hm
    rw [RS.isempty_iff (fun s hs => (hl s hs).wf)]
    constructor
    · intro h
      cases r with
      | nil => rfl
      | cons a r =>
        have hA := hr.halfOpen a (by simp)
        obtain ⟨n, hn, -⟩ := hA.member a.upper hA.1 le_rfl
        exact absurd ⟨fin n, (hm _).1 ⟨a, by simp, hn⟩⟩ h
    · rintro rfl ⟨x, hx⟩
      obtain ⟨s, hs, -⟩ := (hm x).2 hx
      cases hs
  have e1 := hemp hl h2 h3
  have e2 := hemp ho k2 k3
  rw [hsame]
  unfold RS.eq
  by_cases he : (RS.isempty l && RS.isempty o) = true
  · rw [if_pos he]
    rw [Bool.and_eq_true, e1, e2] at he
    exact ⟨true, rfl, by simp [he.1, he.2]⟩
  · rw [if_neg he]
    rw [Bool.and_eq_true, e1, e2] at he
    simp only [h1, k1, bind, Except.bind]
    have hone : ∀ {c : CS}, RS.Normal [c] → CS.emptyset.eq c = false ∧ c.eq CS.emptyset = false := by
      intro c hc
      have hC := hc.halfOpen c (by simp)
      obtain ⟨n, hn, -⟩ := hC.member c.upper hC.1 le_rfl
      have hno : ¬ CS.emptyset.Mem (fin n) := by
        simp [CS.Mem, CS.emptyset, FP.lt_def, leb]
        omega
      constructor
      · rw [Bool.eq_false_iff]
        intro h
        exact hno (((CS.eq_iff (by decide) hC.wf (by decide) hC.reg).1 h (fin n)).2 hn)
      · rw [Bool.eq_false_iff]
        intro h
        exact hno (((CS.eq_iff hC.wf (by decide) hC.reg (by decide)).1 h (fin n)).1 hn)
    rcases h4 with ⟨rfl, rfl⟩ | ⟨c, rfl, rfl⟩ | ⟨rfl, hlen⟩ <;> rcases k4 with ⟨rfl, rfl⟩ | ⟨d, rfl, rfl⟩ | ⟨rfl, klen⟩
    · exact absurd ⟨rfl, rfl⟩ he
    · exact ⟨false, by simp [(hone k2).1], by simp⟩
    · exact ⟨false, rfl, by simp; rintro rfl; simp at klen⟩
    · exact ⟨false, by simp [(hone h2).2], by simp⟩
    · refine ⟨c.eq d, rfl, ?_⟩
      have hC := h2.halfOpen c (by simp)
      have hD := k2.halfOpen d (by simp)
      rw [CS.eq_iff hC.wf hD.wf hC.reg hD.reg]
      constructor
      · intro h
        exact RS.normal_unique h2 k2 (fun n => by simp [RS.Mem, h])
      · intro h x
        rw [List.cons.injEq] at h
        rw [h.1]
    · exact ⟨false, rfl, by simp; rintro rfl; simp at klen⟩
    · exact ⟨false, rfl, by simp; rintro rfl; simp at hlen⟩
    · exact ⟨false, rfl, by simp; rintro rfl; simp at hlen⟩
    · refine ⟨RS.eqLists r q, rfl, ?_⟩
      constructor
      · intro h
        exact RS.normal_unique h2 k2 (fun n => RS.eqLists_sound (fun s hs => ⟨(h2.halfOpen s hs).wf, (h2.halfOpen s hs).reg⟩)
          (fun s hs => ⟨(k2.halfOpen s hs).wf, (k2.halfOpen s hs).reg⟩) h (fin n))
      · rintro rfl
        exact RS.eqLists_refl r

/-- Overlapping intervals out of order, for the examples. -/
def exHalf : List CS := [⟨fin 5, fin 9, .inc, .exc⟩, ⟨ninf, fin 2, .exc, .exc⟩, ⟨fin 0, fin 3, .inc, .exc⟩]

example : (∀ s ∈ exHalf, s.HalfOpen) ∧ RS.eq exHalf [⟨ninf, fin 3, .exc, .exc⟩, ⟨fin 5, fin 9, .inc, .exc⟩] = .ok true := by
  decide +kernel

/-- **C12 (equivalence of unions).** Hence `==` is an equivalence relation on unions of half-open intervals. -/
theorem C12_half_open_equivalence :
    Equivalence (fun A B : {l : List CS // ∀ s ∈ l, s.HalfOpen} => RS.eq A.1 B.1 = .ok true) := by
  have key : ∀ A B : {l : List CS // ∀ s ∈ l, s.HalfOpen}, RS.eq A.1 B.1 = .ok true ↔ ∀ x, RS.Mem A.1 x ↔ RS.Mem B.1 x := by
    intro A B
    obtain ⟨b, h1, h2⟩ := C12_half_open A.2 B.2
    rw [h1, ← h2, Except.ok.injEq]
  refine ⟨fun A => (key A A).2 (fun _ => Iff.rfl), fun {A B} h => (key B A).2 (fun x => ((key A B).1 h x).symm),
    fun {A B C} h1 h2 => (key A C).2 (fun x => ((key A B).1 h1 x).trans ((key B C).1 h2 x))⟩

/-- **C12 (hash, partial).** The order in which disjoint half-open intervals are given does not matter for the hash.
Missing: equal unions of other intervals (`C12_violated_realset_hash`). -/
theorem C12_realset_hash_partial {l o : List CS} (hl : ∀ s ∈ l, s.HalfOpen) (hd : l.Pairwise CS.Disjoint) (h : l.Perm o) :
    RS.hashKey l = RS.hashKey o := by
  unfold RS.hashKey
  have hinj : ∀ a ∈ l, ∀ b ∈ l, a.lower = b.lower → a = b := by
    intro a ha b hb e
    by_contra hne
    have hdis : a.Disjoint b := by
      have hs : Std.Symm CS.Disjoint := ⟨fun x y h z hz => h z ⟨hz.2, hz.1⟩⟩
      exact List.Pairwise.forall hd ha hb hne
    have hA := hl a ha
    have hB := hl b hb
    obtain ⟨n, hn, hlt⟩ := hA.member (min a.upper b.upper) (lt_min hA.1 (by rw [e]; exact hB.1)) (min_le_left _ _)
    refine hdis (fin n) ⟨hn, (hB.mem_iff n).2 ⟨?_, hlt.trans_le (min_le_right _ _)⟩⟩
    rw [← e]
    exact ((hA.mem_iff n).1 hn).1
  congr 1
  have ht : Std.Total (fun a b : CS => a.lower ≤ b.lower) := ⟨fun a b => le_total _ _⟩
  have htr : IsTrans CS (fun a b : CS => a.lower ≤ b.lower) := ⟨fun a b c h1 h2 => le_trans h1 h2⟩
  refine List.Perm.eq_of_pairwise (le := fun a b : CS => a.lower ≤ b.lower) ?_ (List.pairwise_insertionSort _ _)
    (List.pairwise_insertionSort _ _) ?_
  · intro a b ha hb h1 h2
    simp only [List.mem_insertionSort] at ha hb
    exact hinj a ha b (h.mem_iff.2 hb) (le_antisymm h1 h2)
  · exact (List.perm_insertionSort _ _).trans ((List.perm_insertionSort _ _).trans (h.trans
      ((List.perm_insertionSort _ _).symm.trans (List.perm_insertionSort _ _).symm)))

example : (∀ s ∈ ([⟨fin 5, fin 9, .inc, .exc⟩, ⟨ninf, fin 2, .exc, .exc⟩] : List CS), s.HalfOpen) ∧
    RS.hashKey [⟨fin 5, fin 9, .inc, .exc⟩, ⟨ninf, fin 2, .exc, .exc⟩] =
      RS.hashKey [⟨ninf, fin 2, .exc, .exc⟩, ⟨fin 5, fin 9, .inc, .exc⟩] := by decide +kernel

/-- **C12 fails for the hashes of unions.** `[0, 1) ∪ [1, 2)` equals `[0, 2)`, but the two are hashed by different
tuples. -/
theorem C12_violated_realset_hash : ∃ l o : List CS, (∀ s ∈ l, s.HalfOpen) ∧ (∀ s ∈ o, s.HalfOpen) ∧
    RS.eq l o = .ok true ∧ RS.hashKey l ≠ RS.hashKey o :=
  ⟨[⟨fin 0, fin 1, .inc, .exc⟩, ⟨fin 1, fin 2, .inc, .exc⟩], [⟨fin 0, fin 2, .inc, .exc⟩], by decide +kernel⟩

/-- **C12 (truth value).** A union is true exactly if it has a member. -/
theorem C12_bool {l : List CS} (hl : ∀ s ∈ l, s.WF) : RS.toBool l = true ↔ ∃ x, RS.Mem l x := by
  have := RS.isempty_iff hl
  unfold RS.toBool
  rw [Bool.not_eq_true', ← Bool.not_eq_true, this, not_not]

example : ∀ s ∈ exHalf, s.WF := by decide

end Verif.Iv
