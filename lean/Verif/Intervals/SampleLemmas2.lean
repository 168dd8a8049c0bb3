import Verif.Intervals.SampleLemmas
import Verif.Intervals.Lemmas5
import Mathlib.Data.List.Nodup

/-! # Lemmas about the number of members -/

namespace Verif.Iv

open FP

/-- What an interval of size 1 contains. -/
theorem size_one {s : CS} (hw : s.WF) (h : s.size = some 1) : ∃ x, ∀ y, s.Mem y ↔ y = x := by
  obtain ⟨a, b, l, r⟩ := s
  have he : CS.isempty ⟨a, b, l, r⟩ = false := by
    cases h' : CS.isempty ⟨a, b, l, r⟩ with
    | false => rfl
    | true => simp [CS.size, h'] at h
  simp only [CS.size, he, Bool.false_eq_true, if_false] at h
  split_ifs at h with h2
  rcases h2 with h2 | ⟨h2, h3⟩
  · subst h2
    refine ⟨a, fun y => ?_⟩
    cases a <;> cases y <;> cases l <;> cases r <;>
      simp_all [CS.Mem, FP.lt_def, leb, CS.isempty, CS.isclosed, CS.itype, Br.code] <;> omega
  · refine ⟨if l = .inc then a else b, fun y => ?_⟩
    cases a <;> cases b <;> cases y <;> cases l <;> cases r <;>
      simp_all [CS.Mem, FP.lt_def, leb, CS.isempty, CS.isclosed, CS.itype, Br.code, FP.up] <;> omega

theorem size_cases (s : CS) : s.size = some 0 ∨ s.size = some 1 ∨ s.size = none := by
  unfold CS.size
  split_ifs <;> simp

/-- Adding up sizes. -/
def addSize (n : Option ℕ) (s : CS) : Option ℕ :=
  match n, s.size with
  | some a, some b => some (a + b)
  | _, _ => none

theorem addSize_none (r : List CS) : r.foldl addSize none = none := by
  induction r with
  | nil => rfl
  | cons a r ih => simpa [addSize] using ih

/-- Disjoint intervals in order: the members are listed by their sizes. -/
theorem sizes_list {r : List CS} (hw : ∀ s ∈ r, s.WF ∧ s.isempty = false) (hp : r.Pairwise RS.Before) :
    ∀ k n, r.foldl addSize (some k) = some n →
      ∃ xs : List FP, xs.Nodup ∧ k + xs.length = n ∧ ∀ x, RS.Mem r x ↔ x ∈ xs := by
  induction r with
  | nil =>
    intro k n h
    simp only [List.foldl_nil, Option.some.injEq] at h
    exact ⟨[], by simp, by simpa using h, by simp [RS.Mem]⟩
  | cons s r ih =>
    intro k n h
    obtain ⟨hp1, hp2⟩ := List.pairwise_cons.1 hp
    rw [List.foldl_cons] at h
    rcases size_cases s with h0 | h1 | h2
    · exact absurd h0 (size_ne (hw s (by simp)).2)
    · obtain ⟨x, hx⟩ := size_one (hw s (by simp)).1 h1
      have hk : addSize (some k) s = some (k + 1) := by simp [addSize, h1]
      rw [hk] at h
      obtain ⟨xs, nd, hl, hm⟩ := ih (fun s hs => hw s (by simp [hs])) hp2 _ _ h
      refine ⟨x :: xs, ?_, by simp; omega, ?_⟩
      · refine List.nodup_cons.2 ⟨fun hmem => ?_, nd⟩
        obtain ⟨t, ht, hxt⟩ := (hm x).2 hmem
        exact absurd (hp1 t ht x x ((hx x).2 rfl) hxt) (lt_irrefl _)
      · intro y
        rw [List.mem_cons, ← hm y, ← hx y]
        simp [RS.Mem]
    · have hk : addSize (some k) s = none := by simp [addSize, h2]
      rw [hk, addSize_none] at h
      cases h

/-- The size of a union that is given in order. -/
theorem size_list {l : List CS} (hl : ∀ s ∈ l, RS.Good s) (ho : l.Pairwise CS.NotBelow) {n : ℕ}
    (h : RS.size l = .ok (some n)) : ∃ xs : List FP, xs.Nodup ∧ xs.length = n ∧ ∀ x, RS.Mem l x ↔ x ∈ xs := by
  simp only [RS.size, bind, Except.bind] at h
  cases hD : RS.simplify l with
  | error e => simp [hD] at h
  | ok D =>
    obtain ⟨r, hr, hm, hform⟩ := RS.simplify_ok hD
    obtain ⟨h1, h2, h3, -⟩ := RS.simplifyList_spec hl ho hr
    rw [hD] at h
    have key : r.foldl addSize (some 0) = some n := by
      rcases hform with ⟨rfl, rfl⟩ | ⟨c, rfl, rfl⟩ | ⟨rfl, -⟩
      · have : CS.emptyset.size = some 0 := by decide
        simp only [this, Except.ok.injEq, Option.some.injEq] at h
        simpa using h
      · simp only [Except.ok.injEq] at h
        simp [addSize, h]
      · simp only [Except.ok.injEq] at h
        rw [← h]
        rfl
    obtain ⟨xs, nd, hl', hx⟩ := sizes_list h2 h3 0 n key
    exact ⟨xs, nd, by omega, fun x => by rw [← h1, hx]⟩

theorem unbounded_below {s : CS} (hr : s.Reg) : s.isninf = true ↔ ∀ n, ∃ m, m ≤ n ∧ s.Mem (fin m) := by
  obtain ⟨a, b, l, r⟩ := s
  cases a with
  | pinf => simp [CS.Reg] at hr
  | ninf =>
    simp only [CS.isninf, FP.isInf, true_iff]
    intro n
    cases b with
    | ninf => simp [CS.Reg] at hr
    | pinf => exact ⟨n, le_rfl, by simp [CS.Mem, FP.lt_def, leb]⟩
    | fin b => exact ⟨min n (b - 1), by omega, by simp [CS.Mem, FP.lt_def, leb]⟩
  | fin a =>
    simp only [CS.isninf, FP.isInf, Bool.false_eq_true, false_iff]
    intro h
    obtain ⟨m, h1, h2⟩ := h (a - 1)
    simp [CS.Mem, FP.lt_def, leb] at h2
    omega

theorem unbounded_above {s : CS} (hr : s.Reg) : s.ispinf = true ↔ ∀ n, ∃ m, n ≤ m ∧ s.Mem (fin m) := by
  obtain ⟨a, b, l, r⟩ := s
  cases b with
  | ninf => simp [CS.Reg] at hr
  | pinf =>
    simp only [CS.ispinf, FP.isInf, true_iff]
    intro n
    cases a with
    | pinf => simp [CS.Reg] at hr
    | ninf => exact ⟨n, le_rfl, by simp [CS.Mem, FP.lt_def, leb]⟩
    | fin b => exact ⟨max n (b + 1), by omega, by simp [CS.Mem, FP.lt_def, leb]⟩
  | fin b =>
    simp only [CS.ispinf, FP.isInf, Bool.false_eq_true, false_iff]
    intro h
    obtain ⟨m, h1, h2⟩ := h (b + 1)
    simp [CS.Mem, FP.lt_def, leb] at h2
    omega

/-- If every bound is undercut by some member of the list, one interval undercuts them all. -/
theorem exists_uniform {P : CS → ℤ → Prop} (hmono : ∀ s m n, m ≤ n → P s m → P s n) {l : List CS}
    (h : ∀ n, ∃ s ∈ l, P s n) : ∃ s ∈ l, ∀ n, P s n := by
  by_contra hc
  push Not at hc
  have : ∃ n, ∀ s ∈ l, ¬ P s n := by
    clear h
    induction l with
    | nil => exact ⟨0, by simp⟩
    | cons a l ih =>
      obtain ⟨n, hn⟩ := ih (fun s hs => hc s (by simp [hs]))
      obtain ⟨m, hm⟩ := hc a (by simp)
      refine ⟨min n m, fun s hs hp => ?_⟩
      rcases List.mem_cons.1 hs with rfl | hs
      · exact hm (hmono _ _ _ (by omega) hp)
      · exact hn s hs (hmono _ _ _ (by omega) hp)
  obtain ⟨n, hn⟩ := this
  obtain ⟨s, hs, hp⟩ := h n
  exact hn s hs hp

end Verif.Iv
