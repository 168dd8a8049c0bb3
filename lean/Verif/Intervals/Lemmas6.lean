import Verif.Intervals.Lemmas5

/-! # Union, chop, equality -/

namespace Verif.Iv
open FP

namespace CS

/-- Subtracting a disjoint non-empty interval from a non-empty one leaves it alone. -/
theorem difference_disjoint {A B : CS} (hA : A.WF) (hB : B.WF) (rB : B.Reg)
    (hAe : A.isempty = false) (hBe : B.isempty = false) (hd : Disjoint A B) :
    B.difference A = .ok (.cs B) := by
  obtain ⟨z, hz⟩ := exists_mem hA hAe
  have c1 : ¬ A.containsInterval B = true := by
    intro hc
    obtain ⟨w, hw⟩ := exists_mem hB hBe
    exact hd w ⟨containsInterval_sound hc hw, hw⟩
  have c2 : ¬ B.containsInterval A true = true := fun hc =>
    hd z ⟨hz, containsInterval_sound hc hz⟩
  have c3 : ¬ (B.Mem A.uppermost ∧ B.uppermost ≠ A.uppermost) := by
    rintro ⟨hu, -⟩
    by_cases hau : A.upper ≠ pinf ∨ A.right = .inc
    · exact hd _ ⟨uppermost_mem hA hAe hau, hu⟩
    · simp only [not_or, Classical.not_not] at hau
      have : A.uppermost = pinf := by
        simp only [uppermost, hau.1, dn_pinf, ite_self]
      rw [this] at hu
      have := rB.2.2.2
      revert hu; simp only [Mem]; grind [le_pinf B.upper]
  have c4 : ¬ (B.Mem A.lowermost ∧ B.lowermost ≠ A.lowermost) := by
    rintro ⟨hu, -⟩
    by_cases hau : A.lower ≠ ninf ∨ A.left = .inc
    · exact hd _ ⟨lowermost_mem hA hAe hau, hu⟩
    · simp only [not_or, Classical.not_not] at hau
      have : A.lowermost = ninf := by
        simp only [lowermost, hau.1, up_ninf, ite_self]
      rw [this] at hu
      have := rB.2.2.1
      revert hu; simp only [Mem]; grind [ninf_le B.lower]
  simp only [difference, hAe, c1, c2, mk?_self hB, containsValue_iff, c3, c4,
    bind, Except.bind, if_false, Bool.false_eq_true, ite_self]

theorem contiguous_comm (A B : CS) : A.contiguous B = B.contiguous A := by
  have h1 := Int.add_comm B.right.code A.left.code
  have h2 := Int.add_comm A.right.code B.left.code
  simp only [contiguous]
  grind

end CS

theorem RS.mem_pair (a b : CS) (x : FP) : RS.Mem [a, b] x ↔ a.Mem x ∨ b.Mem x := by
  simp [RS.Mem]

theorem RS.mem_single (a : CS) (x : FP) : RS.Mem [a] x ↔ a.Mem x := by
  simp [RS.Mem]

/-- `simplify` of two disjoint, non-touching intervals keeps both. -/
theorem RS.simplify_two {A B : CS} (hA : A.WF) (hB : B.WF) (rA : A.Reg) (rB : B.Reg)
    (hAe : A.isempty = false) (hd : CS.Disjoint A B) (hc : A.contiguous B = false) :
    ∃ D, simplify [A, B] = .ok D ∧ (∀ x, D.Mem x ↔ A.Mem x ∨ B.Mem x) ∧
      (B.isempty = false → D = .rs (if A.upper ≤ B.upper then [A, B] else [B, A])) := by
  by_cases hBe : B.isempty = true
  · have hnB := (CS.isempty_iff B hB).1 hBe
    -- the difference exists and is empty
    have : ∃ d, B.difference A = .ok d := by
      cases h : B.difference A with
      | ok d => exact ⟨d, rfl⟩
      | error e =>
        have he := (CS.difference_error hB e).1 h
        obtain ⟨z, hz⟩ := CS.exists_mem hA hAe
        exact absurd ⟨z, CS.containsInterval_sound he.2.2.2.1 hz⟩ hnB
    obtain ⟨d, hdd⟩ := this
    obtain ⟨j1, j2, j3⟩ := CS.difference_mem hB hA rB rA hdd
    have hno : ∀ x, ¬ d.Mem x := fun x hx => hnB ⟨x, ((j1 x).1 hx).1⟩
    have hcs : ∃ c, d = .cs c := by
      cases d with
      | cs c => exact ⟨c, rfl⟩
      | rs l =>
        obtain ⟨-, h2, h3⟩ := CS.difference_rs hdd
        obtain ⟨z, hz⟩ := CS.exists_mem hA hAe
        exact absurd ⟨z, h3 z hz⟩ hnB
    obtain ⟨c, rfl⟩ := hcs
    have hce : c.isempty = true := by
      rw [CS.isempty_iff c j2]
      rintro ⟨x, hx⟩; exact hno x hx
    refine ⟨.cs A, ?_, fun x => ?_, fun h => by simp [h] at hBe⟩
    · simp [simplify, simplifyList, disjointify, hdd, bind, Except.bind, pure, Except.pure, pieces,
        hce, hAe, sortUpper, mergeLoop]
    · exact ⟨.inl, fun h => h.elim id (fun h => absurd ⟨x, h⟩ hnB)⟩
  · rw [Bool.not_eq_true] at hBe
    have hdd := CS.difference_disjoint hA hB rB hAe hBe hd
    have hc' : B.contiguous A = false := by rw [CS.contiguous_comm, hc]
    refine ⟨.rs (if A.upper ≤ B.upper then [A, B] else [B, A]), ?_, fun x => ?_, fun _ => rfl⟩
    · have hdj : disjointify (2 ^ [A, B].length) [A, B] = .ok [A, B] := by
        simp [disjointify, hdd, bind, Except.bind, pure, Except.pure, pieces, hBe, hAe]
      by_cases hu : A.upper ≤ B.upper
      · have : sortUpper [A, B] = [A, B] := sortUpper_eq (by simp [hu])
        simp only [simplify, simplifyList, hdj, bind, Except.bind, this, mergeLoop, hc, if_pos hu]
        rfl
      · have h2 : sortUpper [A, B] = [B, A] := by
          rw [← sortUpper_eq (l := [B, A]) (by simp; exact le_of_lt (not_le.1 hu))]
          apply List.Perm.eq_of_pairwise (le := fun a b : CS => a.upper ≤ b.upper)
          · intro a b ha hb h1 h2
            have ha' : a = A ∨ a = B := by
              have := (sortUpper_perm [A, B]).mem_iff.1 ha
              simpa using this
            have hb' : b = A ∨ b = B := by
              have := (sortUpper_perm [B, A]).mem_iff.1 hb
              simp at this; exact this.symm
            rcases ha' with rfl | rfl <;> rcases hb' with rfl | rfl <;> first | rfl | exact absurd (by assumption) hu
          · exact sortUpper_sorted [A, B]
          · exact sortUpper_sorted [B, A]
          · exact (sortUpper_perm _).trans ((List.Perm.swap _ _ _).trans (sortUpper_perm [B, A]).symm)
        simp only [simplify, simplifyList, hdj, bind, Except.bind, h2, mergeLoop, hc', if_neg hu]
        rfl
    · show RS.Mem _ x ↔ _
      split <;> rw [RS.mem_pair]
      exact or_comm

theorem CS.union_spec {A B : CS} (hA : A.WF) (hB : B.WF) (rA : A.Reg) (rB : B.Reg) :
    ∃ D, A.union B = .ok D ∧ ∀ x, D.Mem x ↔ A.Mem x ∨ B.Mem x := by
  unfold CS.union
  split
  · rename_i hn
    simp only [Bool.not_eq_true] at hn
    split
    · rename_i he
      refine ⟨.cs B, by rw [CS.mk?_self hB]; rfl, fun x => ?_⟩
      have := (CS.isempty_iff A hA).1 he
      exact ⟨.inr, fun h => h.elim (fun h => absurd ⟨x, h⟩ this) id⟩
    · rename_i hne
      rw [Bool.not_eq_true] at hne
      obtain ⟨D, h1, h2, -⟩ := RS.simplify_two hA hB rA rB hne
        (CS.not_mem_of_not_intersects hn.1) hn.2
      exact ⟨D, h1, h2⟩
  · rename_i hn
    have hmk : ∀ a b, CS.mk? (min A.lower B.lower) (max A.upper B.upper) a b =
        .ok ⟨min A.lower B.lower, max A.upper B.upper, a, b⟩ := by
      intro a b
      simp only [CS.WF] at hA hB
      rw [CS.mk?, if_neg]; grind
    refine ⟨_, by rw [hmk]; rfl, fun x => ?_⟩
    simp only [NS.Mem]
    clear hmk rA rB
    obtain ⟨l, u, a, b⟩ := A
    obtain ⟨l', u', a', b'⟩ := B
    rcases lt_trichotomy l l' with h1 | h1 | h1 <;> rcases lt_trichotomy u u' with h2 | h2 | h2 <;>
    revert hA hB hn <;>
    cases a <;> cases b <;> cases a' <;> cases b' <;>
      simp only [CS.intersects, CS.contiguous, CS.isempty, CS.isclosed, CS.itype, CS.WF, CS.Mem,
        Br.code, Br.min, ite_self, reduceCtorEq] <;> grind (splits := 25)

end Verif.Iv
