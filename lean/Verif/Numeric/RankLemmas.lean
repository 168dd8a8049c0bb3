import Verif.Numeric.Quantile
import Verif.Numeric.RegLemmas2
import Mathlib.Data.List.Count

/-! # The empirical ranks -/

namespace Verif.Num

/-- The state of the loop after `i` rounds. -/
structure RankInv (f : ℕ → ℤ) (i : ℕ) (b : Buf) : Prop where
  le : b.count ≤ i
  rest : ∀ j, i ≤ j → b.x j = f j
  prev : 0 < i → b.x (i - 1) = f (i - 1)
  pos : 0 < i → 0 < b.count ∧ b.x (b.count - 1) = f (i - 1)
  incr : ∀ k l, k < l → l < b.count → b.x k < b.x l
  rank : ∀ k, k < b.count → b.y k = ((List.range i).countP (fun j => decide (f j ≤ b.x k)) : ℕ)
  sub : ∀ k, k < b.count → ∃ j, j < i ∧ b.x k = f j
  all : ∀ j, j < i → ∃ k, k < b.count ∧ b.x k = f j

theorem rankStep_inv {f : ℕ → ℤ} {i n : ℕ} {b : Buf} (hin : i < n)
    (hf : ∀ j k, j ≤ k → k < n → f j ≤ f k) (h : RankInv f i b) :
    RankInv f (i + 1) (rankStep b i) := by
  have hcount : ∀ v, ((List.range (i + 1)).countP (fun j => decide (f j ≤ v)) : ℕ) =
      (List.range i).countP (fun j => decide (f j ≤ v)) + if f i ≤ v then 1 else 0 := by
    intro v
    rw [List.range_succ, List.countP_append]
    simp [List.countP_cons]
  have hall : ∀ v, f (i - 1) ≤ v → 0 < i →
      ((List.range i).countP (fun j => decide (f j ≤ v)) : ℕ) = i := by
    intro v hv hi
    rw [List.countP_eq_length.2, List.length_range]
    intro j hj
    rw [List.mem_range] at hj
    have := hf j (i - 1) (by omega) (by omega)
    simp; omega
  have hxi := h.rest i le_rfl
  unfold rankStep
  split
  · rename_i hc
    obtain ⟨hi, hc⟩ := hc
    have hp := h.prev hi
    obtain ⟨hpos, hlast⟩ := h.pos hi
    have e : f i = f (i - 1) := by rw [← hxi, hc, hp]
    refine ⟨?_, ?_, ?_, ?_, ?_, ?_, ?_, ?_⟩
    · exact Nat.le_succ_of_le h.le
    · intro j hj; exact h.rest j (by omega)
    · intro _; simp only [Nat.add_sub_cancel]; exact hxi
    · intro _; simp only [Nat.add_sub_cancel]; exact ⟨hpos, by rw [hlast, e]⟩
    · exact h.incr
    · intro k hk
      simp only at hk ⊢
      rw [hcount]
      by_cases hkl : k = b.count - 1
      · subst hkl
        rw [Function.update_self, h.rank _ hk, if_pos (by rw [hlast, e])]
        push_cast; rfl
      · rw [Function.update_of_ne hkl, h.rank _ hk, if_neg]
        · simp
        · have := h.incr k (b.count - 1) (by omega) (by omega)
          rw [hlast] at this
          omega
    · intro k hk
      obtain ⟨j, hj, e⟩ := h.sub k hk
      exact ⟨j, by omega, e⟩
    · intro j hj
      rcases Nat.lt_succ_iff_lt_or_eq.1 hj with hj | rfl
      · exact h.all j hj
      · exact ⟨b.count - 1, by simp only; omega, by simp only; rw [hlast, e]⟩
  · rename_i hc
    have hlt : 0 < i → f (i - 1) < f i := by
      intro hi
      have h1 := hf (i - 1) i (by omega) hin
      have h2 : ¬ b.x i = b.x (i - 1) := fun hh => hc ⟨hi, hh⟩
      rw [hxi, h.prev hi] at h2
      omega
    have hle := h.le
    have hxk : ∀ k, k < b.count → b.x k < f i := by
      intro k hk
      obtain ⟨j, hj, e⟩ := h.sub k hk
      have := hf j (i - 1) (by omega) (by omega)
      have := hlt (by omega)
      omega
    have hup : ∀ k, k < b.count → Function.update b.x b.count (b.x i) k = b.x k := by
      intro k hk; rw [Function.update_of_ne (by omega)]
    have huc : Function.update b.x b.count (b.x i) b.count = f i := by
      rw [Function.update_self, hxi]
    refine ⟨?_, ?_, ?_, ?_, ?_, ?_, ?_, ?_⟩
    · simp only; omega
    · intro j hj
      simp only
      rw [Function.update_of_ne (by omega)]
      exact h.rest j (by omega)
    · intro _
      simp only [Nat.add_sub_cancel]
      by_cases hci : i = b.count
      · have : b.count = i := hci.symm
        rw [this] at huc
        rw [this]; exact huc
      · rw [Function.update_of_ne hci, hxi]
    · intro _
      simp only [Nat.add_sub_cancel]
      exact ⟨by omega, huc⟩
    · intro k l hkl hl
      simp only at hl ⊢
      rw [hup k (by omega)]
      by_cases hlc : l = b.count
      · rw [hlc, huc]; exact hxk k (by omega)
      · rw [hup l (by omega)]; exact h.incr k l hkl (by omega)
    · intro k hk
      simp only at hk ⊢
      rw [hcount]
      by_cases hkl : k = b.count
      · subst hkl
        rw [Function.update_self, huc, if_pos le_rfl]
        by_cases hi : 0 < i
        · rw [hall _ (hlt hi).le hi]; push_cast; rfl
        · have : i = 0 := by omega
          subst this; simp
      · have hk' : k < b.count := by omega
        rw [Function.update_of_ne hkl, h.rank _ hk', hup k hk', if_neg]
        · simp
        · have := hxk k hk'; omega
    · intro k hk
      simp only at hk ⊢
      by_cases hkl : k = b.count
      · exact ⟨i, by omega, by rw [hkl, huc]⟩
      · obtain ⟨j, hj, e⟩ := h.sub k (by omega)
        exact ⟨j, by omega, by rw [hup k (by omega), e]⟩
    · intro j hj
      simp only
      rcases Nat.lt_succ_iff_lt_or_eq.1 hj with hj | rfl
      · obtain ⟨k, hk, e⟩ := h.all j hj
        exact ⟨k, by omega, by rw [hup k hk, e]⟩
      · exact ⟨b.count, by omega, huc⟩

/-- What the ranks are, for sorted data. -/
theorem ranks_spec {s : List ℤ} (hs : s.Pairwise (· ≤ ·)) :
    (∀ k l, k < l → l < (ranks s).count → (ranks s).x k < (ranks s).x l) ∧
    (∀ k, k < (ranks s).count → (ranks s).y k =
      ((s.countP (fun v => decide (v ≤ (ranks s).x k)) : ℕ) - 1 : ℚ) / ((s.length : ℚ) - 1)) ∧
    (∀ v, v ∈ s ↔ ∃ k, k < (ranks s).count ∧ (ranks s).x k = v) := by
  set f : ℕ → ℤ := fun i => s.getD i 0 with hf
  have hmono : ∀ j k, j ≤ k → k < s.length → f j ≤ f k := by
    intro j k hjk hk
    simp only [hf, List.getD_eq_getElem?_getD, List.getElem?_eq_getElem hk,
      List.getElem?_eq_getElem (show j < s.length by omega), Option.getD_some]
    rcases Nat.lt_or_eq_of_le hjk with h | rfl
    · exact List.pairwise_iff_getElem.1 hs j k (by omega) hk h
    · exact le_rfl
  have key := Reg.foldl_range' (σ := Buf) (fun i b => RankInv f i b) rankStep s.length 0
    { x := f, y := fun _ => 0, count := 0 }
    ⟨le_rfl, fun _ _ => rfl, fun h => absurd h (by omega), fun h => absurd h (by omega),
      fun k l _ h => by simp at h, fun k h => by simp at h, fun k h => by simp at h,
      fun j h => by omega⟩
    (fun k b _ hk hb => rankStep_inv (by omega) hmono hb)
  rw [zero_add, ← List.range_eq_range'] at key
  set b := (List.range s.length).foldl rankStep { x := f, y := fun _ => 0, count := 0 } with hb
  have e : ranks s = { b with y := fun i => (b.y i - 1) / ((s.length : ℚ) - 1) } := rfl
  have hcnt : ∀ v, (List.range s.length).countP (fun j => decide (f j ≤ v)) =
      s.countP (fun w => decide (w ≤ v)) := by
    intro v
    have hmap : (List.range s.length).map f = s := by
      apply List.ext_getElem
      · simp
      · intro i h1 h2
        simp [hf, List.getD_eq_getElem?_getD, List.getElem?_eq_getElem h2]
    conv_rhs => rw [← hmap]
    rw [List.countP_map]
    rfl
  refine ⟨?_, ?_, ?_⟩
  · rw [e]; exact key.incr
  · intro k hk
    rw [e] at hk ⊢
    simp only at hk ⊢
    rw [key.rank k hk, hcnt]
  · intro v
    rw [e]
    simp only
    constructor
    · intro hv
      obtain ⟨i, hi, rfl⟩ := List.getElem_of_mem hv
      obtain ⟨k, hk, e⟩ := key.all i hi
      refine ⟨k, hk, ?_⟩
      rw [e, hf]
      simp [List.getD_eq_getElem?_getD, List.getElem?_eq_getElem hi]
    · rintro ⟨k, hk, rfl⟩
      obtain ⟨j, hj, e⟩ := key.sub k hk
      rw [e, hf]
      simp [List.getD_eq_getElem?_getD, List.getElem?_eq_getElem hj]

end Verif.Num
