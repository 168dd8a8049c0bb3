import Verif.Intervals.LinspaceSpec
import Mathlib.Tactic.Ring
import Mathlib.Tactic.Linarith
import Mathlib.Tactic.FieldSimp
import Mathlib.Tactic.Push

/-! # Lemmas about evenly spaced points -/

namespace Verif.Iv.Lin

variable {N : Ops}

theorem walk_length (space : ℚ) : ∀ (n : ℕ) (v : ℚ), (walk N space n v).length = n
  | 0, _ => rfl
  | n + 1, v => by simp [walk, walk_length space n]

theorem walk_get (h : N.Exact) (space : ℚ) : ∀ (n : ℕ) (v : ℚ) (k : ℕ), k < n → (walk N space n v)[k]? = some (v + k * space)
  | 0, _, _, hk => by omega
  | n + 1, v, 0, _ => by simp [walk]
  | n + 1, v, k + 1, hk => by
    rw [walk, List.getElem?_cons_succ, walk_get h space n _ k (by omega), h]
    congr 1
    push_cast
    ring

theorem ends_length (s : Box) (xs : List ℚ) : (ends N s xs).length = xs.length := by
  unfold ends
  split_ifs <;> simp

theorem modify_ends (P Q : Prop) [Decidable P] [Decidable Q] (f g : ℚ → ℚ) {xs : List ℚ} (hn : 2 ≤ xs.length) (k : ℕ) :
    (let ys := if P then xs.modify 0 f else xs
     if Q then ys.modify (ys.length - 1) g else ys)[k]? =
      xs[k]?.map (fun x => if k = 0 ∧ P then f x else if k = xs.length - 1 ∧ Q then g x else x) := by
  have hl : (xs.modify 0 f).length = xs.length := List.length_modify ..
  have e : ¬ (xs.length - 1 = 0) := by omega
  by_cases hP : P <;> by_cases hQ : Q <;>
    simp only [hP, hQ, if_true, if_false, and_true, and_false, List.getElem?_modify, hl]
  · by_cases k0 : k = 0
    · subst k0
      cases xs[0]? <;> simp [e]
    · by_cases k1 : k = xs.length - 1
      · subst k1
        cases xs[xs.length - 1]? <;> simp [e, Ne.symm e]
      · cases xs[k]? <;> simp [k0, k1, Ne.symm k0, Ne.symm k1]
  · by_cases k0 : k = 0
    · subst k0
      cases xs[0]? <;> simp
    · cases xs[k]? <;> simp [k0, Ne.symm k0]
  · by_cases k1 : k = xs.length - 1
    · subst k1
      cases xs[xs.length - 1]? <;> simp
    · cases xs[k]? <;> simp [k1, Ne.symm k1]
  · cases xs[k]? <;> simp

theorem ends_get (s : Box) {xs : List ℚ} (hn : 2 ≤ xs.length) (k : ℕ) :
    (ends N s xs)[k]? = xs[k]?.map (fun x =>
      if k = 0 ∧ s.left = .exc ∧ s.lower ≠ .ninf then N.next x (N.rd (x + 1))
      else if k = xs.length - 1 ∧ s.right = .exc ∧ s.upper ≠ .pinf then N.next x (N.rd (x - 1)) else x) :=
  modify_ends _ _ _ _ hn k

/-- What the loop for all numbers has written after `i` rounds. -/
theorem zig_spec (h : N.Exact) (space : ℚ) (num : ℕ) (p : ℕ) (hp : p = (num - 1) / 2) : ∀ i, i ≤ num →
    ∃ st, (List.range i).foldl (zigStep N space) ⟨List.replicate num none, (p : ℤ), 0⟩ = st ∧ st.samples.length = num ∧
      st.val = ((i + 1) / 2 : ℕ) * space ∧ (i = 0 → st.pos = p) ∧ (0 < i → st.pos = p + (if i % 2 = 0 then (i / 2 : ℤ) else -((i - 1 : ℤ) / 2))) ∧
      ∀ k : ℕ, p < k + (i + 1) / 2 → k < p + i / 2 + 1 → 0 < i → st.samples[k]? = some (some (((k : ℚ) - p) * space)) := by
  have h' : ∀ x, N.rd x = x := h
  intro i
  induction i with
  | zero => intro _; exact ⟨_, rfl, by simp, by simp, by simp, by simp, by simp⟩
  | succ i ih =>
    intro hi
    obtain ⟨st, h1, h2, h3, h4, h5, h6⟩ := ih (by omega)
    have hpos : st.pos + (i : ℤ) * (-1) ^ (i + 1) = p + (if (i + 1) % 2 = 0 then (((i + 1 : ℕ) : ℤ) / 2) else -((((i + 1 : ℕ) : ℤ) - 1) / 2)) := by
      rcases Nat.even_or_odd i with he | ho
      · have e1 : (-1 : ℤ) ^ (i + 1) = -1 := by rw [pow_succ, he.neg_one_pow]; rfl
        obtain ⟨j, rfl⟩ := he
        rw [e1, if_neg (by omega)]
        rcases Nat.eq_zero_or_pos (j + j) with h0 | h0
        · rw [h4 h0]; omega
        · rw [h5 h0, if_pos (by omega)]; push_cast; omega
      · have e1 : (-1 : ℤ) ^ (i + 1) = 1 := by rw [pow_succ, ho.neg_one_pow]; rfl
        obtain ⟨j, rfl⟩ := ho
        rw [e1, if_pos (by omega), h5 (by omega), if_neg (by omega)]
        push_cast; omega
    refine ⟨zigStep N space st i, by rw [List.range_succ, List.foldl_append, h1]; rfl, by simp [zigStep, h2], ?_, by omega, ?_, ?_⟩
    · simp only [zigStep, h3, h']
      by_cases he : i % 2 = 0
      · rw [if_pos (.inl he)]
        have : (i + 1 + 1) / 2 = (i + 1) / 2 + 1 := by omega
        rw [this]; push_cast; ring
      · have e : (i + 1 + 1) / 2 = (i + 1) / 2 := by omega
        rw [e]
        split_ifs with hc
        · rcases hc with hc | hc
          · exact absurd hc he
          · have hsp : space = 0 := by
              rcases mul_eq_zero.1 hc with hc | hc
              · have : (i + 1) / 2 ≠ 0 := by omega
                exact absurd hc (by exact_mod_cast this)
              · exact hc
            rw [hsp]; ring
        · rfl
    · intro _
      simp only [zigStep]
      exact hpos
    · intro k hk1 hk2 _
      simp only [zigStep, hpos]
      clear hpos h4 h5 ih h1
      by_cases he : i % 2 = 1
      · rw [if_pos (by omega), if_pos he]
        by_cases hk : k = p + (i + 1) / 2
        · have e : ((p : ℤ) + ((i + 1 : ℕ) : ℤ) / 2).toNat = k := by omega
          rw [e, List.getElem?_set_self (by omega), h3, hk]
          congr 2
          push_cast
          ring
        · rw [List.getElem?_set_ne (by omega)]
          exact h6 k (by omega) (by omega) (by omega)
      · rw [if_neg (by omega), if_neg he]
        by_cases hk : k + i / 2 = p
        · have e : ((p : ℤ) + -((((i + 1 : ℕ) : ℤ) - 1) / 2)).toNat = k := by omega
          rw [e, List.getElem?_set_self (by omega), h3, ← hk]
          have : (i + 1) / 2 = i / 2 := by omega
          rw [this]
          congr 2
          push_cast
          ring
        · rw [List.getElem?_set_ne (by omega)]
          exact h6 k (by omega) (by omega) (by omega)

theorem zigzag_get (h : N.Exact) (space : ℚ) {num : ℕ} (hn : 1 ≤ num) :
    (zigzag N space num).length = num ∧
    ∀ k, k < num → (zigzag N space num)[k]? = some (some (((k : ℚ) - ((num - 1) / 2 : ℕ)) * space)) := by
  obtain ⟨st, h1, h2, -, -, -, h6⟩ := zig_spec h space num _ rfl num le_rfl
  have e : ((num / 2 : ℕ) : ℤ) - (if num % 2 = 1 then 0 else 1) = (((num - 1) / 2 : ℕ) : ℤ) := by
    split_ifs <;> omega
  unfold zigzag
  rw [e, h1]
  exact ⟨h2, fun k hk => h6 k (by omega) (by omega) (by omega)⟩

end Verif.Iv.Lin
