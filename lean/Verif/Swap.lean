import Mathlib.Logic.Equiv.Basic
import Mathlib.Data.List.Nodup
import Mathlib.Data.List.Perm.Basic
import Mathlib.Tactic.Linarith

/-!
# Memory, swaps and permutations of a range

An array in memory is a function from addresses to values.  `Moved a b lo hi` says that `b` arises
from `a` by permuting the addresses `lo ≤ i < hi`.
-/

namespace Verif

/-- `a[i], a[j] = a[j], a[i]`. -/
def swapAt {β : Type} (a : ℕ → β) (i j : ℕ) : ℕ → β :=
  fun k => if k = i then a j else if k = j then a i else a k

/-- `b` is `a` with the addresses in `[lo, hi)` permuted. -/
def Moved {β : Type} (a b : ℕ → β) (lo hi : ℕ) : Prop :=
  ∃ σ : Equiv.Perm ℕ, (∀ k, b k = a (σ k)) ∧ ∀ k, ¬ (lo ≤ k ∧ k < hi) → σ k = k

theorem Moved.refl {β : Type} (a : ℕ → β) (lo hi : ℕ) : Moved a a lo hi :=
  ⟨Equiv.refl ℕ, fun _ => rfl, fun _ _ => rfl⟩

theorem Moved.trans {β : Type} {a b c : ℕ → β} {lo hi : ℕ} (h1 : Moved a b lo hi)
    (h2 : Moved b c lo hi) : Moved a c lo hi := by
  obtain ⟨σ, h1, h1'⟩ := h1
  obtain ⟨τ, h2, h2'⟩ := h2
  refine ⟨τ.trans σ, fun k => ?_, fun k hk => ?_⟩
  · rw [h2, h1]; rfl
  · simp only [Equiv.trans_apply, h2' k hk, h1' k hk]

theorem Moved.mono {β : Type} {a b : ℕ → β} {lo hi lo' hi' : ℕ} (h : Moved a b lo hi)
    (h1 : lo' ≤ lo) (h2 : hi ≤ hi') : Moved a b lo' hi' := by
  obtain ⟨σ, h, h'⟩ := h
  exact ⟨σ, h, fun k hk => h' k (by omega)⟩

theorem Moved.swap {β : Type} (a : ℕ → β) {i j lo hi : ℕ} (hi1 : lo ≤ i) (hi2 : i < hi)
    (hj1 : lo ≤ j) (hj2 : j < hi) : Moved a (swapAt a i j) lo hi := by
  refine ⟨Equiv.swap i j, fun k => ?_, fun k hk => ?_⟩
  · simp only [swapAt, Equiv.swap_apply_def]
    split_ifs <;> rfl
  · rw [Equiv.swap_apply_of_ne_of_ne] <;> omega

/-- Outside the range nothing changes. -/
theorem Moved.outside {β : Type} {a b : ℕ → β} {lo hi : ℕ} (h : Moved a b lo hi) {k : ℕ}
    (hk : ¬ (lo ≤ k ∧ k < hi)) : b k = a k := by
  obtain ⟨σ, h, h'⟩ := h
  rw [h, h' k hk]

/-- Inside the range the new values are old values from inside the range. -/
theorem Moved.inside {β : Type} {a b : ℕ → β} {lo hi : ℕ} (h : Moved a b lo hi) {k : ℕ}
    (hk : lo ≤ k ∧ k < hi) : ∃ j, lo ≤ j ∧ j < hi ∧ b k = a j := by
  obtain ⟨σ, h, h'⟩ := h
  refine ⟨σ k, ?_⟩
  by_contra hc
  have : ¬ (lo ≤ σ k ∧ σ k < hi) := fun h2 => hc ⟨h2.1, h2.2, h k⟩
  have h2 := h' _ this
  have h3 : σ k = k := σ.injective h2
  rw [h3] at this
  exact this hk

/-- The values in the range are permuted. -/
theorem Moved.perm {β : Type} {a b : ℕ → β} {lo hi : ℕ} (h : Moved a b lo hi) :
    ((List.range' lo (hi - lo)).map b).Perm ((List.range' lo (hi - lo)).map a) := by
  obtain ⟨σ, h, h'⟩ := h
  have hb : b = a ∘ σ := funext h
  rw [hb, ← List.map_map]
  apply List.Perm.map
  rw [List.perm_ext_iff_of_nodup ((List.nodup_range' (s := lo) (n := hi - lo)).map σ.injective)
    (List.nodup_range' (s := lo) (n := hi - lo))]
  have key : ∀ k, (lo ≤ σ k ∧ σ k < hi) ↔ (lo ≤ k ∧ k < hi) := by
    intro k
    by_cases hk : lo ≤ k ∧ k < hi
    · refine ⟨fun _ => hk, fun _ => ?_⟩
      by_contra hc
      have := σ.injective (h' _ hc)
      rw [this] at hc; exact hc hk
    · rw [h' k hk]
  intro k
  simp only [List.mem_map, List.mem_range'_1]
  constructor
  · rintro ⟨j, hj, rfl⟩
    have := (key j).2 (by omega)
    omega
  · intro hk
    refine ⟨σ.symm k, ?_, by simp⟩
    have := (key (σ.symm k)).1 (by simp; omega)
    omega

end Verif
