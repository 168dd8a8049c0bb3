import Verif.Gauss.Compare
import Mathlib.Data.List.OfFn
import Mathlib.Data.Fin.VecNotation
import Mathlib.Tactic.FinCases

/-!
# C136: comparing Gaussians

*Two Gaussians are equal exactly if they have the same mean and covariance; `sym()` says whether the covariance is symmetric.*
-/

namespace Verif.Gau

variable {d : ℕ}

theorem length_sameMean (g h : G d) : (sameMean g h).length = d := by simp [sameMean]

/-- In one dimension, the comparison is true exactly if mean and variance agree; a Gaussian is never equal to `None`.

Partial: the full claim is about all dimensions; see `C136_violated_dimension`. -/
theorem C136_equal_partial (g h : G 1) :
    (∃ b, ifEq g (some h) = .ok b ∧ (b = true ↔ g.mean = h.mean ∧ g.cov = h.cov)) ∧ ifEq g none = .ok false := by
  refine ⟨?_, rfl⟩
  have em : g.mean = h.mean ↔ h.mean 0 = g.mean 0 := by
    constructor
    · intro e; rw [e]
    · intro e; funext i; fin_cases i; exact e.symm
  have ec : g.cov = h.cov ↔ h.cov 0 0 = g.cov 0 0 := by
    constructor
    · intro e; rw [e]
    · intro e; funext i j; fin_cases i; fin_cases j; exact e.symm
  rw [em, ec]
  by_cases h1 : h.mean 0 = g.mean 0
  · by_cases h2 : h.cov 0 0 = g.cov 0 0
    · exact ⟨true, by simp [ifEq, eqG, sameMean, sameCov, truth, h1, h2], by simp [h1, h2]⟩
    · exact ⟨false, by simp [ifEq, eqG, sameMean, sameCov, truth, h1, h2], by simp [h1, h2]⟩
  · exact ⟨false, by simp [ifEq, eqG, sameMean, truth, h1], by simp [h1]⟩

/-- Disagreement: Gaussians of two or more dimensions cannot be compared: whatever they are, and even a Gaussian with itself, `==` raises a
`ValueError`, since NumPy does not take an array of several comparisons as true or false. -/
theorem C136_violated_dimension (hd : 2 ≤ d) (g h : G d) : eqG g (some h) = .error .valueError := by
  have hl := length_sameMean g h
  have : truth (.array (sameMean g h)) = .error .valueError := by
    generalize sameMean g h = l at hl
    match l, hl with
    | [], hl => rfl
    | [_], hl => simp at hl; omega
    | _ :: _ :: _, _ => rfl
  simp [eqG, this]

theorem symRow_iff (g : G d) (i : Fin d) : ∀ l : List (Fin d), symRow g i l = true ↔ ∀ j ∈ l, g.cov i j = g.cov j i
  | [] => by simp [symRow]
  | j :: r => by
    have ih := symRow_iff g i r
    by_cases h : g.cov i j = g.cov j i <;> simp [symRow, h, ih]

theorem symRows_iff (g : G d) : ∀ l : List (Fin d), symRows g l = true ↔ ∀ i ∈ l, ∀ j, g.cov i j = g.cov j i
  | [] => by simp [symRows]
  | i :: r => by
    have ih := symRows_iff g r
    have h := symRow_iff g i (List.ofFn (fun i : Fin d => i))
    have h' : (∀ j ∈ List.ofFn (fun i : Fin d => i), g.cov i j = g.cov j i) ↔ ∀ j, g.cov i j = g.cov j i := by simp
    rw [h'] at h
    cases hb : symRow g i (List.ofFn (fun i : Fin d => i)) with
    | true =>
      have := h.1 hb
      simp only [symRows, hb, ite_true, ih, List.forall_mem_cons]
      exact ⟨fun h => ⟨this, h⟩, fun h => h.2⟩
    | false =>
      simp only [symRows, hb, Bool.false_eq_true, ite_false, List.forall_mem_cons, false_iff]
      intro hh
      rw [h.2 hh.1] at hb
      cases hb

/-- `sym()` is true exactly if the covariance is symmetric. -/
theorem C136_sym (g : G d) : g.sym = true ↔ ∀ i j, g.cov i j = g.cov j i := by
  rw [G.sym, symRows_iff]
  simp

example : eqG (G.of (d := 2) ![1, 2] (fun _ _ => 1)) (some (G.of ![1, 2] (fun _ _ => 1))) = .error .valueError :=
  C136_violated_dimension (by decide) _ _
example : (ifEq (G.of (d := 1) ![1] (fun _ _ => 1)) (some (G.of ![1] (fun _ _ => 1)))).toOption = some true
    ∧ (ifEq (G.of (d := 1) ![1] (fun _ _ => 1)) (some (G.of ![1] (fun _ _ => 2)))).toOption = some false := by
  constructor <;> decide +kernel
example : (G.of (d := 2) ![1, 2] ![![1, 5], ![5, 2]]).sym = true ∧ (G.of (d := 2) ![1, 2] ![![1, 5], ![4, 2]]).sym = false := by
  constructor <;> decide +kernel

end Verif.Gau
