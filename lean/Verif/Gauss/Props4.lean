import Verif.Gauss.Shared
import Mathlib.Algebra.Order.Group.Abs
import Mathlib.Data.Fin.VecNotation
import Mathlib.Tactic.FieldSimp
import Mathlib.Tactic.NormNum
import Mathlib.Tactic.FinCases

/-!
# C134: copies of a Gaussian

*A copy of a Gaussian has the same mean and covariance, stands for the same points, and changing one of the two does not change the other.*
-/

namespace Verif.Gau

variable {d : ℕ}

/-- A copy has the same mean, covariance and number of samples.

Partial: the full claim includes the weight of the points; see `C134_violated_weights`. -/
theorem C134_copy_partial (h : ℕ → Arrays d) (o : Ref) :
    (o.copy.view h).mean = (o.view h).mean ∧ (o.copy.view h).cov = (o.view h).cov ∧ (o.copy.view h).samples = (o.view h).samples
    ∧ (o.copy.view h).shaped = (o.view h).shaped := ⟨rfl, rfl, rfl, rfl⟩

/-- Each operation does to the object what it does to the Gaussian; every object with arrays elsewhere stays as it is. -/
theorem C134_operations (h : ℕ → Arrays d) (free : ℕ) (o q : Ref) (x : Fin d → ℚ) (w a : ℚ) (hfree : q.cell ≠ free) :
    (∀ g, (o.view h).update x w = .ok g → ∃ h' o', o.update h free x w = .ok (h', o') ∧ o'.view h' = g
      ∧ (q.cell ≠ o.cell ∨ o.shaped = false → q.view h' = q.view h))
    ∧ (∀ g, (o.view h).imul a = .ok g → ∃ h' o', o.imul h free a = .ok (h', o') ∧ o'.view h' = g ∧ q.view h' = q.view h)
    ∧ (∀ g, (o.view h).iaddNum a = .ok g → ∃ h' o', o.iaddNum h free a = .ok (h', o') ∧ o'.view h' = g ∧ q.view h' = q.view h)
    ∧ (∀ e, (o.view h).update x w = .error e → o.update h free x w = .error e) := by
  refine ⟨fun g hg => ?_, fun g hg => ?_, fun g hg => ?_, fun e he => ?_⟩
  · cases hs : o.shaped with
    | true =>
      refine ⟨write h o.cell g, Ref.of g o.cell, by simp [Ref.update, hg, hs], by simp [Ref.view, Ref.of, write], ?_⟩
      rintro (hq | hq)
      · simp [Ref.view, write, hq]
      · cases hq
    | false =>
      refine ⟨write h free g, Ref.of g free, by simp [Ref.update, hg, hs], by simp [Ref.view, Ref.of, write], fun _ => ?_⟩
      simp [Ref.view, write, hfree]
  · exact ⟨write h free g, Ref.of g free, by simp [Ref.imul, hg], by simp [Ref.view, Ref.of, write], by simp [Ref.view, write, hfree]⟩
  · exact ⟨write h free g, Ref.of g free, by simp [Ref.iaddNum, hg], by simp [Ref.view, Ref.of, write], by simp [Ref.view, write, hfree]⟩
  · simp [Ref.update, he]

/-- A copy changed in place by a number, or updated while it is empty, leaves the original as it is, and the other way round.

Partial: the full claim is about all operations; see `C134_violated_update`. -/
theorem C134_independent_partial (h : ℕ → Arrays d) (free : ℕ) (o : Ref) (a : ℚ) (x : Fin d → ℚ) (w : ℚ) (hfree : o.cell ≠ free) :
    (∀ h' o', o.copy.imul h free a = .ok (h', o') → o.view h' = o.view h)
    ∧ (∀ h' o', o.copy.iaddNum h free a = .ok (h', o') → o.view h' = o.view h)
    ∧ (∀ h' o', o.imul h free a = .ok (h', o') → o.copy.view h' = o.copy.view h)
    ∧ (∀ h' o', o.shaped = false → o.copy.update h free x w = .ok (h', o') → o.view h' = o.view h) := by
  refine ⟨fun h' o' e => ?_, fun h' o' e => ?_, fun h' o' e => ?_, fun h' o' hs e => ?_⟩
  · unfold Ref.imul at e
    split at e
    · cases e
    · cases e; simp [Ref.view, write, hfree]
  · unfold Ref.iaddNum at e
    split at e
    · cases e
    · cases e; simp [Ref.view, write, hfree]
  · unfold Ref.imul at e
    split at e
    · cases e
    · cases e; simp [Ref.view, Ref.copy, write, hfree]
  · unfold Ref.update at e
    split at e
    · cases e
    · simp only [Ref.copy, hs] at e
      cases e; simp [Ref.view, write, hfree]

/-- Disagreement: a copy shares the arrays of the original and forgets the weights.  Whatever Gaussian is copied, one update of the copy with a
point that differs from the mean in every coordinate replaces the mean of the *original* by that point, although the original has not been
touched. -/
theorem C134_violated_update (h : ℕ → Arrays d) (free : ℕ) (o : Ref) (x : Fin d → ℚ) (w : ℚ) (hs : o.shaped = true) (hl : o.asList = false)
    (hw : 0 < w) (hx : ∀ i, 1 / 10 ^ 15 < |x i - (h o.cell).mean i|) :
    ∃ h' o', o.copy.update h free x w = .ok (h', o') ∧ (o.view h').mean = x ∧ (o.view h').sumW = (o.view h).sumW
      ∧ ∀ i, (o.view h').mean i ≠ (o.view h).mean i := by
  have hprec : prec = 1 / 10 ^ 15 := by norm_num [prec]
  have hw' : w ≠ 0 := hw.ne'
  cases hu : (o.copy.view h).update x w with
  | error e => simp [G.update, Ref.view, Ref.copy, hs, hl, hw'] at hu
  | ok g =>
    have hm : g.mean = x := by
      simp only [G.update, Ref.view, Ref.copy, hs, hl, Bool.false_eq_true, and_false, ite_false, ite_true, zero_add, hw',
        Except.ok.injEq] at hu
      subst hu
      funext i
      have := hx i
      rw [← hprec] at this
      simp only [gt_iff_lt, this, decide_true, ite_true]
      rw [zero_mul, zero_add, mul_div_assoc, mul_comm, div_mul_cancel₀ _ hw']
    refine ⟨write h o.cell g, Ref.of g o.cell, ?_, ?_, rfl, fun i => ?_⟩
    · have hc : o.copy.shaped = true := hs
      simp only [Ref.update, hu, hc, ite_true]
      rfl
    · simp [Ref.view, write, hm]
    · simp only [Ref.view, write, ite_true, hm]
      intro e
      have := hx i
      rw [e] at this
      simp at this
      norm_num at this

/-- Disagreement: a copy stands for no points: of a Gaussian of the points 1, 2 and 3 the copy has the mean 2, and the mean 10 after an update
with 10, where the original gets the mean 4. -/
theorem C134_violated_weights :
    let est := ((G.empty 1).updateAll [(![1], 1), (![2], 1), (![3], 1)]).toOption
    let arrays := fun g : G 1 => fun _ : ℕ => (⟨g.mean, g.cov⟩ : Arrays 1)
    est.map (fun g => ((Ref.of g 0).copy.view (arrays g)).mean 0) = some 2
    ∧ est.bind (fun g => ((Ref.of g 0).copy.update (arrays g) 1 ![10] 1).toOption.map (fun p => (p.2.view p.1).mean 0)) = some 10
    ∧ est.bind (fun g => ((Ref.of g 0).update (arrays g) 1 ![10] 1).toOption.map (fun p => (p.2.view p.1).mean 0)) = some 4 := by
  refine ⟨?_, ?_, ?_⟩ <;> decide +kernel

/-- The hypotheses of the first violation can be met. -/
example : ∃ (h : ℕ → Arrays 1) (o : Ref), o.shaped = true ∧ o.asList = false ∧ (∀ i, 1 / 10 ^ 15 < |(![10] : Fin 1 → ℚ) i - (h o.cell).mean i|)
    ∧ o.cell ≠ 1 := by
  refine ⟨fun _ => ⟨![2], fun _ _ => 1⟩, ⟨0, true, false, 3, 1 / 3, 3⟩, rfl, rfl, ?_, by decide⟩
  intro i; fin_cases i; decide +kernel
example : ∃ h' o', (⟨0, true, false, 3, 1 / 3, 3⟩ : Ref).copy.imul (fun _ => (⟨![2], fun _ _ => 1⟩ : Arrays 1)) 1 5 = .ok (h', o')
    ∧ (o'.view h').mean 0 = 10 := ⟨_, _, rfl, by decide +kernel⟩

end Verif.Gau
