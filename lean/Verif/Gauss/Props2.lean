import Verif.Gauss.Conditional
import Mathlib.Tactic.FieldSimp
import Mathlib.Tactic.Ring
import Mathlib.Tactic.Positivity
import Mathlib.Tactic.Linarith
import Mathlib.Tactic.NormNum
import Mathlib.Algebra.BigOperators.Fin

/-!
# C121: conditioning a multivariate Gaussian
-/

namespace Verif.Mvg

/-! ## Specification -/

/-- Symmetric and positive definite covariances of two variables. -/
def Cov2 (cov : ℕ → ℕ → ℚ) : Prop := cov 0 1 = cov 1 0 ∧ 0 < cov 0 0 ∧ 0 < cov 1 1 ∧ cov 0 1 * cov 1 0 < cov 0 0 * cov 1 1

/-- The quadratic form `(z - μ)ᵀ Σ⁻¹ (z - μ)` of two variables, of which the density is a function. -/
def form (mean : ℕ → ℚ) (cov : ℕ → ℕ → ℚ) (z : ℕ → ℚ) : ℚ :=
  (cov 1 1 * (z 0 - mean 0) ^ 2 - 2 * cov 0 1 * (z 0 - mean 0) * (z 1 - mean 1) + cov 0 0 * (z 1 - mean 1) ^ 2) /
    (cov 0 0 * cov 1 1 - cov 0 1 * cov 1 0)

/-- `inv` inverts numbers. -/
def InvertsNumbers (inv : Mat → Except Err Mat) : Prop :=
  ∀ A : Mat, A.rows = 1 → A.cols = 1 → A.el 0 0 ≠ 0 →
    ∃ B, inv A = .ok B ∧ B.rows = 1 ∧ B.cols = 1 ∧ A.el 0 0 * B.el 0 0 = 1

/-! ## Lemmas -/

theorem order_lt {dim : ℕ} {ev : List (ℕ × ℚ)} (hev : ∀ i ∈ ev, i.1 < dim) :
    (order dim ((ev.insertionSort fun a b => a.1 ≤ b.1).map Prod.fst)).any (fun i => decide (dim ≤ i)) = false := by
  rw [List.any_eq_false]
  intro i hi
  unfold order at hi
  simp only [decide_eq_true_eq, not_le]
  rcases List.mem_append.1 hi with h | h
  · exact List.mem_range.1 (List.mem_filter.1 h).1
  · obtain ⟨j, hj, rfl⟩ := List.mem_map.1 h
    exact hev j (by rwa [List.mem_insertionSort] at hj)

/-- The result if half of the variables are given. -/
theorem conditional_half (inv : Mat → Except Err Mat) (m : ℕ) (mean : ℕ → ℚ) (cov : ℕ → ℕ → ℚ) (ev : List (ℕ × ℚ))
    (hev : ∀ i ∈ ev, i.1 < 2 * m) (hm : ev.length = m) (ev' : List (ℕ × ℚ))
    (he' : ev.insertionSort (fun a b => a.1 ≤ b.1) = ev') (ord : List ℕ) (ho : order (2 * m) (ev'.map Prod.fst) = ord) (B : Mat)
    (hB : inv ⟨m, m, fun i j => cov (ord.getD (m + i) 0) (ord.getD (m + j) 0)⟩ = .ok B) (hr : B.rows = m) (hc : B.cols = m) :
    conditional inv (2 * m) mean cov ev = .ok
      (⟨m, fun i => mean (ord.getD i 0) + ∑ t ∈ Finset.range m,
        (∑ u ∈ Finset.range m, cov (ord.getD (m + i) 0) (ord.getD (0 + u) 0) * B.el u t) *
          ((ev'.map Prod.snd).getD t 0 - mean (ord.getD (m + t) 0))⟩,
       ⟨m, m, fun i j => cov (ord.getD (0 + i) 0) (ord.getD (0 + j) 0) - ∑ t ∈ Finset.range m,
        (∑ u ∈ Finset.range m, cov (ord.getD (m + i) 0) (ord.getD (0 + u) 0) * B.el u t) *
          cov (ord.getD (0 + t) 0) (ord.getD (m + j) 0)⟩) := by
  have hany := order_lt hev
  rw [he', ho] at hany
  have hl : ev'.length = m := by rw [← he', List.length_insertionSort, hm]
  have hk : 2 * m - m = m := by omega
  unfold conditional
  simp only [he', List.length_map, hl, ho, hany, hk, Mat.block, Bool.false_eq_true, if_false, hB, bind, Except.bind, Mat.dot, hr,
    hc, if_true, Mat.dotVec, Vec.add, Mat.sub, and_self, pure, Except.pure]

/-- Completing the square. -/
theorem complete_square (p q r X Y D : ℚ) (hp : p ≠ 0) (hD : D ≠ 0) (h : D = p * q - r * r) :
    (p * X ^ 2 - 2 * r * X * Y + q * Y ^ 2) / D = (X - r * (1 / p) * Y) ^ 2 / (q - r * (1 / p) * r) + Y ^ 2 / p := by
  have h1 : q - r * (1 / p) * r = D / p := by rw [h]; field_simp
  have h2 : q = (D + r * r) / p := by rw [h]; field_simp; ring
  rw [h1, h2]
  field_simp
  ring

/-! ## Theorems -/

/-- C121 for two variables: the conditional distribution of one given the value `a` of the other one, `e`.  Up to a part that
does not depend on the first, the quadratic form of the joint distribution is that of the conditional one.  Missing: more
variables, for which this is false. -/
theorem C121_two_partial (inv : Mat → Except Err Mat) (hi : InvertsNumbers inv) (mean : ℕ → ℚ) (cov : ℕ → ℕ → ℚ)
    (hc : Cov2 cov) (e : ℕ) (he : e < 2) (a : ℚ) :
    ∃ mu s, conditional inv 2 mean cov [(e, a)] = .ok (mu, s) ∧ mu.len = 1 ∧ s.rows = 1 ∧ s.cols = 1 ∧ 0 < s.el 0 0 ∧
      ∀ x, form mean cov (fun i => if i = e then a else x) =
        (x - mu.el 0) ^ 2 / s.el 0 0 + (a - mean e) ^ 2 / cov e e := by
  obtain ⟨hs, h0, h1, hd⟩ := hc
  have hd' : 0 < cov 0 0 * cov 1 1 - cov 1 0 * cov 1 0 := by rw [hs] at hd; linarith
  have he' : e = 0 ∨ e = 1 := by omega
  rcases he' with rfl | rfl
  · obtain ⟨B, hB, hr, hcl, hBe⟩ := hi ⟨1, 1, fun i j => cov ([1, 0].getD (1 + i) 0) ([1, 0].getD (1 + j) 0)⟩ rfl rfl
      (by simpa using h0.ne')
    have hb : B.el 0 0 = 1 / cov 0 0 := by rw [eq_div_iff h0.ne', mul_comm]; simpa using hBe
    have key := conditional_half inv 1 mean cov [(0, a)] (by simp) rfl [(0, a)] rfl [1, 0] (by simp; decide) B hB hr hcl
    have hv : 0 < cov 1 1 - cov 0 1 * (1 / cov 0 0) * cov 1 0 := by
      have : cov 1 1 - cov 0 1 * (1 / cov 0 0) * cov 1 0 = (cov 0 0 * cov 1 1 - cov 1 0 * cov 1 0) / cov 0 0 := by
        rw [hs]; field_simp
      rw [this]; positivity
    refine ⟨_, _, key, rfl, rfl, rfl, ?_, ?_⟩
    · simpa [hb] using hv
    · intro x
      have := complete_square (cov 0 0) (cov 1 1) (cov 1 0) (x - mean 1) (a - mean 0) _ h0.ne' hd'.ne' rfl
      have e1 : form mean cov (fun i => if i = 0 then a else x) = (cov 0 0 * (x - mean 1) ^ 2 -
          2 * cov 1 0 * (x - mean 1) * (a - mean 0) + cov 1 1 * (a - mean 0) ^ 2) /
          (cov 0 0 * cov 1 1 - cov 1 0 * cov 1 0) := by
        simp only [form, hs, if_true, one_ne_zero, if_false]
        congr 1
        ring
      rw [e1, this]
      simp [hb, hs, sub_sub]
  · obtain ⟨B, hB, hr, hcl, hBe⟩ := hi ⟨1, 1, fun i j => cov ([0, 1].getD (1 + i) 0) ([0, 1].getD (1 + j) 0)⟩ rfl rfl
      (by simpa using h1.ne')
    have hb : B.el 0 0 = 1 / cov 1 1 := by rw [eq_div_iff h1.ne', mul_comm]; simpa using hBe
    have key := conditional_half inv 1 mean cov [(1, a)] (by simp) rfl [(1, a)] rfl [0, 1] (by simp; decide) B hB hr hcl
    have hv : 0 < cov 0 0 - cov 1 0 * (1 / cov 1 1) * cov 0 1 := by
      have : cov 0 0 - cov 1 0 * (1 / cov 1 1) * cov 0 1 = (cov 0 0 * cov 1 1 - cov 1 0 * cov 1 0) / cov 1 1 := by
        rw [hs]; field_simp
      rw [this]; positivity
    refine ⟨_, _, key, rfl, rfl, rfl, ?_, ?_⟩
    · simpa [hb] using hv
    · intro x
      have := complete_square (cov 1 1) (cov 0 0) (cov 1 0) (x - mean 0) (a - mean 1)
        (cov 0 0 * cov 1 1 - cov 1 0 * cov 1 0) h1.ne' hd'.ne' (by ring)
      have e1 : form mean cov (fun i => if i = 1 then a else x) = (cov 1 1 * (x - mean 0) ^ 2 -
          2 * cov 1 0 * (x - mean 0) * (a - mean 1) + cov 0 0 * (a - mean 1) ^ 2) /
          (cov 0 0 * cov 1 1 - cov 1 0 * cov 1 0) := by
        simp only [form, hs, if_true, zero_ne_one, if_false]
      rw [e1, this]
      simp [hb, hs, sub_sub]

/-- C121: unless just half of the variables are given, conditioning is an error, since the off-diagonal blocks are mixed up. -/
theorem C121_shapes (inv : Mat → Except Err Mat) (hi : ∀ A B, inv A = .ok B → B.rows = A.rows ∧ B.cols = A.cols)
    (dim : ℕ) (mean : ℕ → ℚ) (cov : ℕ → ℕ → ℚ) (ev : List (ℕ × ℚ)) (hev : ∀ i ∈ ev, i.1 < dim) (hne : dim ≠ 2 * ev.length) :
    ∃ x, conditional inv dim mean cov ev = .error x := by
  unfold conditional
  simp only [List.length_map, List.length_insertionSort]
  have hany := order_lt hev
  rw [hany]
  simp only [Bool.false_eq_true, if_false]
  generalize hA : Mat.block _ (dim - ev.length) ev.length (dim - ev.length) ev.length = A
  have hrow : A.rows = ev.length := by rw [← hA]; rfl
  cases hB : inv A with
  | error x => exact ⟨x, rfl⟩
  | ok B =>
    refine ⟨.valueError, ?_⟩
    simp only [bind, Except.bind, Mat.dot]
    rw [if_neg]
    simp only [Mat.block, (hi A B hB).1, hrow]
    omega

/-- C121: evidence on a variable that does not exist is an error. -/
theorem C121_index (inv : Mat → Except Err Mat) (dim : ℕ) (mean : ℕ → ℚ) (cov : ℕ → ℕ → ℚ) (ev : List (ℕ × ℚ)) (i : ℕ × ℚ)
    (hi : i ∈ ev) (hd : dim ≤ i.1) : conditional inv dim mean cov ev = .error .indexError := by
  unfold conditional
  simp only
  rw [if_pos]
  rw [List.any_eq_true]
  refine ⟨i.1, ?_, by simpa using hd⟩
  unfold order
  refine List.mem_append.2 (Or.inr (List.mem_map.2 ⟨i, ?_, rfl⟩))
  rwa [List.mem_insertionSort]

/-- The covariances of the examples: all variances are 1, and the variables 0 and 3 have the covariance 1/2. -/
def exCov (i j : ℕ) : ℚ := if i = j then 1 else if i = 0 ∧ j = 3 ∨ i = 3 ∧ j = 0 then 1 / 2 else 0

/-- The inverse of a number or of a unit matrix. -/
def exInv (A : Mat) : Except Err Mat := .ok ⟨A.rows, A.cols, fun i j => if i = j then 1 / A.el i j else 0⟩

example : InvertsNumbers exInv ∧ (∀ A B, exInv A = .ok B → B.rows = A.rows ∧ B.cols = A.cols) ∧
    Cov2 (fun i j => if i = j then 1 else 1 / 2) := by
  refine ⟨fun A h1 h2 h3 => ⟨_, rfl, h1, h2, ?_⟩, ?_, ?_⟩
  · simp only [if_true]; field_simp
  · rintro A B h; cases h; exact ⟨rfl, rfl⟩
  · unfold Cov2; norm_num

/-- Disagreement: conditioning two of four variables gives a wrong mean, because the covariances between given and other
variables are taken in the wrong direction.  The variables 2 and 3 are given with the values 1 and 0, and only the variables 0
and 3 are correlated; so nothing is learned about 0 and 1, which have mean 0.  The result is 1/2 for variable 1. -/
theorem C121_violated_mean :
    ∃ mu s, conditional exInv 4 (fun _ => 0) exCov [(2, 1), (3, 0)] = .ok (mu, s) ∧ mu.len = 2 ∧ mu.el 0 = 0 ∧
      mu.el 1 = 1 / 2 := by
  refine ⟨_, _, conditional_half exInv 2 (fun _ => 0) exCov [(2, 1), (3, 0)] (by decide) rfl [(2, 1), (3, 0)] (by decide)
    [0, 1, 2, 3] (by decide) _ rfl rfl rfl, rfl, ?_, ?_⟩
  · simp [Finset.sum_range_succ, exCov]
  · simp [Finset.sum_range_succ, exCov]

/-- Disagreement: one of three variables cannot be given at all. -/
theorem C121_violated_shape :
    ∃ x, conditional exInv 3 (fun _ => 0) exCov [(2, 1)] = .error x :=
  C121_shapes exInv (by rintro A B h; cases h; exact ⟨rfl, rfl⟩) 3 _ _ _ (by decide) (by decide)

end Verif.Mvg
