import Verif.Gauss.Model
import Verif.Gauss.Spec
import Mathlib.Tactic.Ring
import Mathlib.Tactic.FieldSimp
import Mathlib.Tactic.Linarith
import Mathlib.Tactic.Positivity
import Mathlib.Tactic.LinearCombination
import Mathlib.Algebra.Order.BigOperators.Group.List

/-! # Weighted sums -/

namespace Verif.Gau

variable {d : ℕ}

/-- `∑ w f`. -/
def ws (ps : Pts d) (f : (Fin d → ℚ) → ℚ) : ℚ := (ps.map (fun p => p.2 * f p.1)).sum

@[simp] theorem ws_nil (f : (Fin d → ℚ) → ℚ) : ws [] f = 0 := rfl

theorem ws_cons (p : (Fin d → ℚ) × ℚ) (ps : Pts d) (f : (Fin d → ℚ) → ℚ) :
    ws (p :: ps) f = p.2 * f p.1 + ws ps f := by simp [ws]

theorem ws_snoc (p : (Fin d → ℚ) × ℚ) (ps : Pts d) (f : (Fin d → ℚ) → ℚ) :
    ws (ps ++ [p]) f = ws ps f + p.2 * f p.1 := by simp [ws]

theorem total_eq (ps : Pts d) : total ps = ws ps (fun _ => 1) := by simp [total, ws]

theorem bmean_eq (ps : Pts d) (i : Fin d) : bmean ps i = ws ps (fun x => x i) / total ps := rfl

theorem total_snoc (p : (Fin d → ℚ) × ℚ) (ps : Pts d) : total (ps ++ [p]) = total ps + p.2 := by simp [total]

/-- `∑ w²`. -/
def sq (ps : Pts d) : ℚ := (ps.map (fun p => p.2 ^ 2)).sum

theorem share_eq (ps : Pts d) : share ps = sq ps / total ps ^ 2 := rfl

theorem sq_snoc (p : (Fin d → ℚ) × ℚ) (ps : Pts d) : sq (ps ++ [p]) = sq ps + p.2 ^ 2 := by simp [sq]

theorem scatter_expand (ps : Pts d) (j k : Fin d) (a b : ℚ) :
    (ps.map (fun p => p.2 * (p.1 j - a) * (p.1 k - b))).sum =
      ws ps (fun x => x j * x k) - b * ws ps (fun x => x j) - a * ws ps (fun x => x k) + a * b * total ps := by
  induction ps with
  | nil => simp [total]
  | cons p r ih =>
    simp only [ws_cons, List.map_cons, List.sum_cons, total] at ih ⊢
    rw [ih]; ring

theorem scatter_eq (ps : Pts d) (h : total ps ≠ 0) (j k : Fin d) :
    scatter ps j k = ws ps (fun x => x j * x k) - total ps * bmean ps j * bmean ps k := by
  rw [scatter, scatter_expand, bmean_eq, bmean_eq]
  field_simp
  ring

theorem mean_total (ps : Pts d) (h : total ps ≠ 0) (j : Fin d) : total ps * bmean ps j = ws ps (fun x => x j) := by
  rw [bmean_eq, mul_div_cancel₀ _ h]

/-- Positive weights. -/
def Pos (ps : Pts d) : Prop := ∀ p ∈ ps, 0 < p.2

theorem total_pos : ∀ {ps : Pts d}, Pos ps → ps ≠ [] → 0 < total ps
  | [p], h, _ => by simpa [total] using h p (by simp)
  | p :: q :: r, h, _ => by
    have h1 := h p (by simp)
    have h2 := total_pos (ps := q :: r) (fun t ht => h t (by simp [List.mem_cons.1 ht])) (by simp)
    simp only [total, List.map_cons, List.sum_cons] at h2 ⊢
    linarith

theorem sq_le {ps : Pts d} (h : Pos ps) : sq ps ≤ total ps ^ 2 ∧ 0 ≤ total ps := by
  induction ps with
  | nil => simp [sq, total]
  | cons p r ih =>
    have h1 := h p (by simp)
    obtain ⟨h2, h3⟩ := ih (fun t ht => h t (by simp [ht]))
    simp only [sq, total, List.map_cons, List.sum_cons] at h2 h3 ⊢
    constructor
    · nlinarith
    · linarith

theorem sq_lt {ps : Pts d} (h : Pos ps) (hl : 2 ≤ ps.length) : sq ps < total ps ^ 2 := by
  match ps, hl with
  | p :: q :: r, _ =>
    have h1 := h p (by simp)
    have h2 := total_pos (ps := q :: r) (fun t ht => h t (by simp [List.mem_cons.1 ht])) (by simp)
    have h3 := (sq_le (ps := q :: r) (fun t ht => h t (by simp [List.mem_cons.1 ht]))).1
    have e1 : sq (p :: q :: r) = p.2 ^ 2 + sq (q :: r) := by simp [sq]
    have e2 : total (p :: q :: r) = p.2 + total (q :: r) := by simp [total]
    rw [e1, e2]
    nlinarith

theorem share_lt {ps : Pts d} (h : Pos ps) (hl : 2 ≤ ps.length) : share ps < 1 := by
  have h1 := total_pos h (by rintro rfl; simp at hl)
  rw [share_eq, div_lt_one (by positivity)]
  exact sq_lt h hl

theorem share_single (p : (Fin d → ℚ) × ℚ) (h : p.2 ≠ 0) : share [p] = 1 := by
  simp [share, total, h]

theorem share_snoc {ps : Pts d} (p : (Fin d → ℚ) × ℚ) (h : ps = [] ∨ total ps ≠ 0) :
    (total ps ^ 2 * share ps + p.2 ^ 2) / total (ps ++ [p]) ^ 2 = share (ps ++ [p]) := by
  rw [share_eq (ps ++ [p]), sq_snoc]
  rcases h with rfl | h
  · simp [total, sq, share]
  · rw [share_eq, mul_div_cancel₀]
    exact pow_ne_zero 2 h

/-- Sums of squares that vanish. -/
theorem scatter_zero : ∀ {ps : Pts d} {j : Fin d} {a : ℚ}, Pos ps →
    (ps.map (fun p => p.2 * (p.1 j - a) * (p.1 j - a))).sum ≤ 0 → ∀ p ∈ ps, p.1 j = a
  | [], _, _, _, _, _, hp => by simp at hp
  | q :: r, j, a, h, hs, p, hp => by
    have h1 := h q (by simp)
    have hr : Pos r := fun t ht => h t (by simp [ht])
    have h2 : 0 ≤ (r.map (fun p => p.2 * (p.1 j - a) * (p.1 j - a))).sum := by
      refine List.sum_nonneg fun x hx => ?_
      obtain ⟨t, ht, rfl⟩ := List.mem_map.1 hx
      have := hr t ht
      rw [mul_assoc]
      exact mul_nonneg this.le (mul_self_nonneg _)
    simp only [List.map_cons, List.sum_cons] at hs
    have h3 : 0 ≤ q.2 * (q.1 j - a) * (q.1 j - a) := by
      rw [mul_assoc]; exact mul_nonneg h1.le (mul_self_nonneg _)
    rcases List.mem_cons.1 hp with rfl | hp
    · have h4 : p.2 * ((p.1 j - a) * (p.1 j - a)) = 0 := by rw [← mul_assoc]; linarith
      rcases mul_eq_zero.1 h4 with h5 | h5
      · exact absurd h5 h1.ne'
      · have := mul_self_eq_zero.1 h5; linarith
    · exact scatter_zero hr (by linarith) p hp

theorem scatter_nonneg {ps : Pts d} (h : Pos ps) (j : Fin d) : 0 ≤ scatter ps j j := by
  refine List.sum_nonneg fun x hx => ?_
  obtain ⟨t, ht, rfl⟩ := List.mem_map.1 hx
  rw [mul_assoc]
  exact mul_nonneg (h t ht).le (mul_self_nonneg _)

theorem scatter_row {ps : Pts d} (h : Pos ps) {j : Fin d} (h0 : scatter ps j j ≤ 0) (k : Fin d) :
    scatter ps j k = 0 ∧ scatter ps k j = 0 := by
  have h1 := scatter_zero h h0
  constructor <;> refine List.sum_eq_zero fun x hx => ?_
  all_goals
    obtain ⟨t, ht, rfl⟩ := List.mem_map.1 hx
    rw [h1 t ht]; ring

theorem scatter_symm (ps : Pts d) (j k : Fin d) : scatter ps j k = scatter ps k j := by
  unfold scatter
  refine congrArg List.sum (List.map_congr_left fun p _ => ?_)
  ring

theorem bcov_symm (ps : Pts d) (j k : Fin d) : bcov ps j k = bcov ps k j := by
  rw [bcov, bcov, scatter_symm]

theorem denom_pos {ps : Pts d} (h : Pos ps) (hl : 2 ≤ ps.length) : 0 < total ps * (1 - share ps) := by
  have h1 := share_lt h hl
  have h2 := total_pos h (by rintro rfl; simp at hl)
  exact mul_pos h2 (by linarith)

theorem bcov_row {ps : Pts d} (h : Pos ps) (hl : 2 ≤ ps.length) {j : Fin d} (h0 : bcov ps j j = 0) (k : Fin d) :
    bcov ps j k = 0 ∧ bcov ps k j = 0 := by
  have h1 : scatter ps j j = 0 := by
    rw [bcov, div_eq_zero_iff] at h0
    exact h0.resolve_right (denom_pos h hl).ne'
  have := scatter_row h h1.le k
  simp [bcov, this.1, this.2]

theorem bcov_nonneg {ps : Pts d} (h : Pos ps) (hl : 2 ≤ ps.length) (j : Fin d) : 0 ≤ bcov ps j j :=
  div_nonneg (scatter_nonneg h j) (denom_pos h hl).le

theorem scatter_single (p : (Fin d → ℚ) × ℚ) (h : p.2 ≠ 0) (j k : Fin d) : scatter [p] j k = 0 := by
  have : ∀ i, bmean [p] i = p.1 i := fun i => by
    simp only [bmean, total, List.map_cons, List.map_nil, List.sum_cons, List.sum_nil, add_zero]
    rw [mul_div_cancel_left₀ _ h]
  simp [scatter, this]

/-- What the next point adds to the scatter matrix. -/
theorem scatter_snoc {ps : Pts d} (p : (Fin d → ℚ) × ℚ) (h : ps = [] ∨ total ps ≠ 0)
    (h' : total (ps ++ [p]) ≠ 0) (j k : Fin d) :
    scatter (ps ++ [p]) j k = scatter ps j k + total ps * bmean ps j * bmean ps k -
      total (ps ++ [p]) * bmean (ps ++ [p]) j * bmean (ps ++ [p]) k + p.2 * p.1 j * p.1 k := by
  rw [scatter_eq _ h', ws_snoc]
  rcases h with rfl | h
  · simp [scatter, total]; ring
  · rw [scatter_eq _ h]; ring

theorem bmean_snoc {ps : Pts d} (p : (Fin d → ℚ) × ℚ) (h : ps = [] ∨ total ps ≠ 0) (i : Fin d) :
    bmean (ps ++ [p]) i = (total ps * bmean ps i + p.2 * p.1 i) / total (ps ++ [p]) := by
  rw [bmean_eq (ps ++ [p]), ws_snoc]
  rcases h with rfl | h
  · simp [total]
  · rw [mean_total _ h]

end Verif.Gau
