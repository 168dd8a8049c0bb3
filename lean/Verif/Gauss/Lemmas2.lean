import Verif.Gauss.Lemmas

/-! # Incremental estimation -/

namespace Verif.Gau

variable {d : ℕ}

/-- The Gaussian with the estimates for the points. -/
def batch (ps : Pts d) (n : ℕ) : G d := ⟨!ps.isEmpty, bmean ps, bcov ps, false, total ps, share ps, n⟩

theorem batch_nil : batch ([] : Pts d) 0 = G.empty d := by
  have h1 : (bmean [] : Fin d → ℚ) = fun _ => 0 := by funext i; simp [bmean]
  have h2 : (bcov [] : Fin d → Fin d → ℚ) = fun _ _ => 0 := by funext i j; simp [bcov, scatter]
  simp [batch, G.empty, h1, h2, total, share]

theorem pos_total {ps : Pts d} (h : Pos ps) : ps = [] ∨ total ps ≠ 0 := by
  by_cases hp : ps = []
  · exact .inl hp
  · exact .inr (total_pos h hp).ne'

/-- One step. -/
theorem update_batch {ps : Pts d} {p : (Fin d → ℚ) × ℚ} (n : ℕ) (h : Pos (ps ++ [p]))
    (hm : ∀ i, p.1 i = bmean ps i ∨ prec < |p.1 i - bmean ps i|)
    (hv : ∀ i, bcov (ps ++ [p]) i i = 0 ∨ prec ≤ bcov (ps ++ [p]) i i) :
    (batch ps n).update p.1 p.2 = .ok (batch (ps ++ [p]) (n + 1)) := by
  have hps : Pos ps := fun t ht => h t (by simp [ht])
  have hp0 : 0 < p.2 := h p (by simp)
  have ht := pos_total hps
  have ht' : total (ps ++ [p]) ≠ 0 := (total_pos h (by simp)).ne'
  have hprec : (0 : ℚ) < prec := by norm_num [prec]
  have e1 : (if (batch ps n).shaped = true then (batch ps n).mean else fun _ => 0) = bmean ps := by
    cases ps with
    | nil => funext i; simp [batch, bmean]
    | cons a r => simp [batch]
  have e2 : (if (batch ps n).shaped = true then (batch ps n).cov else fun _ _ => 0) = bcov ps := by
    cases ps with
    | nil => funext i j; simp [batch, bcov, scatter]
    | cons a r => simp [batch]
  have emean : ∀ i, (if decide (|p.1 i - bmean ps i| > prec) = true then
      (total ps * bmean ps i + p.2 * p.1 i) / (total ps + p.2) else bmean ps i) = bmean (ps ++ [p]) i := by
    intro i
    rw [bmean_snoc p ht, total_snoc]
    rw [total_snoc] at ht'
    split_ifs with hc
    · rfl
    · have : p.1 i = bmean ps i := by
        rcases hm i with h1 | h1
        · exact h1
        · simp at hc; linarith
      rw [this, ← add_mul, mul_div_cancel_left₀ _ ht']
  have ex : ∀ i, (if decide (|p.1 i - bmean ps i| > prec) = true then p.1 i else bmean ps i) = p.1 i := by
    intro i
    split_ifs with hc
    · rfl
    · rcases hm i with h1 | h1
      · exact h1.symm
      · simp at hc; linarith
  have hshare := share_snoc p ht
  rw [total_snoc] at hshare
  have hS : ∀ j k, bcov ps j k * total ps * (1 - share ps) = scatter ps j k := by
    intro j k
    cases ps with
    | nil => simp [bcov, scatter, total]
    | cons a r =>
      cases r with
      | nil =>
        have ha : a.2 ≠ 0 := (hps a (by simp)).ne'
        rw [scatter_single a ha, bcov, scatter_single a ha]; simp
      | cons b r =>
        have := (denom_pos hps (by simp)).ne'
        rw [mul_assoc, bcov, div_mul_cancel₀ _ this]
  unfold G.update
  rw [if_neg (by simp [batch])]
  simp only [e1, e2]
  have s1 : (batch ps n).sumW = total ps := rfl
  have s2 : (batch ps n).sumWsq = share ps := rfl
  have s3 : (batch ps n).samples = n := rfl
  simp only [s1, s2, s3, hshare]
  rw [total_snoc] at ht'
  rw [if_neg ht']
  simp only [emean, ex]
  rw [batch]
  have hne : (!(ps ++ [p]).isEmpty) = true := by cases ps <;> rfl
  rw [hne, total_snoc]
  have hcov : (if share (ps ++ [p]) ≠ 1 then clip (fun j k : Fin d =>
      if k ≤ j then
        if (decide (|p.1 k - bmean ps k| > prec) || decide (|p.1 j - bmean ps j| > prec)) = true then
          (bcov ps j k * total ps * (1 - share ps) + total ps * bmean ps j * bmean ps k -
            (total ps + p.2) * bmean (ps ++ [p]) j * bmean (ps ++ [p]) k + p.2 * p.1 j * p.1 k) /
            ((total ps + p.2) * (1 - share (ps ++ [p])))
        else bcov ps j k * total ps * (1 - share ps) / ((total ps + p.2) * (1 - share (ps ++ [p])))
      else
        if (decide (|p.1 j - bmean ps j| > prec) || decide (|p.1 k - bmean ps k| > prec)) = true then
          (bcov ps k j * total ps * (1 - share ps) + total ps * bmean ps k * bmean ps j -
            (total ps + p.2) * bmean (ps ++ [p]) k * bmean (ps ++ [p]) j + p.2 * p.1 k * p.1 j) /
            ((total ps + p.2) * (1 - share (ps ++ [p])))
        else bcov ps k j * total ps * (1 - share ps) / ((total ps + p.2) * (1 - share (ps ++ [p]))))
      else bcov ps) = bcov (ps ++ [p]) := by
    cases hnil : ps with
    | nil =>
      rw [if_neg]
      · funext j k
        rw [List.nil_append, bcov, bcov, scatter_single p hp0.ne']
        simp [scatter]
      · simp [share_single p hp0.ne']
    | cons a r =>
      rw [← hnil]
      have hl : 2 ≤ (ps ++ [p]).length := by rw [hnil]; simp
      rw [if_pos (share_lt h hl).ne]
      have hentry : ∀ j k, (if (decide (|p.1 k - bmean ps k| > prec) || decide (|p.1 j - bmean ps j| > prec)) = true then
          (bcov ps j k * total ps * (1 - share ps) + total ps * bmean ps j * bmean ps k -
            (total ps + p.2) * bmean (ps ++ [p]) j * bmean (ps ++ [p]) k + p.2 * p.1 j * p.1 k) /
            ((total ps + p.2) * (1 - share (ps ++ [p])))
        else bcov ps j k * total ps * (1 - share ps) / ((total ps + p.2) * (1 - share (ps ++ [p])))) =
          bcov (ps ++ [p]) j k := by
        intro j k
        have hs := scatter_snoc p ht (by rw [total_snoc]; exact ht') j k
        rw [total_snoc] at hs
        rw [hS, bcov, total_snoc]
        split_ifs with hc
        · rw [hs]
        · have h1 : p.1 k = bmean ps k := by
            rcases hm k with h1 | h1
            · exact h1
            · simp at hc; linarith
          have h2 : p.1 j = bmean ps j := by
            rcases hm j with h1 | h1
            · exact h1
            · simp at hc; linarith
          have g1 : bmean (ps ++ [p]) k = bmean ps k := by
            rw [bmean_snoc p ht, total_snoc, h1, ← add_mul, mul_div_cancel_left₀ _ ht']
          have g2 : bmean (ps ++ [p]) j = bmean ps j := by
            rw [bmean_snoc p ht, total_snoc, h2, ← add_mul, mul_div_cancel_left₀ _ ht']
          rw [hs, g1, g2, h1, h2]
          congr 1
          ring
      have hsym : ∀ j k : Fin d, (if k ≤ j then bcov (ps ++ [p]) j k else bcov (ps ++ [p]) k j) =
          bcov (ps ++ [p]) j k := by
        intro j k
        split_ifs
        · rfl
        · exact bcov_symm _ _ _
      simp only [hentry, hsym]
      funext j k
      unfold clip
      split_ifs with hc
      · rcases hc with hc | hc
        · exact ((bcov_row h hl ((hv j).resolve_right (not_le.2 hc)) k).1).symm
        · exact ((bcov_row h hl ((hv k).resolve_right (not_le.2 hc)) j).2).symm
      · rfl
  congr 1
  congr 1

end Verif.Gau
