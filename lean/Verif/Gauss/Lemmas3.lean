import Verif.Gauss.Lemmas2
import Mathlib.Algebra.BigOperators.Group.List.Lemmas
import Mathlib.Data.List.Induction

/-! # Retraction, bounds without assumptions on the data, regression -/

namespace Verif.Gau

variable {d : ℕ}

theorem total_perm {ps qs : Pts d} (h : ps.Perm qs) : total ps = total qs := (h.map _).sum_eq

theorem share_perm {ps qs : Pts d} (h : ps.Perm qs) : share ps = share qs := by
  rw [share, share, (h.map _).sum_eq, total_perm h]

theorem bmean_perm {ps qs : Pts d} (h : ps.Perm qs) : bmean ps = bmean qs := by
  funext i
  rw [bmean, bmean, (h.map _).sum_eq, total_perm h]

theorem bcov_perm {ps qs : Pts d} (h : ps.Perm qs) : bcov ps = bcov qs := by
  funext i j
  rw [bcov, bcov, scatter, scatter, bmean_perm h, (h.map _).sum_eq, total_perm h, share_perm h]

theorem batch_perm {ps qs : Pts d} (h : ps.Perm qs) (n : ℕ) : batch ps n = batch qs n := by
  have : ps.isEmpty = qs.isEmpty := by
    cases ps with
    | nil => rw [h.nil_eq]
    | cons a r =>
      cases qs with
      | nil => simp at h
      | cons b t => rfl
  simp only [batch, bmean_perm h, bcov_perm h, total_perm h, share_perm h, this]

/-- Retracting a point. -/
theorem retract_batch {ps : Pts d} {p : (Fin d → ℚ) × ℚ} {n : ℕ} (hn : n ≠ 0) (h : Pos (ps ++ [p])) (hne : ps ≠ []) :
    (batch (ps ++ [p]) n).retract p.1 p.2 =
      .ok (if 2 ≤ ps.length then batch ps n else { batch ps n with asList := true }) := by
  have hps : Pos ps := fun t ht => h t (by simp [ht])
  have hW := (total_pos hps hne).ne'
  have hW' := (total_pos h (by simp)).ne'
  have hsh : (batch (ps ++ [p]) n).shaped = true := by cases ps <;> rfl
  have hsh' : (!ps.isEmpty) = true := by cases ps <;> simp at hne ⊢
  have s1 : (batch (ps ++ [p]) n).sumW = total (ps ++ [p]) := rfl
  have s2 : (batch (ps ++ [p]) n).sumWsq = share (ps ++ [p]) := rfl
  have s3 : (batch (ps ++ [p]) n).mean = bmean (ps ++ [p]) := rfl
  have s4 : (batch (ps ++ [p]) n).cov = bcov (ps ++ [p]) := rfl
  have s5 : (batch (ps ++ [p]) n).samples = n := rfl
  have s6 : (batch (ps ++ [p]) n).asList = false := rfl
  have e1 : total (ps ++ [p]) - p.2 = total ps := by rw [total_snoc]; ring
  have e2 : (total (ps ++ [p]) ^ 2 * share (ps ++ [p]) - p.2 ^ 2) / total ps ^ 2 = share ps := by
    rw [share_eq (ps ++ [p]), mul_div_cancel₀ _ (pow_ne_zero 2 hW'), sq_snoc, share_eq]
    congr 1; ring
  have e3 : ∀ i, (total (ps ++ [p]) * bmean (ps ++ [p]) i - p.2 * p.1 i) / total ps = bmean ps i := by
    intro i
    rw [mean_total _ hW', ws_snoc, bmean_eq]
    congr 1; ring
  have e4 : ∀ j k, bcov (ps ++ [p]) j k * total (ps ++ [p]) * (1 - share (ps ++ [p])) = scatter (ps ++ [p]) j k := by
    intro j k
    have hl : 2 ≤ (ps ++ [p]).length := by
      cases ps with
      | nil => simp at hne
      | cons a r => simp
    rw [mul_assoc, bcov, div_mul_cancel₀ _ (denom_pos h hl).ne']
  unfold G.retract
  rw [if_neg (by simp [hsh, s5, hn])]
  simp only [s1, s2, s3, s4, e1, e2, e3]
  rw [if_neg hW]
  by_cases hl : 2 ≤ ps.length
  · rw [if_pos (share_lt hps hl), if_pos hl]
    congr 1
    have : (fun j k => (bcov (ps ++ [p]) j k * total (ps ++ [p]) * (1 - share (ps ++ [p])) +
        total (ps ++ [p]) * bmean (ps ++ [p]) j * bmean (ps ++ [p]) k - p.2 * p.1 j * p.1 k -
        total ps * bmean ps j * bmean ps k) / (total ps * (1 - share ps))) = bcov ps := by
      funext j k
      rw [e4, scatter_snoc p (.inr hW) hW', bcov]
      congr 1; ring
    rw [this]
    simp only [batch, G.mk.injEq, hsh', and_true]
    cases ps <;> rfl
  · obtain ⟨a, rfl⟩ : ∃ a, ps = [a] := by
      match ps, hne, hl with
      | [a], _, _ => exact ⟨a, rfl⟩
      | a :: b :: r, _, hl => exact absurd (by simp) hl
    have ha := (hps a (by simp)).ne'
    rw [if_neg (by rw [share_single a ha]; exact lt_irrefl _), if_neg hl]
    congr 1
    have : (fun _ _ => 0 : Fin d → Fin d → ℚ) = bcov [a] := by
      funext j k; rw [bcov, scatter_single a ha]; simp
    rw [this]
    rfl

/-- Retracting the only point. -/
theorem retract_only {p : (Fin d → ℚ) × ℚ} {n : ℕ} (hn : n ≠ 0) :
    (batch [p] n).retract p.1 p.2 = .error .zeroDivision := by
  unfold G.retract
  have h0 : (batch [p] n).sumW - p.2 = 0 := by simp [batch, total]
  rw [if_neg (by simp [batch, hn])]
  simp only
  rw [if_pos h0]

/-- What holds whatever the points are. -/
structure Inv (g : G d) (ps : Pts d) : Prop where
  shaped : g.shaped = !ps.isEmpty
  asList : g.asList = false
  sumW : g.sumW = total ps
  sumWsq : g.sumWsq = share ps
  samples : g.samples = ps.length
  start : ps = [] → g.mean = fun _ => 0
  start' : ps = [] → g.cov = fun _ _ => 0
  mean : ∀ i, |g.mean i - bmean ps i| ≤ prec
  sym : ∀ j k, g.cov j k = g.cov k j
  diag : ∀ j, g.cov j j = 0 ∨ prec ≤ g.cov j j
  row : ∀ j k, g.cov j j = 0 → g.cov j k = 0

theorem Inv.step {g : G d} {ps : Pts d} (hi : Inv g ps) {p : (Fin d → ℚ) × ℚ} (h : Pos (ps ++ [p])) :
    ∃ g', g.update p.1 p.2 = .ok g' ∧ Inv g' (ps ++ [p]) := by
  have hps : Pos ps := fun t ht => h t (by simp [ht])
  have hp0 : 0 < p.2 := h p (by simp)
  have ht := pos_total hps
  have ht' : 0 < total (ps ++ [p]) := total_pos h (by simp)
  have htn : 0 ≤ total ps := by
    rcases ht with h1 | h1
    · subst h1; simp [total]
    · exact (total_pos hps (by rintro rfl; simp [total] at h1)).le
  have hprec : (0 : ℚ) < prec := by norm_num [prec]
  have e1 : (if g.shaped = true then g.mean else fun _ => 0) = g.mean := by
    cases ps with
    | nil => rw [hi.start rfl]; simp
    | cons a r => rw [hi.shaped]; simp
  have e2 : (if g.shaped = true then g.cov else fun _ _ => 0) = g.cov := by
    cases ps with
    | nil => rw [hi.start' rfl]; simp
    | cons a r => rw [hi.shaped]; simp
  have hshare := share_snoc p ht
  rw [total_snoc] at hshare ht'
  unfold G.update
  rw [if_neg (by simp [hi.asList])]
  simp only [e1, e2, hi.sumW, hi.sumWsq, hshare]
  rw [if_neg ht'.ne']
  refine ⟨_, rfl, ?_⟩
  have hclip : ∀ c : Fin d → Fin d → ℚ, (∀ j k, c j k = c k j) →
      (∀ j k, clip c j k = clip c k j) ∧ (∀ j, clip c j j = 0 ∨ prec ≤ clip c j j) ∧
      (∀ j k, clip c j j = 0 → clip c j k = 0) := by
    intro c hc
    refine ⟨fun j k => ?_, fun j => ?_, fun j k => ?_⟩
    · unfold clip; rw [hc j k]; simp only [or_comm]
    · unfold clip
      by_cases hj : c j j < prec
      · left; simp [hj]
      · right; simp [hj]; exact not_lt.1 hj
    · unfold clip
      by_cases hj : c j j < prec
      · simp [hj]
      · simp only [hj, or_self, if_false, false_or]
        intro h0; rw [h0] at hj; exact absurd hprec hj
  have hsymm : ∀ e : Fin d → Fin d → ℚ, ∀ j k : Fin d,
      (if k ≤ j then e j k else e k j) = (if j ≤ k then e k j else e j k) := by
    intro e j k
    rcases lt_trichotomy j k with h1 | h1 | h1
    · rw [if_neg (not_le.2 h1), if_pos h1.le]
    · subst h1; simp
    · rw [if_pos h1.le, if_neg (not_le.2 h1)]
  refine ⟨by cases ps <;> rfl, rfl, by rw [total_snoc], rfl, by simp [hi.samples], by simp, by simp, fun i => ?_,
    ?_, ?_, ?_⟩
  · simp only
    rw [bmean_snoc p ht, total_snoc]
    have hm := hi.mean i
    rw [abs_le] at hm ⊢
    split_ifs with hc
    · have : (total ps * g.mean i + p.2 * p.1 i) / (total ps + p.2) -
          (total ps * bmean ps i + p.2 * p.1 i) / (total ps + p.2) =
          total ps * (g.mean i - bmean ps i) / (total ps + p.2) := by
        rw [← sub_div]; congr 1; ring
      rw [this]
      constructor
      · rw [le_div_iff₀ ht']; nlinarith
      · rw [div_le_iff₀ ht']; nlinarith
    · simp only [decide_eq_true_eq, not_lt] at hc
      have hc := abs_le.1 hc
      have : g.mean i - (total ps * bmean ps i + p.2 * p.1 i) / (total ps + p.2) =
          (total ps * (g.mean i - bmean ps i) - p.2 * (p.1 i - g.mean i)) / (total ps + p.2) := by
        rw [eq_div_iff ht'.ne', sub_mul, div_mul_cancel₀ _ ht'.ne']; ring
      rw [this]
      constructor
      · rw [le_div_iff₀ ht']; nlinarith
      · rw [div_le_iff₀ ht']; nlinarith
  · intro j k
    simp only
    by_cases hq : share (ps ++ [p]) ≠ 1
    · rw [if_pos hq]; exact (hclip _ (hsymm _)).1 j k
    · rw [if_neg hq]; exact hi.sym j k
  · intro j
    simp only
    by_cases hq : share (ps ++ [p]) ≠ 1
    · rw [if_pos hq]; exact (hclip _ (hsymm _)).2.1 j
    · rw [if_neg hq]; exact hi.diag j
  · intro j k
    simp only
    by_cases hq : share (ps ++ [p]) ≠ 1
    · rw [if_pos hq]; exact (hclip _ (hsymm _)).2.2 j k
    · rw [if_neg hq]; exact hi.row j k

theorem inv_empty : Inv (G.empty d) [] := by
  refine ⟨rfl, rfl, rfl, by simp [G.empty, share], rfl, fun _ => rfl, fun _ => rfl, fun i => ?_, fun _ _ => rfl,
    fun _ => .inl rfl, fun _ _ _ => rfl⟩
  simp [G.empty, bmean, prec]

theorem inv_all {ps : Pts d} (h : Pos ps) : ∃ g, (G.empty d).updateAll ps = .ok g ∧ Inv g ps := by
  induction ps using List.reverseRecOn with
  | nil => exact ⟨_, rfl, inv_empty⟩
  | append_singleton ps p ih =>
    obtain ⟨g, h1, h2⟩ := ih (fun t ht => h t (by simp [ht]))
    obtain ⟨g', h3, h4⟩ := h2.step h
    refine ⟨g', ?_, h4⟩
    rw [G.updateAll, List.foldlM_append, ← G.updateAll, h1]
    simp [bind, Except.bind, h3, pure, Except.pure]

/-- The sum of squared residuals in terms of the moments. -/
theorem residuals (ps : Pts 2) (m b : ℚ) :
    ws ps (fun x => (x 1 - m * x 0 - b) ^ 2) = ws ps (fun x => x 1 * x 1) - 2 * m * ws ps (fun x => x 0 * x 1)
      - 2 * b * ws ps (fun x => x 1) + m ^ 2 * ws ps (fun x => x 0 * x 0) + 2 * m * b * ws ps (fun x => x 0)
      + b ^ 2 * total ps := by
  induction ps with
  | nil => simp [total]
  | cons p r ih =>
    have e : total (p :: r) = p.2 + total r := by simp [total]
    simp only [ws_cons, e, ih]; ring

theorem residuals_eq {ps : Pts 2} (h : total ps ≠ 0) (m b : ℚ) :
    ws ps (fun x => (x 1 - m * x 0 - b) ^ 2) = scatter ps 1 1 - 2 * m * scatter ps 0 1 + m ^ 2 * scatter ps 0 0 +
      total ps * (bmean ps 1 - m * bmean ps 0 - b) ^ 2 := by
  rw [residuals, scatter_eq _ h, scatter_eq _ h, scatter_eq _ h, ← mean_total _ h 0, ← mean_total _ h 1]
  ring

end Verif.Gau
