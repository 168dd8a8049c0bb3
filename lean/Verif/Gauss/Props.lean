import Verif.Gauss.Lemmas3
import Mathlib.Data.Fin.VecNotation
import Mathlib.Tactic.FinCases
import Mathlib.Algebra.BigOperators.Ring.List
import Mathlib.Tactic.NormNum.Inv

/-!
# Properties of Gaussians

C59 (incremental estimation equals batch estimation), C67 (linear regression), C68 (arithmetic).

`bmean ps`, `bcov ps` are the weighted mean and covariance of the points `ps` (`Gauss/Spec.lean`).
-/

namespace Verif.Gau

variable {d : ℕ}

/-! ## C59 -/

/-- Updating an empty Gaussian with any sequence of points with positive weights gives their weighted mean
and covariance.

Partial: the full claim has no hypotheses `hm` and `hv`, which say that in no coordinate does a point differ
from the mean of the points before it by `1e-15` or less, unless it is equal, and that no variance is
positive and less than `1e-15`; see `C59_violated_small_variance`.  What holds without them is
`C59_update_bounds`. -/
theorem C59_update_partial (ps : Pts d) (hw : ∀ p ∈ ps, 0 < p.2)
    (hm : ∀ pre p post, ps = pre ++ p :: post → ∀ i,
      p.1 i = bmean pre i ∨ 1 / 10 ^ 15 < |p.1 i - bmean pre i|)
    (hv : ∀ pre post, ps = pre ++ post → ∀ i, bcov pre i i = 0 ∨ 1 / 10 ^ 15 ≤ bcov pre i i) :
    ∃ g, (G.empty d).updateAll ps = .ok g ∧ (∀ i, g.mean i = bmean ps i) ∧ (∀ j k, g.cov j k = bcov ps j k) ∧
      g.sumW = total ps ∧ g.samples = ps.length := by
  have hprec : prec = 1 / 10 ^ 15 := by norm_num [prec]
  have key : (G.empty d).updateAll ps = .ok (batch ps ps.length) := by
    induction ps using List.reverseRecOn with
    | nil => rw [List.length_nil, batch_nil]; rfl
    | append_singleton ps p ih =>
      have h1 := ih (fun t ht => hw t (by simp [ht]))
        (fun pre q post e => hm pre q (post ++ [p]) (by simp [e]))
        (fun pre post e => hv pre (post ++ [p]) (by simp [e]))
      rw [G.updateAll, List.foldlM_append, ← G.updateAll, h1]
      have h2 := update_batch ps.length hw (fun i => by rw [hprec]; exact hm ps p [] rfl i)
        (fun i => by rw [hprec]; exact hv (ps ++ [p]) [] (by simp) i)
      simp [bind, Except.bind, h2, pure, Except.pure]
  exact ⟨_, key, fun _ => rfl, fun _ _ => rfl, rfl, rfl⟩

/-- What holds for every sequence of points with positive weights: the mean is the weighted mean up to
`1e-15`, and the covariance is symmetric with variances that are zero or at least `1e-15`. -/
theorem C59_update_bounds (ps : Pts d) (hw : ∀ p ∈ ps, 0 < p.2) :
    ∃ g, (G.empty d).updateAll ps = .ok g ∧ (∀ i, |g.mean i - bmean ps i| ≤ 1 / 10 ^ 15) ∧
      (∀ j k, g.cov j k = g.cov k j) ∧ (∀ j, g.cov j j = 0 ∨ 1 / 10 ^ 15 ≤ g.cov j j) ∧
      (∀ j k, g.cov j j = 0 → g.cov j k = 0) ∧ g.sumW = total ps ∧ g.samples = ps.length := by
  have hprec : prec = 1 / 10 ^ 15 := by norm_num [prec]
  obtain ⟨g, h1, h2⟩ := inv_all hw
  exact ⟨g, h1, fun i => hprec ▸ h2.mean i, h2.sym, fun j => hprec ▸ h2.diag j, h2.row, h2.sumW, h2.samples⟩

/-- An update or a retraction. -/
inductive Op (d : ℕ)
  | update (x : Fin d → ℚ) (w : ℚ)
  | retract (x : Fin d → ℚ) (w : ℚ)

/-- Doing it. -/
def Op.run (g : G d) : Op d → Except Err (G d)
  | .update x w => g.update x w
  | .retract x w => g.retract x w

/-- Which points are left after a history of updates and of retractions of points that are there, in which
at least two points are left after every retraction.  Differences and variances that are tiny but not zero do
not occur. -/
inductive Leaves : List (Op d) → Pts d → Prop
  | start : Leaves [] []
  | update {ops : List (Op d)} {ps : Pts d} {x : Fin d → ℚ} {w : ℚ} : Leaves ops ps → 0 < w →
      (∀ i, x i = bmean ps i ∨ 1 / 10 ^ 15 < |x i - bmean ps i|) →
      (∀ i, bcov (ps ++ [(x, w)]) i i = 0 ∨ 1 / 10 ^ 15 ≤ bcov (ps ++ [(x, w)]) i i) →
      Leaves (ops ++ [.update x w]) (ps ++ [(x, w)])
  | retract {ops : List (Op d)} {l₁ l₂ : Pts d} {x : Fin d → ℚ} {w : ℚ} : Leaves ops (l₁ ++ (x, w) :: l₂) →
      2 ≤ l₁.length + l₂.length → Leaves (ops ++ [.retract x w]) (l₁ ++ l₂)

/-- After any history of updates and retractions, mean and covariance are those of the points that are left;
so retracting any point, not only the last, undoes its update.

Partial: retracting may not leave less than two points, see `C59_violated_retract_only` and
`C59_violated_update_after_retract`; and the restrictions of `C59_update_partial`. -/
theorem C59_history_partial {ops : List (Op d)} {ps : Pts d} (h : Leaves ops ps) :
    ∃ g, ops.foldlM Op.run (G.empty d) = .ok g ∧ (∀ i, g.mean i = bmean ps i) ∧
      ∀ j k, g.cov j k = bcov ps j k := by
  have hprec : prec = 1 / 10 ^ 15 := by norm_num [prec]
  have key : Pos ps ∧ ∃ n, ps.length ≤ n ∧ ops.foldlM Op.run (G.empty d) = .ok (batch ps n) := by
    induction h with
    | start => exact ⟨by simp [Pos], 0, by simp, by rw [batch_nil]; rfl⟩
    | @update ops ps x w _ h0 hm hv ih =>
      obtain ⟨h1, n, h2, h3⟩ := ih
      have h4 : Pos (ps ++ [(x, w)]) := by
        intro t ht
        rcases List.mem_append.1 ht with ht | ht
        · exact h1 t ht
        · simp only [List.mem_singleton] at ht; subst ht; exact h0
      refine ⟨h4, n + 1, by simp; omega, ?_⟩
      have h5 := update_batch (p := (x, w)) n h4 (fun i => by rw [hprec]; exact hm i)
        (fun i => by rw [hprec]; exact hv i)
      simp only at h5
      rw [List.foldlM_append, h3]
      simp [bind, Except.bind, Op.run, h5, pure, Except.pure]
    | @retract ops l₁ l₂ x w _ h0 ih =>
      obtain ⟨h1, n, h2, h3⟩ := ih
      have hperm : (l₁ ++ (x, w) :: l₂).Perm ((l₁ ++ l₂) ++ [(x, w)]) := by
        refine List.perm_middle.trans ?_
        exact (List.perm_append_singleton _ _).symm
      have h4 : Pos ((l₁ ++ l₂) ++ [(x, w)]) := fun t ht => h1 t (hperm.mem_iff.2 ht)
      have h5 : 2 ≤ (l₁ ++ l₂).length := by simpa using h0
      refine ⟨fun t ht => h4 t (List.mem_append.2 (.inl ht)), n, ?_, ?_⟩
      · simp only [List.length_append, List.length_cons] at h2 ⊢; omega
      · have h6 := retract_batch (ps := l₁ ++ l₂) (p := (x, w)) (n := n)
          (by simp only [List.length_append, List.length_cons] at h2; omega) h4
          (by intro e; rw [e] at h5; simp at h5)
        rw [if_pos h5] at h6
        simp only at h6
        rw [List.foldlM_append, h3, batch_perm hperm]
        show ([Op.retract x w].foldlM Op.run _ : Except Err (G d)) = _
        simp only [List.foldlM_cons, List.foldlM_nil, Op.run, h6]
        rfl
  obtain ⟨-, n, -, h⟩ := key
  exact ⟨_, h, fun _ => rfl, fun _ _ => rfl⟩

/-- What is refused: different numbers of points and weights, retracting from an empty distribution, and
weights that sum to zero. -/
theorem C59_refused :
    (∀ (g : G d) xs ws, xs.length ≠ ws.length → g.updateAll' xs (some ws) = .error .valueError) ∧
    (∀ x w, (G.empty d).retract x w = .error .valueError) ∧
    (∀ (g : G d) x, g.asList = false → g.update x (-g.sumW) = .error .zeroDivision) := by
  refine ⟨fun g xs ws h => ?_, fun x w => ?_, fun g x h => ?_⟩
  · simp [G.updateAll', h]
  · simp [G.retract, G.empty]
  · simp [G.update, h]

/-- The default weights are 1. -/
theorem C59_default_weights (g : G d) (xs : List (Fin d → ℚ)) :
    g.updateAll' xs none = g.updateAll (xs.map (fun x => (x, 1))) := by
  have : xs.zip (xs.map (fun _ => (1 : ℚ))) = xs.map (fun x => (x, 1)) := by
    induction xs with
    | nil => rfl
    | cons x r ih => rw [List.map_cons, List.zip_cons_cons, ih, List.map_cons]
  unfold G.updateAll'
  simp only [Option.getD_none, List.length_map]
  rw [if_neg (by simp), this]

/-- A variance below `1e-15` is replaced by 0: for the points 0 and `1e-8` (a length of ten nanometres in
metres), the variance is `5e-17`, but 0 is estimated. -/
theorem C59_violated_small_variance :
    ((G.empty 1).updateAll [(![0], 1), (![1 / 10 ^ 8], 1)]).toOption.map (fun g => g.cov 0 0) = some 0 ∧
    bcov [((![0] : Fin 1 → ℚ), 1), (![1 / 10 ^ 8], 1)] 0 0 = 5 / 10 ^ 17 := by
  constructor <;> decide +kernel

/-- Retracting the only point raises `ZeroDivisionError`, although there is code for that case. -/
theorem C59_violated_retract_only (x : Fin 1 → ℚ) (w : ℚ) (hw : 0 < w) :
    ∃ g, (G.empty 1).update x w = .ok g ∧ g.retract x w = .error .zeroDivision := by
  obtain ⟨g, h1, h2⟩ := inv_all (d := 1) (ps := [(x, w)]) (by simp [Pos, hw])
  have h3 : (G.empty 1).update x w = .ok g := by
    simp only [G.updateAll, List.foldlM_cons, List.foldlM_nil, bind, Except.bind] at h1
    cases h4 : (G.empty 1).update x w with
    | error e => rw [h4] at h1; simp at h1
    | ok g' => rw [h4] at h1; simpa [pure, Except.pure] using h1
  refine ⟨g, h3, ?_⟩
  unfold G.retract
  rw [if_neg (by simp [h2.shaped, h2.samples])]
  have h0 : g.sumW - w = 0 := by rw [h2.sumW]; simp [total]
  simp only
  rw [if_pos h0]

/-- After a retraction that leaves one point, the next update raises `AttributeError`, because the covariance
is a list. -/
theorem C59_violated_update_after_retract (x y z : Fin d → ℚ) (u v w : ℚ) (hu : 0 < u) (hv : 0 < v) :
    ∃ g g', (G.empty d).updateAll [(x, u), (y, v)] = .ok g ∧ g.retract y v = .ok g' ∧
      g'.update z w = .error .attributeError := by
  obtain ⟨g, h1, h2⟩ := inv_all (d := d) (ps := [(x, u), (y, v)]) (by simp [Pos, hu, hv])
  have e1 : g.sumW - v = u := by rw [h2.sumW]; simp [total]
  have e2 : (g.sumW ^ 2 * g.sumWsq - v ^ 2) / u ^ 2 = 1 := by
    rw [h2.sumW, h2.sumWsq]
    have : (0 : ℚ) < u + v := by linarith
    simp only [total, share, List.map_cons, List.map_nil, List.sum_cons, List.sum_nil, add_zero]
    field_simp
    ring
  have h3 : ∃ g', g.retract y v = .ok g' ∧ g'.shaped = true ∧ g'.asList = true := by
    unfold G.retract
    rw [if_neg (by simp [h2.shaped, h2.samples])]
    simp only [e1, e2]
    rw [if_neg hu.ne', if_neg (lt_irrefl _)]
    exact ⟨_, rfl, h2.shaped, rfl⟩
  obtain ⟨g', h4, h5, h6⟩ := h3
  exact ⟨g, g', h1, h4, by simp [G.update, h5, h6]⟩

/-! ## C67 -/

/-- The line that `linreg` reports minimises the weighted sum of squared residuals of the points; `rss` is that
minimum divided by the divisor of the covariance; and `noise` is the coefficient of determination, a number in
`[0, 1]`.

Partial: for variances above `1e-8` only, see `C67_violated_small_variance`. -/
theorem C67_least_squares_partial (ps : Pts 2) (hw : ∀ p ∈ ps, 0 < p.2) (hl : 2 ≤ ps.length) (g : G 2)
    (hmean : ∀ i, g.mean i = bmean ps i) (hcov : ∀ j k, g.cov j k = bcov ps j k) (ha : g.asList = false)
    (hn : 2 ≤ g.samples) (h0 : 1 / 10 ^ 8 < bcov ps 0 0) (h1 : 1 / 10 ^ 8 < bcov ps 1 1) :
    ∃ l, g.linreg = .ok l ∧
      (∀ m b, (ps.map (fun p => p.2 * (p.1 1 - l.m * p.1 0 - l.b) ^ 2)).sum ≤
        (ps.map (fun p => p.2 * (p.1 1 - m * p.1 0 - b) ^ 2)).sum) ∧
      l.rss * (total ps * (1 - share ps)) = (ps.map (fun p => p.2 * (p.1 1 - l.m * p.1 0 - l.b) ^ 2)).sum ∧
      l.r2 = 1 - l.rss / bcov ps 1 1 ∧ 0 ≤ l.r2 ∧ l.r2 ≤ 1 := by
  have hW : 0 < total ps := total_pos hw (by rintro rfl; simp at hl)
  have hD := denom_pos hw hl
  have hp : (0 : ℚ) < 1 / 10 ^ 8 := by norm_num
  have v0 : 0 < bcov ps 0 0 := hp.trans h0
  have v1 : 0 < bcov ps 1 1 := hp.trans h1
  have hS : ∀ j k, scatter ps j k = bcov ps j k * (total ps * (1 - share ps)) := by
    intro j k; rw [bcov, div_mul_cancel₀ _ hD.ne']
  have hline : g.linreg = .ok ⟨bcov ps 0 1 / bcov ps 0 0, bmean ps 1 - bcov ps 0 1 / bcov ps 0 0 * bmean ps 0,
      bcov ps 1 1 * (1 - bcov ps 0 1 ^ 2 / (bcov ps 0 0 * bcov ps 1 1)),
      (bcov ps 1 1 - bcov ps 1 1 * (1 - bcov ps 0 1 ^ 2 / (bcov ps 0 0 * bcov ps 1 1))) / bcov ps 1 1⟩ := by
    unfold G.linreg
    rw [if_neg (by omega), if_neg (by simp [ha])]
    simp only [hmean, hcov]
    rw [if_neg v0.ne', if_pos ⟨by rw [abs_of_pos v0]; exact h0, by rw [abs_of_pos v1]; exact h1⟩,
      if_pos v1.ne']
  have hres : ∀ m b, (ps.map (fun p => p.2 * (p.1 1 - m * p.1 0 - b) ^ 2)).sum =
      (bcov ps 1 1 - 2 * m * bcov ps 0 1 + m ^ 2 * bcov ps 0 0) * (total ps * (1 - share ps)) +
      total ps * (bmean ps 1 - m * bmean ps 0 - b) ^ 2 := by
    intro m b
    have := residuals_eq hW.ne' m b
    rw [ws] at this
    rw [this, hS, hS, hS]; ring
  have hopt : (ps.map (fun p => p.2 * (p.1 1 - bcov ps 0 1 / bcov ps 0 0 * p.1 0 -
      (bmean ps 1 - bcov ps 0 1 / bcov ps 0 0 * bmean ps 0)) ^ 2)).sum =
      (bcov ps 1 1 - bcov ps 0 1 ^ 2 / bcov ps 0 0) * (total ps * (1 - share ps)) := by
    rw [hres]; field_simp; ring
  refine ⟨_, hline, fun m b => ?_, ?_, ?_, ?_, ?_⟩
  · simp only
    rw [hopt, hres]
    have e : bcov ps 1 1 - 2 * m * bcov ps 0 1 + m ^ 2 * bcov ps 0 0 =
        bcov ps 1 1 - bcov ps 0 1 ^ 2 / bcov ps 0 0 + bcov ps 0 0 * (m - bcov ps 0 1 / bcov ps 0 0) ^ 2 := by
      field_simp; ring
    rw [e]
    have h2 : 0 ≤ bcov ps 0 0 * (m - bcov ps 0 1 / bcov ps 0 0) ^ 2 := by positivity
    have h3 : 0 ≤ total ps * (bmean ps 1 - m * bmean ps 0 - b) ^ 2 := by positivity
    nlinarith
  · simp only
    rw [hopt]
    congr 1
    field_simp
  · simp only
    field_simp
  · simp only
    have : (bcov ps 1 1 - bcov ps 1 1 * (1 - bcov ps 0 1 ^ 2 / (bcov ps 0 0 * bcov ps 1 1))) / bcov ps 1 1 =
        bcov ps 0 1 ^ 2 / (bcov ps 0 0 * bcov ps 1 1) := by field_simp; ring
    rw [this]; positivity
  · simp only
    have : (bcov ps 1 1 - bcov ps 1 1 * (1 - bcov ps 0 1 ^ 2 / (bcov ps 0 0 * bcov ps 1 1))) / bcov ps 1 1 =
        bcov ps 0 1 ^ 2 / (bcov ps 0 0 * bcov ps 1 1) := by field_simp; ring
    rw [this, div_le_one (by positivity)]
    have h2 : 0 ≤ (ps.map (fun p => p.2 * (p.1 1 - bcov ps 0 1 / bcov ps 0 0 * p.1 0 -
        (bmean ps 1 - bcov ps 0 1 / bcov ps 0 0 * bmean ps 0)) ^ 2)).sum := by
      refine List.sum_nonneg fun x hx => ?_
      obtain ⟨t, ht, rfl⟩ := List.mem_map.1 hx
      have := hw t ht
      positivity
    rw [hopt] at h2
    have h3 : 0 ≤ bcov ps 1 1 - bcov ps 0 1 ^ 2 / bcov ps 0 0 := by
      by_contra hc
      have := mul_neg_of_neg_of_pos (not_le.1 hc) hD
      linarith
    have h4 : bcov ps 0 1 ^ 2 / bcov ps 0 0 ≤ bcov ps 1 1 := by linarith
    rw [div_le_iff₀ v0] at h4
    linarith

/-- If a variance is `1e-8` or less, a perfect fit is reported: for the points `(0, 0)`, `(1, 1e-5)`, `(2, 0)`,
the reported error is 0 and the reported coefficient of determination is 1, but the best line is flat and
explains nothing. -/
theorem C67_violated_small_variance :
    (((G.empty 2).updateAll [(![0, 0], 1), (![1, 1 / 10 ^ 5], 1), (![2, 0], 1)]).toOption.bind
      (fun g => g.linreg.toOption)).map (fun l => (l.m, l.rss, l.r2)) = some (0, 0, 1) ∧
    bcov [((![0, 0] : Fin 2 → ℚ), 1), (![1, 1 / 10 ^ 5], 1), (![2, 0], 1)] 0 1 = 0 ∧
    bcov [((![0, 0] : Fin 2 → ℚ), 1), (![1, 1 / 10 ^ 5], 1), (![2, 0], 1)] 1 1 ≠ 0 := by
  refine ⟨?_, ?_, ?_⟩ <;> decide +kernel

/-! ## C68 -/

/-- The points, each coordinate changed. -/
def mapPts (f : ℚ → ℚ) (ps : Pts d) : Pts d := ps.map (fun p => (fun i => f (p.1 i), p.2))

theorem total_map (f : ℚ → ℚ) (ps : Pts d) : total (mapPts f ps) = total ps := by
  simp [total, mapPts, List.map_map, Function.comp_def]

theorem share_map (f : ℚ → ℚ) (ps : Pts d) : share (mapPts f ps) = share ps := by
  rw [share, total_map]
  simp [share, mapPts, List.map_map, Function.comp_def]

theorem ws_affine (a c : ℚ) (ps : Pts d) (i : Fin d) :
    ws (mapPts (fun v => a * v + c) ps) (fun x => x i) = a * ws ps (fun x => x i) + c * total ps := by
  induction ps with
  | nil => simp [mapPts, total]
  | cons p r ih =>
    have e : total (p :: r) = p.2 + total r := by simp [total]
    have e' : mapPts (fun v => a * v + c) (p :: r) =
      (fun i => a * p.1 i + c, p.2) :: mapPts (fun v => a * v + c) r := rfl
    rw [e', ws_cons, ws_cons, e, ih]; ring

theorem bmean_affine (a c : ℚ) {ps : Pts d} (h : total ps ≠ 0) (i : Fin d) :
    bmean (mapPts (fun v => a * v + c) ps) i = a * bmean ps i + c := by
  rw [bmean_eq, total_map, ws_affine, bmean_eq]
  field_simp

theorem bcov_affine (a c : ℚ) {ps : Pts d} (h : total ps ≠ 0) (j k : Fin d) :
    bcov (mapPts (fun v => a * v + c) ps) j k = a ^ 2 * bcov ps j k := by
  have : scatter (mapPts (fun v => a * v + c) ps) j k = a ^ 2 * scatter ps j k := by
    unfold scatter
    rw [bmean_affine a c h, bmean_affine a c h, mapPts, List.map_map, ← List.sum_map_mul_left]
    refine congrArg List.sum (List.map_congr_left fun p _ => ?_)
    simp only [Function.comp_apply]; ring
  rw [bcov, this, total_map, share_map, bcov, mul_div_assoc]

/-- Scaling a Gaussian that was estimated from points gives the Gaussian of the scaled points, and adding a
number to it that of the shifted points; adding two Gaussians adds means and covariances. -/
theorem C68_arithmetic (ps : Pts d) (hw : ∀ p ∈ ps, 0 < p.2) (hne : ps ≠ []) (g h : G d)
    (hmean : ∀ i, g.mean i = bmean ps i) (hcov : ∀ j k, g.cov j k = bcov ps j k) (a : ℚ) :
    (∀ i, (g.scale a).mean i = bmean (mapPts (fun v => a * v) ps) i) ∧
    (∀ j k, (g.scale a).cov j k = bcov (mapPts (fun v => a * v) ps) j k) ∧
    (∀ i, (g.shift a).mean i = bmean (mapPts (fun v => v + a) ps) i) ∧
    (∀ j k, (g.shift a).cov j k = bcov (mapPts (fun v => v + a) ps) j k) ∧
    (∀ i, (g.add h).mean i = g.mean i + h.mean i) ∧ (∀ j k, (g.add h).cov j k = g.cov j k + h.cov j k) := by
  have hW := (total_pos hw hne).ne'
  have s1 : mapPts (fun v => a * v) ps = mapPts (fun v => a * v + 0) ps := by simp
  have s2 : mapPts (fun v => v + a) ps = mapPts (fun v => 1 * v + a) ps := by simp
  refine ⟨fun i => ?_, fun j k => ?_, fun i => ?_, fun j k => ?_, fun _ => rfl, fun _ _ => rfl⟩
  · rw [s1, bmean_affine _ _ hW, ← hmean]; simp [G.scale, G.of]
  · rw [s1, bcov_affine _ _ hW, ← hcov]; simp [G.scale, G.of]
  · rw [s2, bmean_affine _ _ hW, ← hmean]; simp [G.shift, G.of]; ring
  · rw [s2, bcov_affine _ _ hW, ← hcov]; simp [G.shift, G.of]

/-- The result of arithmetic does not remember how many points it stands for: after one update, the mean is
that point. -/
theorem C68_violated_update_forgets :
    (((G.empty 1).updateAll [(![1], 1), (![2], 1), (![3], 1)]).toOption.bind
      (fun g => ((g.shift 0).update ![10] 1).toOption)).map (fun h => h.mean 0) = some 10 ∧
    (((G.empty 1).updateAll [(![1], 1), (![2], 1), (![3], 1)]).toOption.bind
      (fun g => (g.update ![10] 1).toOption)).map (fun h => h.mean 0) = some 4 := by
  constructor <;> decide +kernel

/-! ### The hypotheses can be met -/

def square : Pts 2 := [(![0, 0], 1), (![1, 2], 2), (![2, 1], 1)]

theorem square_update : ∃ g, (G.empty 2).updateAll square = .ok g ∧ (∀ i, g.mean i = bmean square i) ∧
    (∀ j k, g.cov j k = bcov square j k) ∧ g.sumW = total square ∧ g.samples = square.length := by
  refine C59_update_partial square (by simp [square]) ?_ ?_
  · intro pre p post e i
    match pre, e with
    | [], e => simp only [square, List.nil_append, List.cons.injEq] at e; obtain ⟨rfl, rfl⟩ := e
               fin_cases i <;> decide +kernel
    | [a], e => simp only [square, List.cons_append, List.nil_append, List.cons.injEq] at e
                obtain ⟨rfl, rfl, rfl⟩ := e
                fin_cases i <;> decide +kernel
    | [a, b], e => simp only [square, List.cons_append, List.nil_append, List.cons.injEq] at e
                   obtain ⟨rfl, rfl, rfl, rfl⟩ := e
                   fin_cases i <;> decide +kernel
    | a :: b :: c :: r, e => simp [square] at e
  · intro pre post e i
    match pre, e with
    | [], e => fin_cases i <;> decide +kernel
    | [a], e => simp only [square, List.cons_append, List.nil_append, List.cons.injEq] at e
                obtain ⟨rfl, rfl⟩ := e
                fin_cases i <;> decide +kernel
    | [a, b], e => simp only [square, List.cons_append, List.nil_append, List.cons.injEq] at e
                   obtain ⟨rfl, rfl, rfl⟩ := e
                   fin_cases i <;> decide +kernel
    | [a, b, c], e => simp only [square, List.cons_append, List.nil_append, List.cons.injEq] at e
                      obtain ⟨rfl, rfl, rfl, rfl⟩ := e
                      fin_cases i <;> decide +kernel
    | a :: b :: c :: t :: r, e => simp [square] at e

example : ∃ g, (G.empty 2).updateAll square = .ok g ∧ g.mean 1 = 5 / 4 ∧ g.cov 0 0 = 4 / 5 ∧ g.cov 0 1 = 2 / 5 := by
  obtain ⟨g, h1, h2, h3, -⟩ := square_update
  exact ⟨g, h1, by rw [h2]; decide +kernel, by rw [h3]; decide +kernel, by rw [h3]; decide +kernel⟩

/-- A history with a retraction of the first point. -/
example : ∃ g, [Op.update (![0] : Fin 1 → ℚ) 1, .update ![4] 2, .update ![8] 1, .retract ![0] 1].foldlM Op.run
    (G.empty 1) = .ok g ∧ g.mean 0 = 16 / 3 := by
  have hl : Leaves [Op.update (![0] : Fin 1 → ℚ) 1, .update ![4] 2, .update ![8] 1, .retract ![0] 1]
      [(![4], 2), (![8], 1)] := by
    refine Leaves.retract (ops := [.update ![0] 1, .update ![4] 2, .update ![8] 1]) (l₁ := [])
      (l₂ := [(![4], 2), (![8], 1)]) ?_ (by simp)
    refine Leaves.update (ops := [.update ![0] 1, .update ![4] 2]) (ps := [(![0], 1), (![4], 2)]) ?_ (by norm_num)
      (by intro i; fin_cases i; decide +kernel) (by intro i; fin_cases i; decide +kernel)
    refine Leaves.update (ops := [.update ![0] 1]) (ps := [(![0], 1)]) ?_ (by norm_num)
      (by intro i; fin_cases i; decide +kernel) (by intro i; fin_cases i; decide +kernel)
    exact Leaves.update (ops := []) (ps := []) .start (by norm_num)
      (by intro i; fin_cases i; decide +kernel) (by intro i; fin_cases i; decide +kernel)
  obtain ⟨g, h1, h2, -⟩ := C59_history_partial hl
  exact ⟨g, h1, by rw [h2]; decide +kernel⟩

example : ∃ (g : G 2) (l : Line), g.linreg = .ok l ∧ l.r2 = 1 - l.rss / bcov square 1 1 ∧ 0 ≤ l.r2 := by
  obtain ⟨g, h1, h2, h3, -, h5⟩ := square_update
  obtain ⟨g', h6, -, -, -, -, -, h7⟩ := C59_update_bounds square (by simp [square])
  have ha : g.asList = false := by
    obtain ⟨g'', h8, h9⟩ := inv_all (ps := square) (by simp [square, Pos])
    rw [h1] at h8
    simp only [Except.ok.injEq] at h8
    rw [h8]; exact h9.asList
  obtain ⟨l, h8, -, -, h9, h10, -⟩ := C67_least_squares_partial square (by simp [square]) (by simp [square]) g h2 h3 ha
    (by rw [h5]; simp [square]) (by decide +kernel) (by decide +kernel)
  exact ⟨g, l, h8, h9, h10⟩

end Verif.Gau
