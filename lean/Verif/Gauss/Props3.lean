import Verif.Gauss.InPlace
import Verif.Gauss.Props

/-!
# C133: changing a Gaussian in place does not disturb its estimation

*Multiplying a Gaussian with a number or adding a number in place transforms all points it has seen: whatever is done in between, mean and
covariance are those of the points, transformed by everything done after they came in, and further points count with their weights.
`sum()` of Gaussians has the sum of the means and covariances.*
-/

namespace Verif.Gau

variable {d : ℕ}

/-- What may be done to a Gaussian. -/
inductive Act (d : ℕ)
  | update (x : Fin d → ℚ) (w : ℚ)
  | mul (a : ℚ)
  | add (a : ℚ)

def Act.run (g : G d) : Act d → Except Err (G d)
  | .update x w => g.update x w
  | .mul a => g.imul a
  | .add a => g.iaddNum a

/-- The points a Gaussian stands for after a history, each transformed by all that came after it.  As in C59, a new point must not be within
`1e-15` of the mean of the others without being equal to it, and no variance may be positive and below `1e-15` after an update. -/
inductive Stands : List (Act d) → Pts d → Prop
  | start : Stands [] []
  | update {acts ps x w} : Stands acts ps → 0 < w → (∀ i, x i = bmean ps i ∨ 1 / 10 ^ 15 < |x i - bmean ps i|) →
      (∀ i, bcov (ps ++ [(x, w)]) i i = 0 ∨ 1 / 10 ^ 15 ≤ bcov (ps ++ [(x, w)]) i i) → Stands (acts ++ [.update x w]) (ps ++ [(x, w)])
  | mul {acts ps a} : Stands acts ps → ps ≠ [] → Stands (acts ++ [.mul a]) (mapPts (fun v => a * v) ps)
  | add {acts ps a} : Stands acts ps → ps ≠ [] → Stands (acts ++ [.add a]) (mapPts (fun v => v + a) ps)

theorem pos_map {f : ℚ → ℚ} {ps : Pts d} (h : Pos ps) : Pos (mapPts f ps) := by
  intro t ht
  obtain ⟨p, hp, rfl⟩ := List.mem_map.1 ht
  exact h p hp

theorem imul_batch {ps : Pts d} (h : Pos ps) (hne : ps ≠ []) (n : ℕ) (a : ℚ) :
    (batch ps n).imul a = .ok (batch (mapPts (fun v => a * v) ps) n) := by
  have hW := (total_pos h hne).ne'
  have s1 : mapPts (fun v => a * v) ps = mapPts (fun v => a * v + 0) ps := by simp
  have e1 : bmean (mapPts (fun v => a * v) ps) = fun i => a * bmean ps i := by
    funext i; rw [s1, bmean_affine _ _ hW]; simp
  have e2 : bcov (mapPts (fun v => a * v) ps) = fun j k => a ^ 2 * bcov ps j k := by
    funext j k; rw [s1, bcov_affine _ _ hW]
  cases ps with
  | nil => exact absurd rfl hne
  | cons p r =>
    simp only [batch, e1, e2, total_map, share_map]
    simp [G.imul, G.scale, G.of, mapPts]

theorem iadd_batch {ps : Pts d} (h : Pos ps) (hne : ps ≠ []) (n : ℕ) (a : ℚ) :
    (batch ps n).iaddNum a = .ok (batch (mapPts (fun v => v + a) ps) n) := by
  have hW := (total_pos h hne).ne'
  have s1 : mapPts (fun v => v + a) ps = mapPts (fun v => 1 * v + a) ps := by simp
  have e1 : bmean (mapPts (fun v => v + a) ps) = fun i => a + bmean ps i := by
    funext i; rw [s1, bmean_affine _ _ hW]; ring
  have e2 : bcov (mapPts (fun v => v + a) ps) = bcov ps := by
    funext j k; rw [s1, bcov_affine _ _ hW]; ring
  cases ps with
  | nil => exact absurd rfl hne
  | cons p r =>
    simp only [batch, e1, e2, total_map, share_map]
    simp [G.iaddNum, G.shift, G.of, mapPts]

/-- After any history of updates and changes in place, mean, covariance and weight are those of the transformed points.

Partial: for points as in `C59_update_partial`. -/
theorem C133_history_partial {acts : List (Act d)} {ps : Pts d} (h : Stands acts ps) :
    ∃ g, acts.foldlM Act.run (G.empty d) = .ok g ∧ (∀ i, g.mean i = bmean ps i) ∧ (∀ j k, g.cov j k = bcov ps j k) ∧
      g.sumW = total ps ∧ g.samples = ps.length := by
  have hprec : prec = 1 / 10 ^ 15 := by norm_num [prec]
  have key : Pos ps ∧ acts.foldlM Act.run (G.empty d) = .ok (batch ps ps.length) := by
    induction h with
    | start => exact ⟨by simp [Pos], by rw [List.length_nil, batch_nil]; rfl⟩
    | @update acts ps x w _ h0 hm hv ih =>
      obtain ⟨h1, h3⟩ := ih
      have h4 : Pos (ps ++ [(x, w)]) := by
        intro t ht
        rcases List.mem_append.1 ht with ht | ht
        · exact h1 t ht
        · simp only [List.mem_singleton] at ht; subst ht; exact h0
      refine ⟨h4, ?_⟩
      have h5 := update_batch (p := (x, w)) ps.length h4 (fun i => by rw [hprec]; exact hm i) (fun i => by rw [hprec]; exact hv i)
      simp only at h5
      rw [List.foldlM_append, h3]
      simp [bind, Except.bind, Act.run, h5, pure, Except.pure]
    | @mul acts ps a _ hne ih =>
      obtain ⟨h1, h3⟩ := ih
      refine ⟨pos_map h1, ?_⟩
      have h5 := imul_batch h1 hne ps.length a
      have hl : (mapPts (fun v => a * v) ps).length = ps.length := by simp [mapPts]
      rw [List.foldlM_append, h3, hl]
      simp [bind, Except.bind, Act.run, h5, pure, Except.pure]
    | @add acts ps a _ hne ih =>
      obtain ⟨h1, h3⟩ := ih
      refine ⟨pos_map h1, ?_⟩
      have h5 := iadd_batch h1 hne ps.length a
      have hl : (mapPts (fun v => v + a) ps).length = ps.length := by simp [mapPts]
      rw [List.foldlM_append, h3, hl]
      simp [bind, Except.bind, Act.run, h5, pure, Except.pure]
  exact ⟨_, key.2, fun _ => rfl, fun _ _ => rfl, rfl, rfl⟩

/-- In place or not, the mean and the covariance are the same. -/
theorem C133_same (g h : G d) (a : ℚ) (hg : g.shaped = true) (hh : h.shaped = true) :
    (∃ r, g.imul a = .ok r ∧ r.mean = (g.scale a).mean ∧ r.cov = (g.scale a).cov ∧ r.sumW = g.sumW ∧ r.samples = g.samples)
    ∧ (∃ r, g.iaddNum a = .ok r ∧ r.mean = (g.shift a).mean ∧ r.cov = (g.shift a).cov ∧ r.sumW = g.sumW ∧ r.samples = g.samples)
    ∧ ∃ r, g.iaddG h = .ok r ∧ (∀ i, r.mean i = g.mean i + h.mean i) ∧ (∀ j k, r.cov j k = g.cov j k + h.cov j k)
      ∧ r.sumW = g.sumW ∧ r.samples = g.samples := by
  simp [G.imul, G.iaddNum, G.iaddG, hg, hh, G.add, G.of]

theorem sum_fold (r : List (G d)) (hr : ∀ h ∈ r, h.shaped = true) : ∀ (s : G d), s.shaped = true →
    ∃ t, r.foldlM (fun s h => s.plus h) s = .ok t ∧ t.shaped = true ∧ (∀ i, t.mean i = s.mean i + (r.map (fun h => h.mean i)).sum)
      ∧ ∀ j k, t.cov j k = s.cov j k + (r.map (fun h => h.cov j k)).sum := by
  induction r with
  | nil => intro s hs; exact ⟨s, rfl, hs, by simp, by simp⟩
  | cons h r ih =>
    intro s hs
    have hh := hr h (by simp)
    obtain ⟨t, h1, h2, h3, h4⟩ := ih (fun x hx => hr x (by simp [hx])) (s.add h) rfl
    have hp : s.plus h = .ok (s.add h) := by simp [G.plus, hs, hh]
    refine ⟨t, ?_, h2, fun i => ?_, fun j k => ?_⟩
    · rw [List.foldlM_cons, hp]; exact h1
    · rw [h3]; simp [G.add, G.of]; ring
    · rw [h4]; simp [G.add, G.of]; ring

theorem sum_fold_err (r : List (G d)) (hr : ∃ h ∈ r, h.shaped = false) : ∀ (s : G d), s.shaped = true →
    r.foldlM (fun s h => s.plus h) s = .error .typeError := by
  induction r with
  | nil => simp at hr
  | cons h r ih =>
    intro s hs
    rw [List.foldlM_cons]
    cases hh : h.shaped with
    | false => simp [G.plus, hh, bind, Except.bind]
    | true =>
      have hr' : ∃ h ∈ r, h.shaped = false := by
        obtain ⟨x, hx, e⟩ := hr
        rcases List.mem_cons.1 hx with rfl | hx
        · rw [hh] at e; cases e
        · exact ⟨x, hx, e⟩
      have hp : s.plus h = .ok (s.add h) := by simp [G.plus, hs, hh]
      rw [hp]
      exact ih hr' (s.add h) rfl

/-- `sum()` adds up means and covariances; an empty Gaussian in it is an error, and the sum of no Gaussians is the number 0. -/
theorem C133_sum (gs : List (G d)) (hne : gs ≠ []) :
    ((∀ g ∈ gs, g.shaped = true) → ∃ t, sumG gs = .ok (some t) ∧ (∀ i, t.mean i = (gs.map (fun h => h.mean i)).sum)
      ∧ ∀ j k, t.cov j k = (gs.map (fun h => h.cov j k)).sum)
    ∧ ((∃ g ∈ gs, g.shaped = false) → sumG gs = .error .typeError)
    ∧ sumG ([] : List (G d)) = .ok none := by
  refine ⟨fun h => ?_, fun h => ?_, rfl⟩
  rotate_left
  · cases gs with
    | nil => exact absurd rfl hne
    | cons g r =>
      cases hg : g.shaped with
      | false => simp [sumG, G.radd, hg, bind, Except.bind]
      | true =>
        have hr' : ∃ h ∈ r, h.shaped = false := by
          obtain ⟨x, hx, e⟩ := h
          rcases List.mem_cons.1 hx with rfl | hx
          · rw [hg] at e; cases e
          · exact ⟨x, hx, e⟩
        have hp : g.radd 0 = .ok (g.shift 0) := by simp [G.radd, hg]
        simp only [sumG, hp, bind, Except.bind, sum_fold_err r hr' (g.shift 0) rfl]
  cases gs with
  | nil => exact absurd rfl hne
  | cons g r =>
    have hg := h g (by simp)
    obtain ⟨t, h1, -, h3, h4⟩ := sum_fold r (fun x hx => h x (by simp [hx])) (g.shift 0) rfl
    have hp : g.radd 0 = .ok (g.shift 0) := by simp [G.radd, hg]
    refine ⟨t, ?_, fun i => ?_, fun j k => ?_⟩
    · simp only [sumG, hp, bind, Except.bind, h1, pure, Except.pure]
    · rw [h3]; simp [G.shift, G.of]
    · rw [h4]; simp [G.shift, G.of]

/-- Disagreement: the neutral operations fail on a Gaussian that has seen no points: `g *= 1` and `g += 0` raise a `TypeError`, so a history
may not begin with them. -/
theorem C133_violated_empty (a : ℚ) : (G.empty d).imul a = .error .typeError ∧ (G.empty d).iaddNum a = .error .typeError := ⟨rfl, rfl⟩

/-- Two points, doubled, a third one, moved by 1: the points are 2, 6 and 5, then 3, 7 and 6. -/
example : ∃ g, [Act.update (![1] : Fin 1 → ℚ) 1, .update ![3] 1, .mul 2, .update ![5] 2, .add 1].foldlM Act.run (G.empty 1) = .ok g
    ∧ g.mean 0 = 11 / 2 ∧ g.samples = 3 := by
  have h : Stands [Act.update (![1] : Fin 1 → ℚ) 1, .update ![3] 1, .mul 2, .update ![5] 2, .add 1]
      (mapPts (fun v => v + 1) (mapPts (fun v => 2 * v) ([] ++ [(![1], 1)] ++ [(![3], 1)]) ++ [(![5], 2)])) := by
    refine Stands.add (acts := [.update ![1] 1, .update ![3] 1, .mul 2, .update ![5] 2]) ?_ (by simp)
    refine Stands.update (acts := [.update ![1] 1, .update ![3] 1, .mul 2]) ?_ (by norm_num)
      (by intro i; fin_cases i; decide +kernel) (by intro i; fin_cases i; decide +kernel)
    refine Stands.mul (acts := [.update ![1] 1, .update ![3] 1]) ?_ (by simp)
    refine Stands.update (acts := [.update ![1] 1]) ?_ (by norm_num)
      (by intro i; fin_cases i; decide +kernel) (by intro i; fin_cases i; decide +kernel)
    exact Stands.update (acts := []) .start (by norm_num) (by intro i; fin_cases i; decide +kernel) (by intro i; fin_cases i; decide +kernel)
  obtain ⟨g, h1, h2, -, -, h5⟩ := C133_history_partial h
  exact ⟨g, h1, by rw [h2]; decide +kernel, by rw [h5]; decide +kernel⟩
example : ∃ t, sumG [G.of (d := 1) (fun _ => 1) (fun _ _ => 2), G.of (fun _ => 3) (fun _ _ => 5)] = .ok (some t) ∧ t.mean 0 = 4 ∧ t.cov 0 0 = 7 := by
  obtain ⟨t, h1, h2, h3⟩ := (C133_sum [G.of (d := 1) (fun _ => 1) (fun _ _ => 2), G.of (fun _ => 3) (fun _ _ => 5)] (by simp)).1 (by simp [G.of])
  exact ⟨t, h1, by rw [h2]; decide +kernel, by rw [h3]; decide +kernel⟩

end Verif.Gau
