import Verif.Learn.MaxStd
import Mathlib.Tactic.Linarith
import Mathlib.Tactic.FieldSimp
import Mathlib.Tactic.Ring
import Mathlib.Tactic.NormNum

/-!
# C117: the limit on standard deviations
-/

namespace Verif.Learn

/-! ## Specification -/

/-- The mean of some numbers. -/
noncomputable def popMean (xs : List ℝ) : ℝ := xs.sum / xs.length

/-- The variance of some numbers: the mean squared distance from the mean. -/
noncomputable def popVar (xs : List ℝ) : ℝ := popMean (xs.map fun x => (x - popMean xs) ^ 2)

/-- The standard deviation. -/
noncomputable def popStd (xs : List ℝ) : ℝ := √(popVar xs)

/-- The internal values of a column of labels. -/
noncomputable def NumVar.values (v : NumVar) (labels : List ℝ) : List ℝ :=
  match v.scaler with
  | some (mean, scale) => labels.map fun x => (x - mean) / scale
  | none => labels

/-- The scale of a variable, one if it is not scaled. -/
def NumVar.scale (v : NumVar) : ℝ := (v.scaler.map Prod.snd).getD 1

/-- A scale is positive and a limit not negative. -/
def NumVar.OK (v : NumVar) : Prop := 0 < v.scale ∧ 0 ≤ v.maxStd

/-! ## Lemmas -/

theorem popMean_affine {xs : List ℝ} (hx : xs ≠ []) (m s : ℝ) :
    popMean (xs.map fun x => (x - m) / s) = (popMean xs - m) / s := by
  have h : ∀ ys : List ℝ, (ys.map fun x => (x - m) / s).sum = (ys.sum - ys.length * m) / s := by
    intro ys
    induction ys with
    | nil => simp
    | cons y ys ih =>
      simp only [List.map_cons, List.sum_cons, ih, List.length_cons, Nat.cast_add, Nat.cast_one]
      ring
  have hn : (xs.length : ℝ) ≠ 0 := by
    simpa using hx
  unfold popMean
  rw [h, List.length_map]
  field_simp

theorem popMean_scale (xs : List ℝ) (s : ℝ) : popMean (xs.map fun x => x / s) = popMean xs / s := by
  have h : ∀ ys : List ℝ, (ys.map fun x => x / s).sum = ys.sum / s := by
    intro ys
    induction ys with
    | nil => simp
    | cons y ys ih =>
      simp only [List.map_cons, List.sum_cons, ih]
      ring
  unfold popMean
  rw [h, List.length_map]
  ring

theorem popVar_affine {xs : List ℝ} (hx : xs ≠ []) (m s : ℝ) :
    popVar (xs.map fun x => (x - m) / s) = popVar xs / s ^ 2 := by
  unfold popVar
  rw [popMean_affine hx, ← popMean_scale, List.map_map, List.map_map]
  congr 1
  apply List.map_congr_left
  intro x _
  simp only [Function.comp]
  rw [← div_pow]
  congr 1
  ring

theorem popVar_nonneg (xs : List ℝ) : 0 ≤ popVar xs := by
  unfold popVar popMean
  apply div_nonneg
  · apply List.sum_nonneg
    intro y hy
    obtain ⟨x, -, rfl⟩ := List.mem_map.1 hy
    positivity
  · positivity

theorem popVar_values (v : NumVar) {labels : List ℝ} (hl : labels ≠ []) :
    popVar (v.values labels) = popVar labels / v.scale ^ 2 := by
  unfold NumVar.values NumVar.scale
  cases h : v.scaler with
  | none => simp
  | some p => exact popVar_affine hl p.1 p.2

theorem maxStdValue_sq (v : NumVar) (hv : v.OK) : v.maxStdValue ^ 2 = v.maxStd ^ 2 / v.scale := by
  obtain ⟨hs, -⟩ := hv
  unfold NumVar.maxStdValue
  unfold NumVar.scale at hs ⊢
  cases h : v.scaler with
  | none => simp
  | some p =>
    rw [h] at hs
    simp only [Option.map_some, Option.getD_some] at hs ⊢
    rw [div_pow, Real.sq_sqrt hs.le]

/-! ## Theorems -/

/-- C117: the check on the variances of the internal values is true exactly if there is a variable whose labels have a
standard deviation above the limit times the square root of the scale. -/
theorem C117_check (cols : List (NumVar × List ℝ)) (h : ∀ c ∈ cols, c.1.OK ∧ c.2 ≠ []) :
    checkMaxVariances (maxVariances (cols.map Prod.fst)) (cols.map fun c => popVar (c.1.values c.2)) = true ↔
      ∃ c ∈ cols, c.1.maxStd * √c.1.scale < popStd c.2 := by
  have key : ∀ c : NumVar × List ℝ, c.1.OK → c.2 ≠ [] →
      (popVar (c.1.values c.2) > c.1.maxStdValue ^ 2 ↔ c.1.maxStd * √c.1.scale < popStd c.2) := by
    intro c hc hl
    obtain ⟨hs, hm⟩ := hc
    rw [popVar_values _ hl, maxStdValue_sq _ ⟨hs, hm⟩, gt_iff_lt, div_lt_div_iff₀ hs (by positivity)]
    unfold popStd
    rw [Real.lt_sqrt (by positivity), mul_pow, Real.sq_sqrt hs.le]
    constructor
    · intro h
      have : (c.1.maxStd ^ 2 * c.1.scale) * c.1.scale < popVar c.2 * c.1.scale := by linarith [h, sq (c.1.scale)]
      exact lt_of_mul_lt_mul_right this hs.le
    · intro h
      have := mul_lt_mul_of_pos_right h hs
      linarith [this, sq (c.1.scale)]
  unfold checkMaxVariances maxVariances
  induction cols with
  | nil => simp
  | cons c cols ih =>
    obtain ⟨h1, h2⟩ := h c (by simp)
    have ih := ih (fun d hd => h d (List.mem_cons_of_mem _ hd))
    simp only [List.map_cons, List.zip_cons_cons, List.any_cons, Bool.or_eq_true, ih, decide_eq_true_eq, key c h1 h2,
      List.mem_cons, exists_eq_or_imp]

/-- C117, the part that holds: without scaling (or with scale one), the check is true exactly if there is a variable whose
standard deviation is above its limit.  Missing are scaled variables, see `C117_violated_scaled`. -/
theorem C117_limit_partial (cols : List (NumVar × List ℝ)) (h : ∀ c ∈ cols, c.1.OK ∧ c.2 ≠ [])
    (h1 : ∀ c ∈ cols, c.1.scale = 1) :
    checkMaxVariances (maxVariances (cols.map Prod.fst)) (cols.map fun c => popVar (c.1.values c.2)) = true ↔
      ∃ c ∈ cols, c.1.maxStd < popStd c.2 := by
  rw [C117_check cols h]
  constructor
  · rintro ⟨c, hc, h2⟩
    exact ⟨c, hc, by simpa [h1 c hc] using h2⟩
  · rintro ⟨c, hc, h2⟩
    exact ⟨c, hc, by simpa [h1 c hc] using h2⟩

/-- C117: it makes no difference how the labels of a variable are scaled if the limit were divided by the scale itself. -/
theorem C117_should (v : NumVar) (hv : v.OK) (labels : List ℝ) (hl : labels ≠ []) :
    v.maxStd / v.scale < popStd (v.values labels) ↔ v.maxStd < popStd labels := by
  obtain ⟨hs, hm⟩ := hv
  unfold popStd
  rw [popVar_values _ hl, Real.sqrt_div (popVar_nonneg _), Real.sqrt_sq hs.le, div_lt_div_iff_of_pos_right hs]

/-- The labels 0 and 8 with their mean and standard deviation as scaler. -/
theorem exStd : popStd [0, 8] = 4 ∧ popMean [0, 8] = 4 := by
  have h1 : popMean [0, 8] = 4 := by norm_num [popMean]
  refine ⟨?_, h1⟩
  unfold popStd popVar
  rw [h1]
  rw [show popMean ([0, 8].map fun x : ℝ => (x - 4) ^ 2) = 4 ^ 2 by norm_num [popMean]]
  exact Real.sqrt_sq (by norm_num)

/-- Disagreement: for a scaled variable the limit is divided by the square root of the scale instead of the scale, although
the scale is a standard deviation.  The labels 0 and 8 have the standard deviation 4, and the limit 3 is not noticed to be
exceeded. -/
theorem C117_violated_scaled :
    ∃ v : NumVar, v.OK ∧ v.scaler = some (popMean [0, 8], popStd [0, 8]) ∧ v.maxStd < popStd [0, 8] ∧
      checkMaxVariances (maxVariances [v]) [popVar (v.values [0, 8])] = false := by
  obtain ⟨h1, h2⟩ := exStd
  have hok : (NumVar.mk 3 (some (popMean [0, 8], popStd [0, 8]))).OK := by
    rw [h1, h2]
    constructor
    · show (0 : ℝ) < 4
      norm_num
    · show (0 : ℝ) ≤ 3
      norm_num
  refine ⟨⟨3, some (popMean [0, 8], popStd [0, 8])⟩, hok, rfl, by rw [h1]; norm_num, ?_⟩
  rw [← Bool.not_eq_true]
  intro h
  obtain ⟨c, hc, h3⟩ := (C117_check [(⟨3, some (popMean [0, 8], popStd [0, 8])⟩, [0, 8])] (by
    intro c hc
    rw [List.mem_singleton.1 hc]
    exact ⟨hok, by simp⟩)).1 h
  rw [List.mem_singleton.1 hc] at h3
  simp only [NumVar.scale, Option.map_some, Option.getD_some] at h3
  rw [h1, show (4 : ℝ) = 2 ^ 2 by norm_num, Real.sqrt_sq (by norm_num)] at h3
  norm_num at h3

/-- An unscaled variable whose limit is exceeded. -/
example : checkMaxVariances (maxVariances [⟨3, none⟩]) [popVar [0, 8]] = true :=
  (C117_limit_partial [(⟨3, none⟩, [0, 8])] (by
    intro c hc
    rw [List.mem_singleton.1 hc]
    refine ⟨⟨?_, ?_⟩, by simp⟩
    · show (0 : ℝ) < 1
      norm_num
    · show (0 : ℝ) ≤ 3
      norm_num) (by
    intro c hc
    rw [List.mem_singleton.1 hc]
    rfl)).2 ⟨_, List.mem_singleton.2 rfl, by rw [exStd.1]; norm_num⟩

end Verif.Learn
