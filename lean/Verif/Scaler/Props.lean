import Verif.Scaler.Model
import Mathlib.Tactic.Ring
import Mathlib.Tactic.FieldSimp
import Mathlib.Tactic.Linarith
import Mathlib.Algebra.BigOperators.Ring.List
import Mathlib.Algebra.Order.BigOperators.Group.List
import Mathlib.Tactic.NormNum

/-!
# Properties of data scaling

C39 (data scaling is invertible).
-/

namespace Verif.Sca

/-! ## Specification -/

/-- The arithmetic mean. -/
noncomputable def average (l : List ℝ) : ℝ := l.sum / l.length

/-- The mean squared deviation from the mean. -/
noncomputable def variance (l : List ℝ) : ℝ := (l.map (fun x => (x - average l) ^ 2)).sum / l.length

/-- `x` lies between the bounds. -/
def Within (x : ℝ) (i : Interval) : Prop :=
  (match i.lower with
    | .nan => False
    | .ninf => True
    | .num l => if i.leftInc then l ≤ x else l < x
    | .pinf => False) ∧
  (match i.upper with
    | .nan => False
    | .ninf => False
    | .num u => if i.rightInc then x ≤ u else x < u
    | .pinf => True)

/-- `x` is meant by the argument: the number itself, a member of the interval or of the set. -/
def Meant (x : ℝ) : Arg → Prop
  | .number v => v = .num x
  | .interval i => Within x i
  | .set is => ∃ i ∈ is, Within x i

/-! ## Lemmas -/

theorem npMean_ne {data : List ℝ} (h : data ≠ []) : npMean data = .num (average data) := by
  simp [npMean, h, average]

theorem npStd_ne {data : List ℝ} (h : data ≠ []) : npStd data = .num (Real.sqrt (variance data)) := by
  simp [npStd, npMean_ne h, variance]

theorem variance_nonneg (l : List ℝ) : 0 ≤ variance l := by
  unfold variance
  apply div_nonneg _ (Nat.cast_nonneg _)
  apply List.sum_nonneg
  intro x hx
  obtain ⟨y, -, rfl⟩ := List.mem_map.1 hx
  exact sq_nonneg _

theorem fit_scale {data : List ℝ} (h : data ≠ []) :
    (fit data).mean = .num (average data) ∧
    (fit data).scale = if variance data = 0 then 1 else Real.sqrt (variance data) := by
  refine ⟨npMean_ne h, ?_⟩
  simp only [fit, npStd_ne h]
  by_cases h0 : variance data = 0
  · simp [h0]
  · rw [if_neg, if_neg h0]
    intro hc
    exact h0 ((Real.sqrt_eq_zero (variance_nonneg _)).1 hc)

theorem scale_pos (data : List ℝ) : 0 < (fit data).scale := by
  by_cases h : data = []
  · subst h; simp [fit, npStd, npMean]
  · rw [(fit_scale h).2]
    split
    · exact one_pos
    · rename_i h0
      exact Real.sqrt_pos.2 (lt_of_le_of_ne (variance_nonneg _) (Ne.symm h0))

theorem variance_zero {l : List ℝ} (h : l ≠ []) (h0 : variance l = 0) : ∀ x ∈ l, x = average l := by
  unfold variance at h0
  have hl : (l.length : ℝ) ≠ 0 := by simpa using h
  have hs : (l.map (fun x => (x - average l) ^ 2)).sum = 0 := by
    rcases div_eq_zero_iff.1 h0 with h | h
    · exact h
    · exact absurd h hl
  intro x hx
  have h1 : (x - average l) ^ 2 ≤ (l.map (fun x => (x - average l) ^ 2)).sum := by
    apply List.single_le_sum
    · intro y hy
      obtain ⟨z, -, rfl⟩ := List.mem_map.1 hy
      exact sq_nonneg _
    · exact List.mem_map.2 ⟨x, hx, rfl⟩
  have h2 : (x - average l) ^ 2 = 0 := le_antisymm (hs ▸ h1) (sq_nonneg _)
  have := pow_eq_zero_iff (two_ne_zero) |>.1 h2
  linarith

theorem sum_sub (l : List ℝ) (m s : ℝ) : (l.map (fun x => (x - m) / s)).sum = (l.sum - l.length * m) / s := by
  induction l with
  | nil => simp
  | cons a r ih => simp only [List.map_cons, List.sum_cons, ih, List.length_cons]; push_cast; ring

theorem sum_sq (l : List ℝ) (m s : ℝ) :
    (l.map (fun x => ((x - m) / s) ^ 2)).sum = (l.map (fun x => (x - m) ^ 2)).sum / s ^ 2 := by
  induction l with
  | nil => simp
  | cons a r ih => rw [List.map_cons, List.sum_cons, ih, List.map_cons, List.sum_cons, div_pow, add_div]

/-! ## C39 -/

/-- For a scaler fitted to any data that are not empty, `inverse_transform` and `transform` are inverse
to each other, for all numbers and infinities (NaN stays NaN). -/
theorem C39_invertible (data : List ℝ) (h : data ≠ []) (x : V) :
    (fit data).inverse ((fit data).transform x) = x ∧ (fit data).transform ((fit data).inverse x) = x := by
  have hp := (scale_pos data).ne'
  simp only [Scaler.inverse, Scaler.transform, (fit_scale h).1]
  cases x with
  | num r =>
    simp only [V.sub, V.divPos, V.mulPos, V.add, V.num.injEq]
    constructor
    · field_simp; ring
    · field_simp; ring
  | _ => exact ⟨rfl, rfl⟩

example : (fit [3, 3]).inverse ((fit [3, 3]).transform (.num 5)) = .num 5 := (C39_invertible [3, 3] (by simp) _).1

/-- Looking a transformed number up in the scaler gives the number back, and so does a scaler that was
written to JSON and read again. -/
theorem C39_lookup (data : List ℝ) (h : data ≠ []) (x : V) :
    (fit data).getItem ((fit data).transform x) = x ∧ fromJson (fit data).toJson = some (fit data) := by
  refine ⟨?_, rfl⟩
  cases x with
  | num r =>
    have e := (C39_invertible data h (.num r)).1
    simp only [Scaler.transform, (fit_scale h).1, V.sub, V.divPos, Scaler.getItem] at e ⊢
    exact e
  | _ => simp [Scaler.transform, (fit_scale h).1, V.sub, V.divPos, Scaler.getItem, Scaler.inverse, V.mulPos, V.add]

example : (fit [3, 7]).getItem ((fit [3, 7]).transform (.num 5)) = .num 5 := (C39_lookup [3, 7] (by simp) _).1

/-- The transformed data: `transform` maps the data to numbers with mean 0; their variance is 1 if two
of the data differ, and otherwise they are all 0. -/
theorem C39_normalised (data : List ℝ) (h : data ≠ []) :
    ∃ out : List ℝ, data.map (fun x => (fit data).transform (.num x)) = out.map V.num ∧ average out = 0 ∧
      ((∃ x ∈ data, ∃ y ∈ data, x ≠ y) → variance out = 1) ∧
      ((∀ x ∈ data, ∀ y ∈ data, x = y) → ∀ z ∈ out, z = 0) := by
  have hl : (data.length : ℝ) ≠ 0 := by simpa using h
  have hs := scale_pos data
  refine ⟨data.map (fun x => (x - average data) / (fit data).scale), ?_, ?_, ?_, ?_⟩
  · simp only [Scaler.transform, (fit_scale h).1, V.sub, V.divPos, List.map_map]
    rfl
  · rw [average, sum_sub, average, mul_div_cancel₀ _ hl]; simp
  · rintro ⟨x, hx, y, hy, hxy⟩
    have h0 : variance data ≠ 0 := fun h0 =>
      hxy ((variance_zero h h0 x hx).trans (variance_zero h h0 y hy).symm)
    have havg : average (data.map (fun x => (x - average data) / (fit data).scale)) = 0 := by
      rw [average, sum_sub, average, mul_div_cancel₀ _ hl]; simp
    have e : (fit data).scale ^ 2 = variance data := by
      rw [(fit_scale h).2, if_neg h0, Real.sq_sqrt (variance_nonneg _)]
    rw [variance, havg, List.map_map]
    simp only [Function.comp_def, sub_zero, List.length_map]
    rw [sum_sq, e, div_right_comm]
    exact div_self h0
  · intro hc z hz
    obtain ⟨x, hx, rfl⟩ := List.mem_map.1 hz
    have : x = average data := by
      rw [average]
      have hsum : data.sum = data.length * x := by
        have : ∀ l : List ℝ, (∀ y ∈ l, y = x) → l.sum = l.length * x := by
          intro l
          induction l with
          | nil => simp
          | cons a r ih =>
            intro h
            rw [List.sum_cons, ih (fun y hy => h y (by simp [hy])), h a (by simp), List.length_cons]
            push_cast; ring
        exact this data (fun y hy => hc y hy x hx)
      rw [hsum, mul_div_cancel_left₀ _ hl]
    rw [← this]; simp

example : variance [2, 4] = 1 ∧ average [2, 4] = 3 := by
  constructor <;> norm_num [variance, average]

/-- A numeric type made from finite values that are not empty: going from a label to a value and back, or
from a value to a label and back, leads to the same number, interval or set; NaN is excluded (it becomes
0).  Types written to JSON and read again are the same. -/
theorem C39_labels (vs : List V) (hv : vs ≠ []) (hfin : ∀ v ∈ vs, ∃ r, v = .num r) :
    ∃ t, numericType vs = some t ∧ t.jsonRoundTrip = some t ∧
      ∀ a : Arg, (match a with
          | .number v => v ≠ .nan
          | .interval i => i.lower ≠ .nan ∧ i.upper ≠ .nan
          | .set is => ∀ i ∈ is, i.lower ≠ .nan ∧ i.upper ≠ .nan) →
        t.value2label (t.label2value a) = a ∧ t.label2value (t.value2label a) = a := by
  set data := vs.filterMap V.real? with hd
  have hne : data ≠ [] := by
    obtain ⟨v, r, rfl⟩ := List.exists_cons_of_ne_nil hv
    obtain ⟨x, rfl⟩ := hfin v (by simp)
    simp [hd, V.real?]
  refine ⟨⟨fit data, ⟨fit data, false⟩, ⟨fit data, true⟩⟩, by rw [numericType, if_pos hfin, hd], rfl, ?_⟩
  have hnum : ∀ v : V, v ≠ .nan →
      Proxy.getItem ⟨fit data, true⟩ (some (Proxy.getItem ⟨fit data, false⟩ (some v))) = v ∧
      Proxy.getItem ⟨fit data, false⟩ (some (Proxy.getItem ⟨fit data, true⟩ (some v))) = v := by
    intro v hv
    cases v with
    | nan => exact absurd rfl hv
    | ninf => exact ⟨rfl, rfl⟩
    | pinf => exact ⟨rfl, rfl⟩
    | num r =>
      obtain ⟨h1, h2⟩ := C39_invertible data hne (.num r)
      have e1 : ∃ y, (fit data).transform (.num r) = .num y := by
        simp [Scaler.transform, (fit_scale hne).1, V.sub, V.divPos]
      have e2 : ∃ y, (fit data).inverse (.num r) = .num y := by
        simp [Scaler.inverse, (fit_scale hne).1, V.mulPos, V.add]
      obtain ⟨y, e1⟩ := e1
      obtain ⟨z, e2⟩ := e2
      rw [e1] at h1
      rw [e2] at h2
      simp [Proxy.getItem, e1, e2, h1, h2]
  have hint : ∀ i : Interval, i.lower ≠ .nan → i.upper ≠ .nan →
      mapInterval ⟨fit data, true⟩ (mapInterval ⟨fit data, false⟩ i) = i ∧
      mapInterval ⟨fit data, false⟩ (mapInterval ⟨fit data, true⟩ i) = i := by
    intro i h1 h2
    simp only [mapInterval, (hnum _ h1).1, (hnum _ h1).2, (hnum _ h2).1, (hnum _ h2).2, and_self]
  intro a ha
  simp only [NType.value2label, NType.label2value]
  cases a with
  | number v => simp [mapArg, hnum v ha]
  | interval i => simp [mapArg, hint i ha.1 ha.2]
  | set is =>
    simp only [mapArg, List.map_map, Arg.set.injEq]
    constructor
    · refine (List.map_congr_left (g := id) fun i hi => ?_).trans (List.map_id _)
      exact (hint i (ha i hi).1 (ha i hi).2).1
    · refine (List.map_congr_left (g := id) fun i hi => ?_).trans (List.map_id _)
      exact (hint i (ha i hi).1 (ha i hi).2).2

example : ∃ t, numericType [.num 1, .num 4] = some t ∧
    t.value2label (t.label2value (.interval ⟨.ninf, .num 2, false, true⟩)) = .interval ⟨.ninf, .num 2, false, true⟩ := by
  obtain ⟨t, h1, -, h2⟩ := C39_labels [.num 1, .num 4] (by simp) (by simp)
  exact ⟨t, h1, (h2 (.interval ⟨.ninf, .num 2, false, true⟩) (by simp)).1⟩

/-- Scaling keeps what an argument means: a number is meant by an argument in terms of labels iff its
value is meant by the argument in terms of values. -/
theorem C39_order (vs : List V) (hv : vs ≠ []) (hfin : ∀ v ∈ vs, ∃ r, v = .num r) :
    ∃ (t : NType) (f : ℝ → ℝ), numericType vs = some t ∧ StrictMono f ∧
      (∀ x : ℝ, t.label2value (.number (.num x)) = .number (.num (f x))) ∧
      ∀ (a : Arg) (x : ℝ), (match a with
          | .number v => v ≠ .nan
          | .interval i => i.lower ≠ .nan ∧ i.upper ≠ .nan
          | .set is => ∀ i ∈ is, i.lower ≠ .nan ∧ i.upper ≠ .nan) →
        (Meant (f x) (t.label2value a) ↔ Meant x a) := by
  set data := vs.filterMap V.real? with hd
  have hne : data ≠ [] := by
    obtain ⟨v, r, rfl⟩ := List.exists_cons_of_ne_nil hv
    obtain ⟨x, rfl⟩ := hfin v (by simp)
    simp [hd, V.real?]
  have hs := scale_pos data
  have hmono : StrictMono (fun x : ℝ => (x - average data) / (fit data).scale) := fun x y h =>
    div_lt_div_of_pos_right (by linarith) hs
  have hg : ∀ x : ℝ, Proxy.getItem ⟨fit data, false⟩ (some (.num x)) =
      .num ((x - average data) / (fit data).scale) := by
    intro x
    simp [Proxy.getItem, Scaler.transform, (fit_scale hne).1, V.sub, V.divPos]
  have hint : ∀ (i : Interval) (x : ℝ), i.lower ≠ .nan → i.upper ≠ .nan →
      (Within ((x - average data) / (fit data).scale) (mapInterval ⟨fit data, false⟩ i) ↔ Within x i) := by
    intro i x h1 h2
    obtain ⟨l, u, L, R⟩ := i
    simp only at h1 h2
    have key1 : ∀ l x : ℝ, (l - average data) / (fit data).scale ≤ (x - average data) / (fit data).scale ↔
      l ≤ x := fun l x => hmono.le_iff_le
    have key2 : ∀ l x : ℝ, (l - average data) / (fit data).scale < (x - average data) / (fit data).scale ↔
      l < x := fun l x => hmono.lt_iff_lt
    unfold Within mapInterval
    apply and_congr
    · cases l with
      | nan => exact absurd rfl h1
      | ninf => simp [Proxy.getItem]
      | pinf => simp [Proxy.getItem]
      | num l => simp only [hg, key1, key2]
    · cases u with
      | nan => exact absurd rfl h2
      | ninf => simp [Proxy.getItem]
      | pinf => simp [Proxy.getItem]
      | num l => simp only [hg, key1, key2]
  refine ⟨⟨fit data, ⟨fit data, false⟩, ⟨fit data, true⟩⟩, _, by rw [numericType, if_pos hfin, hd], hmono, ?_, ?_⟩
  · intro x
    simp only [NType.label2value, mapArg, hg]
  · intro a x ha
    cases a with
    | number v =>
      simp only [NType.label2value, mapArg, Meant]
      cases v with
      | nan => exact absurd rfl ha
      | ninf => simp [Proxy.getItem]
      | pinf => simp [Proxy.getItem]
      | num r => rw [hg, V.num.injEq, V.num.injEq]; exact hmono.injective.eq_iff
    | interval i => exact hint i x ha.1 ha.2
    | set is =>
      simp only [NType.label2value, mapArg, Meant]
      constructor
      · rintro ⟨j, hj, hw⟩
        obtain ⟨i, hi, rfl⟩ := List.mem_map.1 hj
        exact ⟨i, hi, (hint i x (ha i hi).1 (ha i hi).2).1 hw⟩
      · rintro ⟨i, hi, hw⟩
        exact ⟨_, List.mem_map.2 ⟨i, hi, rfl⟩, (hint i x (ha i hi).1 (ha i hi).2).2 hw⟩

example : ∃ (t : NType) (f : ℝ → ℝ), numericType [.num 1, .num 4] = some t ∧ StrictMono f ∧
    (Meant (f 3) (t.label2value (.interval ⟨.num 2, .pinf, true, false⟩)) ↔
      Meant 3 (.interval ⟨.num 2, .pinf, true, false⟩)) := by
  obtain ⟨t, f, h1, h2, -, h3⟩ := C39_order [.num 1, .num 4] (by simp) (by simp)
  exact ⟨t, f, h1, h2, h3 (.interval ⟨.num 2, .pinf, true, false⟩) 3 (by simp)⟩

/-- A numeric type is refused for values that contain NaN or infinities. -/
theorem C39_refused (vs : List V) (h : ∃ v ∈ vs, ∀ r, v ≠ .num r) : numericType vs = none := by
  rw [numericType, if_neg]
  obtain ⟨v, hv, hr⟩ := h
  intro hc
  obtain ⟨r, e⟩ := hc v hv
  exact hr r e

example : numericType [.num 1, .nan] = none := C39_refused _ ⟨.nan, by simp, by simp⟩

/-- For no values at all the type is made, but the mean is NaN and so is every transformed number. -/
theorem C39_violated_no_values : ∃ t, numericType [] = some t ∧
    ∀ x : ℝ, t.label2value (.number (.num x)) = .number .nan := by
  refine ⟨_, by rw [numericType, if_pos (by simp)], fun x => ?_⟩
  simp [NType.label2value, mapArg, Proxy.getItem, Scaler.transform, fit, npMean, V.sub, V.divPos]

/-- NaN is not kept but becomes 0, in both directions. -/
theorem C39_violated_nan (vs : List V) (t : NType) (_ : numericType vs = some t) :
    t.label2value (.number .nan) = .number (.num 0) ∧ t.value2label (.number .nan) = .number (.num 0) :=
  ⟨rfl, rfl⟩

example : ∃ t, numericType [.num 1, .num 4] = some t ∧ t.label2value (.number .nan) = .number (.num 0) := by
  obtain ⟨t, h1, -⟩ := C39_labels [.num 1, .num 4] (by simp) (by simp)
  exact ⟨t, h1, (C39_violated_nan _ t h1).1⟩

end Verif.Sca
