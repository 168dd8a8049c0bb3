import Verif.Functions.Lemmas4
import Verif.Functions.Spec2

/-!
# Lemmas about areas
-/

namespace Verif.Fun

open Iv Iv.FP Iv.CS MeasureTheory

theorem integral_lin (m c a b : ℝ) :
    ∫ x in a..b, (m * x + c) = (1 / 2 * m * b ^ 2 + c * b) - (1 / 2 * m * a ^ 2 + c * a) := by
  rw [intervalIntegral.integral_add (Continuous.intervalIntegrable (by fun_prop) _ _)
    (Continuous.intervalIntegrable (by fun_prop) _ _), intervalIntegral.integral_const_mul]
  simp
  ring

theorem Fn.continuous_real (f : Fn) : Continuous f.real := by
  cases f <;> (unfold Fn.real; fun_prop)

/-- The integral of a constant or linear function over a finite range. -/
theorem Fn.integrate_fin {f : Fn} (hf : ∃ m c, f = .lin m c ∨ f = .const c) {a b : ℚ} (hab : a ≤ b) :
    ∃ q, f.integrate (.fin a) (.fin b) = .ok (some (.fin q)) ∧ (q : ℝ) = ∫ x in (a : ℝ)..b, f.real x := by
  have hle : XQ.le (.fin a) (.fin b) = true := by simp [XQ.le, hab]
  obtain ⟨m, c, rfl | rfl⟩ := hf
  · by_cases he : b = a
    · subst he
      exact ⟨0, by simp [Fn.integrate, hle], by simp⟩
    · refine ⟨(1 / 2 * m * b ^ 2 + c * b) - (1 / 2 * m * a ^ 2 + c * a), ?_, ?_⟩
      · simp [Fn.integrate, hle, he]
      · simp only [Fn.real]
        rw [integral_lin]; push_cast; ring
  · refine ⟨c * (b - a), ?_, ?_⟩
    · simp only [Fn.integrate, hle]
      by_cases hc : c = 0
      · simp [hc]
      · simp [hc, Fn.scale, Fn.width]
    · simp only [Fn.real]
      rw [intervalIntegral.integral_const]
      simp [mul_comm]

namespace PF

theorem measurable_span (val : ℤ → ℚ) (i : CS) : MeasurableSet (span val i) := by
  have h1 : MeasurableSet {x : ℝ | ∀ n, i.lower = fin n → (val n : ℝ) ≤ x} := by
    simp only [Set.ofPred_forall]
    exact MeasurableSet.iInter fun n => MeasurableSet.iInter fun _ => measurableSet_Ici
  have h2 : MeasurableSet {x : ℝ | ∀ n, i.upper = fin n → x < (val n : ℝ)} := by
    simp only [Set.ofPred_forall]
    exact MeasurableSet.iInter fun n => MeasurableSet.iInter fun _ => measurableSet_Iio
  have h3 : MeasurableSet {x : ℝ | i.lower ≠ pinf ∧ i.upper ≠ ninf} := MeasurableSet.const _
  exact h1.inter (h2.inter h3)

/-- `x` is not below the bound `b`. -/
def LB (val : ℤ → ℚ) : FP → ℝ → Prop
  | ninf, _ => True
  | fin n, x => (val n : ℝ) ≤ x
  | pinf, _ => False

/-- `x` is below the bound `b`. -/
def UB (val : ℤ → ℚ) (b : FP) (x : ℝ) : Prop := ¬ LB val b x

theorem mem_span {val : ℤ → ℚ} {i : CS} {x : ℝ} :
    x ∈ span val i ↔ LB val i.lower x ∧ UB val i.upper x := by
  obtain ⟨l, u, a, b⟩ := i
  cases l <;> cases u <;> simp [span, LB, UB]

theorem LB_mono {val : ℤ → ℚ} (hval : StrictMono val) {a b : FP} (h : a ≤ b) {x : ℝ}
    (hb : LB val b x) : LB val a x := by
  cases a <;> cases b <;> simp_all [LB, FP.le_def, leb]
  exact le_trans (by exact_mod_cast hval.monotone h) hb

theorem LB_max {val : ℤ → ℚ} (hval : StrictMono val) {a b : FP} {x : ℝ} :
    LB val (max a b) x ↔ LB val a x ∧ LB val b x := by
  rcases le_total a b with h | h
  · rw [max_eq_right h]; exact ⟨fun hb => ⟨LB_mono hval h hb, hb⟩, fun h => h.2⟩
  · rw [max_eq_left h]; exact ⟨fun hb => ⟨hb, LB_mono hval h hb⟩, fun h => h.1⟩

theorem UB_min {val : ℤ → ℚ} (hval : StrictMono val) {a b : FP} {x : ℝ} :
    UB val (min a b) x ↔ UB val a x ∧ UB val b x := by
  unfold UB
  rcases le_total a b with h | h
  · rw [min_eq_left h]; exact ⟨fun hb => ⟨hb, fun h' => hb (LB_mono hval h h')⟩, fun h => h.1⟩
  · rw [min_eq_right h]; exact ⟨fun hb => ⟨fun h' => hb (LB_mono hval h h'), hb⟩, fun h => h.2⟩

theorem inter_norm {val : ℤ → ℚ} (hval : StrictMono val) {a b : CS} (ha : Norm a) (hb : Norm b) :
    ∃ c, a.intersection b = .ok c ∧
      (c.isempty = true ∧ span val a ∩ span val b = ∅ ∨
        Norm c ∧ c.isempty = false ∧ span val c = span val a ∩ span val b) := by
  rcases halfOpen_intersection ha hb with ⟨-, h, e⟩ | ⟨-, -, -, br, e, hn⟩
  · refine ⟨_, e, .inl ⟨by decide, ?_⟩⟩
    ext x
    simp only [Set.mem_inter_iff, mem_span, Set.mem_empty_iff_false, iff_false, not_and]
    rintro ⟨h1, h2⟩ h3 h4
    rcases h with h | h
    · exact h2 (LB_mono hval h h3)
    · exact h4 (LB_mono hval h h1)
  · refine ⟨_, e, .inr ⟨hn, (norm_ne hn).2.2, ?_⟩⟩
    ext x
    simp only [Set.mem_inter_iff, mem_span, LB_max hval, UB_min hval]
    grind

theorem real_zero {val : ℤ → ℚ} {p : PF} {x : ℝ} (h : ∀ s ∈ p, x ∉ span val s.1) :
    PF.real val p x = 0 := by
  induction p with
  | nil => rfl
  | cons s p ih =>
    rw [PF.real, if_neg (h s (by simp)), ih (fun t ht => h t (by simp [ht]))]

/-- Disjoint half-open intervals have disjoint spans. -/
theorem span_disjoint {val : ℤ → ℚ} (hval : StrictMono val) {a b : CS} (ha : Norm a) (hb : Norm b)
    (hd : a.Disjoint b) : span val a ∩ span val b = ∅ := by
  obtain ⟨c, hc, ⟨-, h⟩ | ⟨h1, h2, h3⟩⟩ := inter_norm hval ha hb
  · exact h
  · exfalso
    obtain ⟨n, hn⟩ := (norm_ne h1).mem
    obtain ⟨c', hc', -, hm⟩ := CS.intersection_ok a b (norm_ne ha).1 (norm_ne hb).1
    rw [hc] at hc'; cases hc'
    exact hd _ ((hm _).1 hn)

theorem real_cons {val : ℤ → ℚ} (hval : StrictMono val) {s : CS × Fn} {p : PF}
    (hn : ∀ t ∈ s :: p, Norm t.1) (hd : Disj (s :: p)) :
    PF.real val (s :: p) = fun x => (span val s.1).indicator s.2.real x + PF.real val p x := by
  funext x
  rw [PF.real]
  split
  · rename_i h
    rw [Set.indicator_of_mem h, real_zero, add_zero]
    intro t ht hx
    have := span_disjoint hval (hn s (by simp)) (hn t (by simp [ht])) ((List.pairwise_cons.1 hd).1 t ht)
    exact (Set.mem_empty_iff_false x).1 (this ▸ ⟨h, hx⟩)
  · rename_i h
    rw [Set.indicator_of_notMem h, zero_add]

theorem span_fin {val : ℤ → ℚ} {i : CS} {a b : ℤ} (h1 : i.lower = fin a) (h2 : i.upper = fin b) :
    span val i = Set.Ico (val a : ℝ) (val b) := by
  ext x; simp [mem_span, LB, UB, h1, h2]

/-- The area of one piece within the range. -/
theorem piece_area {val : ℤ → ℚ} (hval : StrictMono val) {c : CS} (hc : Norm c) {f : Fn}
    (hf : ∃ m c, f = .lin m c ∨ f = .const c)
    (hinf : c.lower = ninf ∨ c.upper = pinf → f = .const 0) :
    IntegrableOn f.real (span val c) ∧
    ∃ q, f.integrate (pos val c.lower) (pos val c.upper) = .ok (some (.fin q)) ∧
      (q : ℝ) = ∫ x in span val c, f.real x := by
  by_cases h : c.lower = ninf ∨ c.upper = pinf
  · rw [hinf h]
    have hz : (Fn.const 0).real = fun _ => 0 := by funext x; simp [Fn.real]
    rw [hz]
    refine ⟨integrableOn_zero, 0, ?_, by simp⟩
    have : XQ.le (pos val c.lower) (pos val c.upper) = true := by
      have h1 := hc.1
      rcases h with h | h
      · rw [h]; simp [pos, XQ.le]
      · rw [h]; cases c.lower <;> simp [pos, XQ.le]
    simp [Fn.integrate, this]
  · simp only [not_or] at h
    have h1 := hc.1
    obtain ⟨a, ha⟩ : ∃ a, c.lower = fin a := by
      cases hl : c.lower with
      | ninf => exact absurd hl h.1
      | fin a => exact ⟨a, rfl⟩
      | pinf => rw [hl] at h1; exact absurd h1 (not_lt.2 (le_pinf _))
    obtain ⟨b, hb⟩ : ∃ b, c.upper = fin b := by
      cases hl : c.upper with
      | pinf => exact absurd hl h.2
      | fin a => exact ⟨a, rfl⟩
      | ninf => rw [hl] at h1; exact absurd h1 (not_lt.2 (ninf_le _))
    have hab : a < b := by rw [ha, hb] at h1; simpa [FP.lt_def, leb] using h1
    have hv : val a ≤ val b := le_of_lt (hval hab)
    rw [span_fin ha hb, ha, hb]
    refine ⟨?_, ?_⟩
    · exact (Continuous.integrableOn_Icc f.continuous_real).mono_set Set.Ico_subset_Icc_self
    · obtain ⟨q, hq, e⟩ := Fn.integrate_fin hf hv
      refine ⟨q, hq, ?_⟩
      rw [e, intervalIntegral.integral_of_le (by exact_mod_cast hv), integral_Ico_eq_integral_Ioc]

/-- The loop of `integrate` adds the area of the pieces within the range. -/
theorem integrateLoop_spec {val : ℤ → ℚ} (hval : StrictMono val) {I : CS} (hI : Norm I) :
    ∀ {p : PF} (area : ℚ), (∀ s ∈ p, Norm s.1) → p.Disj →
      (∀ s ∈ p, ∃ m c, s.2 = .lin m c ∨ s.2 = .const c) →
      (∀ s ∈ p, (I.lower = ninf ∧ s.1.lower = ninf ∨ I.upper = pinf ∧ s.1.upper = pinf) →
        s.2 = .const 0) →
      IntegrableOn (PF.real val p) (span val I) ∧
      ∃ q, integrateLoop val I (some (.fin area)) p = .ok (some (.fin q)) ∧
        (q : ℝ) = area + ∫ x in span val I, PF.real val p x
  | [], area, _, _, _, _ => by
    refine ⟨integrableOn_zero, area, rfl, ?_⟩
    have : PF.real val [] = fun _ => 0 := rfl
    simp [this]
  | (i, f) :: p, area, hn, hd, hf, hinf => by
    have hni : Norm i := hn (i, f) (by simp)
    have hfi := hf (i, f) (by simp)
    have hii := hinf (i, f) (by simp)
    have ih := fun a => integrateLoop_spec hval hI (p := p) a (fun s hs => hn s (by simp [hs])) hd.tail
      (fun s hs => hf s (by simp [hs])) (fun s hs => hinf s (by simp [hs]))
    obtain ⟨c, hc, hcase⟩ := inter_norm hval hI hni
    rw [real_cons hval hn hd]
    have hms := measurable_span val i
    rcases hcase with ⟨he, hs⟩ | ⟨hcn, he, hs⟩
    · have h0 : ∫ x in span val I, (span val i).indicator f.real x = 0 := by
        rw [setIntegral_indicator hms, hs]; simp
      have hint : IntegrableOn ((span val i).indicator f.real) (span val I) := by
        rw [IntegrableOn, integrable_indicator_iff hms, IntegrableOn, Measure.restrict_restrict hms,
          Set.inter_comm, hs]
        simp
      obtain ⟨g1, q, g2, g3⟩ := ih area
      refine ⟨hint.add g1, q, ?_, ?_⟩
      · simp only [integrateLoop, hc, bind, Except.bind, he, if_true, g2]
      · rw [integral_add hint g1, h0, zero_add]; exact g3
    · obtain ⟨k1, w, k2, k3⟩ := piece_area hval hcn hfi (by
        intro hcc
        apply hii
        rcases halfOpen_intersection hI hni with ⟨-, -, e⟩ | ⟨-, -, -, br, e, -⟩
        · rw [hc] at e; cases e; simp [CS.emptyset] at hcc
        · rw [hc] at e; cases e
          simp only at hcc
          rcases hcc with h | h
          · left
            have := ninf_le I.lower
            have := ninf_le i.lower
            rw [max_def] at h
            grind
          · right
            have := le_pinf I.upper
            have := le_pinf i.upper
            rw [min_def] at h
            grind)
      have hint : IntegrableOn ((span val i).indicator f.real) (span val I) := by
        rw [IntegrableOn, integrable_indicator_iff hms, IntegrableOn, Measure.restrict_restrict hms,
          Set.inter_comm, ← hs]
        exact k1
      obtain ⟨g1, q, g2, g3⟩ := ih (area + w)
      refine ⟨hint.add g1, q, ?_, ?_⟩
      · simp only [integrateLoop, hc, bind, Except.bind, he, k2, Fn.flAdd]
        exact g2
      · rw [integral_add hint g1, setIntegral_indicator hms, ← hs, ← k3, g3]
        push_cast; ring

end PF
end Verif.Fun
