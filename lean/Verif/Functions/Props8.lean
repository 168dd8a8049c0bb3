import Verif.Functions.JaccardLemmas

/-! # C105: the Jaccard similarity of piecewise functions -/

namespace Verif.Fun

open Iv Iv.FP MeasureTheory

namespace PF

variable {val : ℤ → ℚ} {rnd : ℚ → ℤ} {f g : PF} {I : CS}

/-- The step functions `f` and `g` can be compared on `I`: both are defined at every float in `I`, and where `I` is
unbounded, they end in the constant 0. -/
structure Comparable (f g : PF) (I : CS) : Prop where
  linesL : f.Lines
  linesR : g.Lines
  stepsL : f.Steps
  stepsR : g.Steps
  connected : f.Connected ↔ g.Connected
  bounded : f.Bounded ∨ g.Bounded
  range : Norm I
  covers : ∀ n, I.Mem (fin n) → f.Covers n ∧ g.Covers n
  flatL : ∀ s ∈ f, (I.lower = ninf ∧ s.1.lower = ninf ∨ I.upper = pinf ∧ s.1.upper = pinf) → s.2 = .const 0
  flatR : ∀ s ∈ g, (I.lower = ninf ∧ s.1.lower = ninf ∨ I.upper = pinf ∧ s.1.upper = pinf) → s.2 = .const 0

/-- **C105 (partial).** The similarity of two step functions that are defined on the whole range is the area under the
smaller of the two divided by the area under the larger one.  It is NaN if the latter is 0 and the former, too.
Missing: functions that are not defined everywhere in the range (`C105_violated_domain`), and lines. -/
theorem C105_jaccard_partial (hv : StrictMono val) (hun : ∀ q, (∃ n, val n ≤ q) ∧ ∃ n, q < val n)
    (hr : Nearest val rnd) (h : Comparable f g I) :
    ∃ a b : ℚ, (a : ℝ) = ∫ x in span val I, min (PF.real val f x) (PF.real val g x) ∧
      (b : ℝ) = ∫ x in span val I, max (PF.real val f x) (PF.real val g x) ∧
      (b ≠ 0 → jaccard val rnd f g I = .ok (some (.fin (a / b)))) ∧
      (a = 0 → b = 0 → jaccard val rnd f g I = .ok none) := by
  obtain ⟨lo, a, e1, i1, -, h1⟩ := combine_area .min hv hun hr h.linesL h.linesR h.stepsL h.stepsR h.connected.1 h.bounded
    h.range h.covers h.flatL h.flatR
  obtain ⟨hi, b, e2, i2, -, h2⟩ := combine_area .max hv hun hr h.linesL h.linesR h.stepsL h.stepsR h.connected.1 h.bounded
    h.range h.covers h.flatL h.flatR
  simp only [if_true] at h1
  simp only [reduceCtorEq, if_false] at h2
  refine ⟨a, b, h1, h2, fun hb => ?_, fun ha hb => ?_⟩
  · simp [jaccard, e1, e2, i1, i2, bind, Except.bind, pure, Except.pure, Fn.flDiv, hb]
  · simp [jaccard, e1, e2, i1, i2, bind, Except.bind, pure, Except.pure, Fn.flDiv, hb, ha]

/-- **C105.** The similarity is symmetric. -/
theorem C105_symmetric (hv : StrictMono val) (hun : ∀ q, (∃ n, val n ≤ q) ∧ ∃ n, q < val n)
    (hr : Nearest val rnd) (h : Comparable f g I) (hpos : 0 < ∫ x in span val I, max (PF.real val f x) (PF.real val g x)) :
    jaccard val rnd f g I = jaccard val rnd g f I := by
  obtain ⟨a, b, h1, h2, h3, -⟩ := C105_jaccard_partial hv hun hr h
  obtain ⟨a', b', h1', h2', h3', -⟩ := C105_jaccard_partial (f := g) (g := f) hv hun hr
    ⟨h.linesR, h.linesL, h.stepsR, h.stepsL, h.connected.symm, h.bounded.symm, h.range, fun n hn => (h.covers n hn).symm,
      h.flatR, h.flatL⟩
  have ea : a = a' := by
    have : (a : ℝ) = a' := by rw [h1, h1']; simp only [min_comm]
    exact_mod_cast this
  have eb : b = b' := by
    have : (b : ℝ) = b' := by rw [h2, h2']; simp only [max_comm]
    exact_mod_cast this
  have hb : b ≠ 0 := by
    rintro rfl
    rw [← h2] at hpos
    simp at hpos
  rw [h3 hb, h3' (eb ▸ hb), ea, eb]

/-- **C105.** The similarity of two functions without negative values lies between 0 and 1, and it is 1 exactly if the
functions have the same value at every float of the range. -/
theorem C105_range (hv : StrictMono val) (hun : ∀ q, (∃ n, val n ≤ q) ∧ ∃ n, q < val n)
    (hr : Nearest val rnd) (h : Comparable f g I) (hpos : 0 < ∫ x in span val I, max (PF.real val f x) (PF.real val g x))
    (hf : ∀ s ∈ f, ∀ v, s.2 = .const v → 0 ≤ v) (hg : ∀ s ∈ g, ∀ v, s.2 = .const v → 0 ≤ v) :
    ∃ j : ℚ, jaccard val rnd f g I = .ok (some (.fin j)) ∧ 0 ≤ j ∧ j ≤ 1 ∧
      (j = 1 ↔ ∀ n, I.Mem (fin n) → f.eval val n = g.eval val n) := by
  obtain ⟨lo, a, e1, i1, m1, h1⟩ := combine_area .min hv hun hr h.linesL h.linesR h.stepsL h.stepsR h.connected.1 h.bounded
    h.range h.covers h.flatL h.flatR
  obtain ⟨hi, b, e2, i2, m2, h2⟩ := combine_area .max hv hun hr h.linesL h.linesR h.stepsL h.stepsR h.connected.1 h.bounded
    h.range h.covers h.flatL h.flatR
  simp only [if_true] at h1 m1
  simp only [reduceCtorEq, if_false] at h2 m2
  have hb : 0 < b := by rw [← h2] at hpos; exact_mod_cast hpos
  have nn : ∀ p : PF, (∀ s ∈ p, ∀ v, s.2 = .const v → 0 ≤ v) → p.Steps → ∀ x, 0 ≤ PF.real val p x := by
    intro p hp hs x
    induction p with
    | nil => exact le_rfl
    | cons s p ih =>
      rw [PF.real]
      split
      · obtain ⟨v, e⟩ := hs s (by simp)
        have := hp s (by simp) v e
        rw [e, Fn.real]
        exact_mod_cast this
      · exact ih (fun s h => hp s (by simp [h])) (fun s h => hs s (by simp [h]))
  have ha : 0 ≤ a := by
    have : (0 : ℝ) ≤ a := by
      rw [h1]
      exact integral_nonneg (fun x => le_min (nn f hf h.stepsL x) (nn g hg h.stepsR x))
    exact_mod_cast this
  have hab : a ≤ b := by
    have : (a : ℝ) ≤ b := by
      rw [h1, h2]
      exact setIntegral_mono m1 m2 (fun x => min_le_max)
    exact_mod_cast this
  have ms := measurable_span val I
  have hdiff : (b : ℝ) - a = ∫ x in span val I, |PF.real val f x - PF.real val g x| := by
    rw [h1, h2, ← integral_sub m2 m1]
    congr 1
    funext x
    exact max_sub_min_eq_abs' _ _
  refine ⟨a / b, ?_, div_nonneg ha hb.le, (div_le_one hb).2 hab, ?_⟩
  · simp [jaccard, e1, e2, i1, i2, bind, Except.bind, pure, Except.pure, Fn.flDiv, hb.ne']
  rw [div_eq_one_iff_eq hb.ne']
  constructor
  · intro hEq n hn
    obtain ⟨x, hx⟩ := steps_eval (val := val) h.linesL.disj h.stepsL (h.covers n hn).1
    obtain ⟨y, hy⟩ := steps_eval (val := val) h.linesR.disj h.stepsR (h.covers n hn).2
    rw [hx, hy]
    by_contra hne
    have hxy : x ≠ y := fun e => hne (by rw [e])
    have hlt : val n < val (n + 1) := hv (by omega)
    have hlt' : (val n : ℝ) < val (n + 1) := by exact_mod_cast hlt
    have hsub : Set.Ico (val n : ℝ) (val (n + 1)) ⊆ span val I := fun z hz => (cut_span hv h.range hz.1 hz.2).2 hn
    have hcell : ∫ z in Set.Ico (val n : ℝ) (val (n + 1)), |PF.real val f z - PF.real val g z| =
        (val (n + 1) - val n) * |(x : ℝ) - y| := by
      rw [setIntegral_congr_fun measurableSet_Ico (g := fun _ => |(x : ℝ) - y|)]
      · rw [setIntegral_const]
        simp [hlt'.le]
      · intro z hz
        show |PF.real val f z - PF.real val g z| = _
        rw [real_cell hv h.linesL.halfOpen h.linesL.disj h.stepsL hx hz.1 hz.2,
          real_cell hv h.linesR.halfOpen h.linesR.disj h.stepsR hy hz.1 hz.2]
    have hint : IntegrableOn (fun z => |PF.real val f z - PF.real val g z|) (span val I) := by
      have := m2.sub m1
      refine this.congr_fun (fun z _ => ?_) ms
      exact max_sub_min_eq_abs' _ _
    have hmono := setIntegral_mono_set hint (Filter.Eventually.of_forall (fun z => abs_nonneg _))
      (Filter.Eventually.of_forall hsub : Set.Ico (val n : ℝ) (val (n + 1)) ≤ᵐ[volume] span val I)
    rw [hcell, ← hdiff, hEq, sub_self] at hmono
    have h3 : (0 : ℝ) < |(x : ℝ) - y| := abs_pos.2 (sub_ne_zero.2 (by exact_mod_cast hxy))
    have h4 := mul_pos (sub_pos.2 hlt') h3
    linarith
  · intro hall
    have : (b : ℝ) - a = 0 := by
      rw [hdiff]
      rw [setIntegral_congr_fun ms (g := fun _ => (0 : ℝ))]
      · simp
      · intro x hx
        obtain ⟨n, hn1, hn2⟩ := exists_cell hv hun x
        have hnI := (cut_span hv h.range hn1 hn2).1 hx
        obtain ⟨u, hu⟩ := steps_eval (val := val) h.linesL.disj h.stepsL (h.covers n hnI).1
        have hu' := hu
        rw [hall n hnI] at hu'
        show |PF.real val f x - PF.real val g x| = 0
        rw [real_cell hv h.linesL.halfOpen h.linesL.disj h.stepsL hu hn1 hn2,
          real_cell hv h.linesR.halfOpen h.linesR.disj h.stepsR hu' hn1 hn2]
        simp
    have : (b : ℝ) = a := by linarith
    exact_mod_cast this.symm

/-- **C105 fails for functions with different domains.** What lies outside the common domain is ignored: the functions
that are 1 on `[0, 2)` and on `[1, 3)` have the similarity 1, though they share a third of their area. -/
theorem C105_violated_domain : Lines [(co 0 2, .const 1)] ∧ Lines [(co 1 3, .const 1)] ∧
    jaccard ival irnd [(co 0 2, .const 1)] [(co 1 3, .const 1)] = .ok (some (.fin 1)) ∧
    (∀ x : ℚ, (if 0 ≤ x ∧ x < 2 then (1 : ℚ) else 0) ≠ (if 1 ≤ x ∧ x < 3 then 1 else 0) ↔ 0 ≤ x ∧ x < 1 ∨ 2 ≤ x ∧ x < 3) := by
  refine ⟨⟨by simp, by decide +kernel, by simp [PF.Disj], by simp⟩, ⟨by simp, by decide +kernel, by simp [PF.Disj], by simp⟩,
    by decide +kernel, ?_⟩
  intro x
  split_ifs <;> simp <;> grind

/-! ## Non-vacuity -/

/-- 2 on `[0, 1)`, 1 on `[1, 3)`, and 0 elsewhere. -/
abbrev stairs : PF := [(⟨ninf, fin 0, .exc, .exc⟩, .const 0), (co 0 1, .const 2), (co 1 3, .const 1),
  (⟨fin 3, pinf, .inc, .exc⟩, .const 0)]

/-- 1 on `[0, 4)` and 0 elsewhere. -/
abbrev plateau : PF := [(⟨ninf, fin 0, .exc, .exc⟩, .const 0), (co 0 4, .const 1), (⟨fin 4, pinf, .inc, .exc⟩, .const 0)]

example : jaccard ival irnd stairs plateau = .ok (some (.fin (3 / 5))) := by decide +kernel

example : jaccard ival irnd stairs stairs (co 0 3) = .ok (some (.fin 1)) := by decide +kernel

/-- For the example: step functions on the whole line, with pieces in order. -/
theorem whole_lines {p : PF} (hne : p ≠ []) (hh : ∀ s ∈ p, Norm s.1)
    (hb : p.Pairwise (fun s t => s.1.uppermost < t.1.lowermost)) (hs : p.Steps) : p.Lines :=
  ⟨hne, hh, PF.sorted_disj (hb.imp (fun h => PF.before_of_lt h)), fun s h => .inl (hs s h)⟩

example : Comparable stairs plateau CS.allnumbers := by
  have s1 : stairs.Steps := by simp [PF.Steps]
  have s2 : plateau.Steps := by simp [PF.Steps]
  have c1 : ∀ n, stairs.Covers n := by
    intro n
    simp [PF.Covers, CS.Mem, co, FP.lt_def, leb]
    omega
  have c2 : ∀ n, plateau.Covers n := by
    intro n
    simp [PF.Covers, CS.Mem, co, FP.lt_def, leb]
    omega
  refine ⟨whole_lines (by simp) (by decide +kernel) (by decide +kernel) s1,
    whole_lines (by simp) (by decide +kernel) (by decide +kernel) s2, s1, s2,
    ⟨fun _ _ b _ _ _ _ _ => c2 b, fun _ _ b _ _ _ _ _ => c1 b⟩, ?_, by decide, fun n _ => ⟨c1 n, c2 n⟩, ?_, ?_⟩
  · exact .inl ⟨(co 0 1, .const 2), by simp, .inl (by simp [co])⟩
  · simp [co]
  · simp [co]

end PF

end Verif.Fun
