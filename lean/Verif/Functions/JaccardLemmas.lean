import Verif.Functions.Jaccard
import Verif.Functions.Props6
import Verif.Functions.ApproxLemmas7

/-! # Lemmas about the Jaccard similarity of step functions -/

namespace Verif.Fun

open Iv Iv.FP Iv.CS MeasureTheory

namespace PF

variable {val : ℤ → ℚ} {rnd : ℚ → ℤ} {f g p : PF}

/-- Between two neighbouring floats, a half-open interval contains all numbers or none. -/
theorem cut_span (hv : StrictMono val) {i : CS} (hi : Norm i) {n : ℤ} {x : ℝ} (h1 : (val n : ℝ) ≤ x)
    (h2 : x < (val (n + 1) : ℝ)) : x ∈ span val i ↔ i.Mem (fin n) := by
  rw [mem_span, hi.mem_iff n]
  have hle : ∀ a : ℤ, (val a : ℝ) ≤ x ↔ a ≤ n := by
    intro a
    constructor
    · intro h
      by_contra hc
      have : val (n + 1) ≤ val a := hv.monotone (by omega)
      have : (val (n + 1) : ℝ) ≤ val a := by exact_mod_cast this
      linarith
    · intro h
      have : (val a : ℝ) ≤ val n := by exact_mod_cast hv.monotone h
      linarith
  refine and_congr ?_ ?_
  · cases i.lower <;> simp [LB, FP.le_def, leb, hle]
  · cases i.upper <;> simp [LB, UB, FP.lt_def, leb, hle]

/-- A step function is constant between two neighbouring floats. -/
theorem real_cell (hv : StrictMono val) (hp : ∀ s ∈ p, Norm s.1) (hd : p.Disj) (hs : p.Steps) {n : ℤ} {v : ℚ}
    (he : p.eval val n = .ok (some v)) {x : ℝ} (h1 : (val n : ℝ) ≤ x) (h2 : x < (val (n + 1) : ℝ)) :
    PF.real val p x = v := by
  rw [eval_ok_iff hd] at he
  obtain ⟨s, hsm, hm, hv'⟩ := he
  induction p with
  | nil => simp at hsm
  | cons t p ih =>
    rw [PF.real]
    by_cases h : x ∈ span val t.1
    · rw [if_pos h]
      have := (cut_span hv (hp t (by simp)) h1 h2).1 h
      obtain rfl := disj_unique hd (by simp) hsm this hm
      obtain ⟨w, hw⟩ := hs t (by simp)
      rw [hw] at hv' ⊢
      simp only [Fn.eval, Option.some.injEq] at hv'
      rw [Fn.real, hv']
    · rw [if_neg h]
      rcases List.mem_cons.1 hsm with rfl | hsm
      · exact absurd ((cut_span hv (hp s (by simp)) h1 h2).2 hm) h
      · exact ih (fun s hs => hp s (by simp [hs])) hd.tail (fun s hs' => hs s (by simp [hs'])) hsm

theorem exists_cell (hv : StrictMono val) (hun : ∀ q, (∃ n, val n ≤ q) ∧ ∃ n, q < val n) (x : ℝ) :
    ∃ n, (val n : ℝ) ≤ x ∧ x < (val (n + 1) : ℝ) := by
  obtain ⟨q1', hq1', hq1''⟩ := exists_rat_btwn (show x - 1 < x by linarith)
  obtain ⟨q2, hq2, -⟩ := exists_rat_btwn (show x < x + 1 by linarith)
  obtain ⟨a, ha⟩ := (hun q1').1
  obtain ⟨b, hb⟩ := (hun q2).2
  have ha' : (val a : ℝ) ≤ x := by
    have : (val a : ℝ) ≤ q1' := by exact_mod_cast ha
    linarith
  have hb' : x < (val b : ℝ) := by
    have : (q2 : ℝ) < val b := by exact_mod_cast hb
    linarith
  obtain ⟨n, hn1, hn2⟩ := Int.exists_greatest_of_bdd (P := fun n => (val n : ℝ) ≤ x)
    ⟨b, fun z hz => by
      by_contra hc
      have : (val b : ℝ) ≤ val z := by exact_mod_cast hv.monotone (by omega : b ≤ z)
      linarith⟩ ⟨a, ha'⟩
  refine ⟨n, hn1, ?_⟩
  by_contra hc
  have := hn2 (n + 1) (not_lt.1 hc)
  omega

theorem steps_eval (hd : p.Disj) (hs : p.Steps) {n : ℤ} (h : p.Covers n) : ∃ v, p.eval val n = .ok (some v) := by
  obtain ⟨s, hsm, hm⟩ := h
  obtain ⟨v, hv⟩ := hs s hsm
  exact ⟨v, (eval_ok_iff hd).2 ⟨s, hsm, hm, by rw [hv]; rfl⟩⟩

/-- The finite bounds of a function are bounded. -/
theorem exists_bound (p : PF) : ∃ N : ℤ, ∀ s ∈ p, ∀ a, s.1.lower = fin a ∨ s.1.upper = fin a → -N < a ∧ a < N := by
  induction p with
  | nil => exact ⟨0, by simp⟩
  | cons s p ih =>
    obtain ⟨N, hN⟩ := ih
    have one : ∀ x : FP, ∃ M : ℤ, ∀ a, x = fin a → -M < a ∧ a < M := by
      intro x
      cases x with
      | fin a => exact ⟨|a| + 1, fun b h => by cases h; exact abs_lt.1 (by omega)⟩
      | ninf => exact ⟨0, by simp⟩
      | pinf => exact ⟨0, by simp⟩
    obtain ⟨M1, h1⟩ := one s.1.lower
    obtain ⟨M2, h2⟩ := one s.1.upper
    refine ⟨max N (max M1 M2), fun t ht a ha => ?_⟩
    rcases List.mem_cons.1 ht with rfl | ht
    · rcases ha with ha | ha
      · have := h1 a ha; omega
      · have := h2 a ha; omega
    · have := hN t ht a ha; omega

/-- Unbounded pieces within the range are zero. -/
def Flat (p : PF) (I : CS) : Prop :=
  ∀ s ∈ p, (I.lower = ninf ∧ s.1.lower = ninf ∨ I.upper = pinf ∧ s.1.upper = pinf) → s.2 = .const 0

/-- Far out, the value is zero. -/
theorem Flat.far (hd : p.Disj) (hp : ∀ s ∈ p, Norm s.1) {I : CS} (hf : p.Flat I) {N : ℤ}
    (hN : ∀ s ∈ p, ∀ a, s.1.lower = fin a ∨ s.1.upper = fin a → -N < a ∧ a < N) {n : ℤ}
    (hn : I.upper = pinf ∧ N ≤ n ∨ I.lower = ninf ∧ n ≤ -N) (hc : p.Covers n) : p.eval val n = .ok (some 0) := by
  obtain ⟨s, hs, hm⟩ := hc
  refine (eval_ok_iff hd).2 ⟨s, hs, hm, ?_⟩
  have hm' := ((hp s hs).mem_iff n).1 hm
  rw [hf s hs]
  · rfl
  · rcases hn with ⟨h1, h2⟩ | ⟨h1, h2⟩
    · refine .inr ⟨h1, ?_⟩
      cases hu : s.1.upper with
      | pinf => rfl
      | ninf => rw [hu] at hm'; simp [FP.lt_def, leb] at hm'
      | fin a =>
        have := hN s hs a (.inr hu)
        rw [hu] at hm'
        have := hm'.2
        simp only [FP.lt_def, leb, decide_eq_false_iff_not] at this
        omega
    · refine .inl ⟨h1, ?_⟩
      cases hu : s.1.lower with
      | ninf => rfl
      | pinf => rw [hu] at hm'; simp [FP.le_def, leb] at hm'
      | fin a =>
        have := hN s hs a (.inl hu)
        rw [hu] at hm'
        have := hm'.1
        simp only [FP.le_def, leb, decide_eq_true_eq] at this
        omega

theorem op_zero (op : Op) : op.of 0 0 = 0 := by cases op <;> simp [Op.of]

theorem const_of_steps {P : PF} (h : P.Steps) : ∀ s ∈ P, (fun F : Fn => ∃ v, F = .const v) s.2 := h

/-- The integral of the pointwise minimum or maximum of two step functions. -/
theorem combine_area (op : Op) (hv : StrictMono val) (hun : ∀ q, (∃ n, val n ≤ q) ∧ ∃ n, q < val n)
    (hr : Nearest val rnd) (hf : f.Lines) (hg : g.Lines) (hfs : f.Steps) (hgs : g.Steps)
    (hc : f.Connected → g.Connected) (hb : f.Bounded ∨ g.Bounded) {I : CS} (hI : Norm I)
    (hcov : ∀ n, I.Mem (fin n) → f.Covers n ∧ g.Covers n) (hff : f.Flat I) (hgf : g.Flat I) :
    ∃ r q, combine val rnd op f g = .ok r ∧ r.integrate val I = .ok (some (.fin q)) ∧
      IntegrableOn (fun x => if op = .min then min (PF.real val f x) (PF.real val g x)
        else max (PF.real val f x) (PF.real val g x)) (span val I) ∧
      (q : ℝ) = ∫ x in span val I, if op = .min then min (PF.real val f x) (PF.real val g x)
        else max (PF.real val f x) (PF.real val g x) := by
  obtain ⟨r, e, h2, h3⟩ := combine_value op hv hr hf hg hfs.constEnds hgs.constEnds hc hb
  have hR : ∀ s ∈ f, ∀ t ∈ g, ¬ (s.1.lower = ninf ∧ s.1.upper = pinf ∧ t.1.lower = ninf ∧ t.1.upper = pinf) := by
    rintro s hs t ht ⟨h1, h2, h3, h4⟩
    rcases hb with h | h
    · exact hf.notWhole h s hs ⟨h1, h2⟩
    · exact hg.notWhole h t ht ⟨h3, h4⟩
  obtain ⟨q', r', e', -, -, -, hrd, hrh, -⟩ := combine_spec (op := op) hv hr hf.halfOpen hf.disj hf.isStraight hf.nonempty
    hg.halfOpen hg.disj hg.isStraight hg.nonempty hc hR
  rw [e] at e'
  cases e'
  have hrs : r.Steps := combine_fns (P := fun F : Fn => ∃ v, F = .const v) (const_of_steps hfs) (const_of_steps hgs) e
  have hval : ∀ n x y, f.eval val n = .ok (some x) → g.eval val n = .ok (some y) → r.eval val n = .ok (some (op.of x y)) := by
    intro n x y hx hy
    rcases h2 n x y hx hy with h | ⟨h, -⟩
    · exact h
    · exact absurd ⟨hfs, hgs⟩ h
  obtain ⟨N1, hN1⟩ := exists_bound f
  obtain ⟨N2, hN2⟩ := exists_bound g
  obtain ⟨N3, hN3⟩ := exists_bound r
  obtain ⟨N4, hN4⟩ := exists_bound [(I, Fn.undef)]
  have hN4 := hN4 (I, Fn.undef) (by simp)
  simp only at hN4
  have hI' := fun n => hI.mem_iff n
  have hflat : r.Flat I := by
    intro s hs hinf
    obtain ⟨v, hsv⟩ := hrs s hs
    have hsn := (hrh s hs).mem_iff
    have key : ∀ n, I.Mem (fin n) → s.1.Mem (fin n) →
        (I.upper = pinf ∧ max N1 N2 ≤ n ∨ I.lower = ninf ∧ n ≤ - max N1 N2) → s.2 = .const 0 := by
      intro n hnI hns hn
      have hcv := hcov n hnI
      have e1 := hff.far (val := val) hf.disj hf.halfOpen hN1 (n := n) (hn.imp (fun h => ⟨h.1, by omega⟩) (fun h => ⟨h.1, by omega⟩)) hcv.1
      have e2 := hgf.far (val := val) hg.disj hg.halfOpen hN2 (n := n) (hn.imp (fun h => ⟨h.1, by omega⟩) (fun h => ⟨h.1, by omega⟩)) hcv.2
      have e3 := hval n 0 0 e1 e2
      rw [op_zero] at e3
      have e4 : r.eval val n = .ok (some v) := (eval_ok_iff hrd).2 ⟨s, hs, hns, by rw [hsv]; rfl⟩
      rw [e3] at e4
      simp only [Except.ok.injEq, Option.some.injEq] at e4
      rw [hsv, ← e4]
    rcases hinf with ⟨h1, h2⟩ | ⟨h1, h2⟩
    · set n := min (-max N1 N2) (min (-N3) (-N4)) with hn
      refine key n ?_ ?_ (.inr ⟨h1, by omega⟩)
      · rw [hI', h1]
        refine ⟨ninf_le _, ?_⟩
        cases hu : I.upper with
        | pinf => simp [FP.lt_def, leb]
        | ninf => have := hI.1; rw [hu] at this; cases hl : I.lower <;> simp [hl, FP.lt_def, leb] at this
        | fin b => have := hN4 b (.inr hu); simp [FP.lt_def, leb]; omega
      · rw [hsn, h2]
        refine ⟨ninf_le _, ?_⟩
        cases hu : s.1.upper with
        | pinf => simp [FP.lt_def, leb]
        | ninf => have := (hrh s hs).1; rw [hu] at this; cases hl : s.1.lower <;> simp [hl, FP.lt_def, leb] at this
        | fin b => have := hN3 s hs b (.inr hu); simp [FP.lt_def, leb]; omega
    · set n := max (max N1 N2) (max N3 N4) with hn
      refine key n ?_ ?_ (.inl ⟨h1, by omega⟩)
      · rw [hI', h1]
        refine ⟨?_, by simp [FP.lt_def, leb]⟩
        cases hu : I.lower with
        | ninf => exact ninf_le _
        | pinf => have := hI.1; rw [hu] at this; cases hl : I.upper <;> simp [hl, FP.lt_def, leb] at this
        | fin b => have := hN4 b (.inl hu); simp [FP.le_def, leb]; omega
      · rw [hsn, h2]
        refine ⟨?_, by simp [FP.lt_def, leb]⟩
        cases hu : s.1.lower with
        | ninf => exact ninf_le _
        | pinf => have := (hrh s hs).1; rw [hu] at this; cases hl : s.1.upper <;> simp [hl, FP.lt_def, leb] at this
        | fin b => have := hN3 s hs b (.inl hu); simp [FP.le_def, leb]; omega
  obtain ⟨hint, q, hq, hqv⟩ := integrateLoop_spec hv hI 0 hrh hrd
    (fun s hs => by obtain ⟨v, h⟩ := hrs s hs; exact ⟨0, v, .inr h⟩) hflat
  have heq : Set.EqOn (PF.real val r) (fun x => if op = .min then min (PF.real val f x) (PF.real val g x)
        else max (PF.real val f x) (PF.real val g x)) (span val I) := by
    intro x hx
    obtain ⟨n, hn1, hn2⟩ := exists_cell hv hun x
    have hnI := (cut_span hv hI hn1 hn2).1 hx
    obtain ⟨hc1, hc2⟩ := hcov n hnI
    obtain ⟨a, ha⟩ := steps_eval (val := val) hf.disj hfs hc1
    obtain ⟨b, hb'⟩ := steps_eval (val := val) hg.disj hgs hc2
    have h := hval n a b ha hb'
    show PF.real val r x = _
    simp only [real_cell hv hrh hrd hrs h hn1 hn2, real_cell hv hf.halfOpen hf.disj hfs ha hn1 hn2,
      real_cell hv hg.halfOpen hg.disj hgs hb' hn1 hn2]
    cases op <;> simp [Op.of]
  refine ⟨r, q, e, hq, hint.congr_fun heq (measurable_span val I), ?_⟩
  rw [hqv, setIntegral_congr_fun (measurable_span val I) heq]
  simp

end PF

end Verif.Fun
