import Verif.Functions.CombineSpec
import Verif.Functions.ExtremaLemmas
import Mathlib.Tactic.Linarith

/-!
# Lemmas about `combine`
-/

namespace Verif.Fun

open Iv Iv.FP

namespace PF

/-- `i` is a part of `s` (for half-open intervals). -/
def Sub (i s : CS) : Prop := s.lower ≤ i.lower ∧ i.upper ≤ s.upper

theorem Sub.refl (i : CS) : Sub i i := ⟨le_refl _, le_refl _⟩

theorem Sub.trans {i j k : CS} (h : Sub i j) (h' : Sub j k) : Sub i k := ⟨le_trans h'.1 h.1, le_trans h.2 h'.2⟩

theorem Sub.mem {i s : CS} (h : Sub i s) (hi : i.HalfOpen) (hs : s.HalfOpen) {n : ℤ} (hm : i.Mem (fin n)) :
    s.Mem (fin n) := by
  rw [hi.mem_iff] at hm
  rw [hs.mem_iff]
  exact ⟨le_trans h.1 hm.1, lt_of_lt_of_le hm.2 h.2⟩

theorem Sub.hit {i s : CS} (h : Sub i s) (hi : i.HalfOpen) (hs : s.HalfOpen) {c : FP} (hc : hit c i = true) :
    PF.hit c s = true := by
  cases c with
  | fin n =>
    rw [hit_fin, CS.containsValue_iff] at hc ⊢
    exact h.mem hi hs hc
  | ninf =>
    rw [hit_ninf hi] at hc
    rw [hit_ninf hs]
    have := h.1
    rw [hc] at this
    exact le_antisymm this (ninf_le _)
  | pinf =>
    rw [hit_pinf hi] at hc
    rw [hit_pinf hs]
    have := h.2
    rw [hc] at this
    exact le_antisymm (le_pinf _) this

/-- What `chop` cuts off a half-open interval is half-open. -/
theorem chopLoop_halfOpen : ∀ (ps : List FP) (i : CS), i.HalfOpen → ∀ c ∈ i.chopLoop ps, c.HalfOpen ∧ Sub c i
  | [], i, hi => by
    intro c hc
    simp only [CS.chopLoop, hi.nonempty, Bool.false_eq_true, if_false, List.mem_singleton] at hc
    subst hc
    exact ⟨hi, Sub.refl c⟩
  | p :: ps, i, hi => by
    intro c hc
    simp only [CS.chopLoop] at hc
    by_cases hp : i.containsValue p = true
    · have hm := (CS.containsValue_iff ..).1 hp
      obtain ⟨k, rfl⟩ := norm_mem_fin hi hm
      rw [hi.mem_iff] at hm
      have hr : CS.HalfOpen ({ i with lower := fin k, left := .inc } : CS) := ⟨hm.2, hi.2.1, .inr ⟨by simp, rfl⟩⟩
      have hsub : Sub ({ i with lower := fin k, left := .inc } : CS) i := ⟨hm.1, le_refl _⟩
      simp only [hp, if_true, hr.nonempty, Bool.false_eq_true, if_false] at hc
      have hrest : ∀ c ∈ ({ i with lower := fin k, left := .inc } : CS).chopLoop ps, c.HalfOpen ∧ Sub c i := by
        intro c hc
        obtain ⟨h1, h2⟩ := chopLoop_halfOpen ps _ hr c hc
        exact ⟨h1, h2.trans hsub⟩
      by_cases he : (⟨i.lower, fin k, i.left, .exc⟩ : CS).isempty = true
      · rw [if_pos he] at hc
        exact hrest c hc
      · rw [if_neg he] at hc
        rcases List.mem_cons.1 hc with rfl | hc
        · refine ⟨⟨?_, rfl, hi.2.2⟩, le_refl _, le_of_lt hm.2⟩
          refine lt_of_le_of_ne hm.1 ?_
          intro e
          replace e : i.lower = fin k := e
          apply he
          have h3 := hi.2.2
          rw [e] at h3
          simp only [reduceCtorEq, false_and, not_false_eq_true, ne_eq, true_and, false_or] at h3
          simp [CS.isempty, e, h3, CS.isclosed, CS.itype, Br.code]
        · exact hrest c hc
    · simp only [hp, Bool.false_eq_true, if_false] at hc
      exact chopLoop_halfOpen ps i hi c hc

theorem chop_halfOpen {i : CS} (hi : i.HalfOpen) (ps : List FP) : ∀ c ∈ i.chop ps, c.HalfOpen ∧ Sub c i :=
  chopLoop_halfOpen _ i hi

/-- Chopping at an inner float gives two parts. -/
theorem chop_one {i : CS} (hi : i.HalfOpen) {k : ℤ} (hk : i.Mem (fin k)) (hne : fin k ≠ i.lowermost) :
    i.chop [fin k] = [⟨i.lower, fin k, i.left, .exc⟩, ⟨fin k, i.upper, .inc, i.right⟩] ∧
      CS.HalfOpen ⟨i.lower, fin k, i.left, .exc⟩ ∧ CS.HalfOpen ⟨fin k, i.upper, .inc, i.right⟩ := by
  have hm := (hi.mem_iff k).1 hk
  rw [hi.lowermost] at hne
  have h1 : CS.HalfOpen ⟨i.lower, fin k, i.left, .exc⟩ := ⟨lt_of_le_of_ne hm.1 (Ne.symm hne), rfl, hi.2.2⟩
  have h2 : CS.HalfOpen ⟨fin k, i.upper, .inc, i.right⟩ := ⟨hm.2, hi.2.1, .inr ⟨by simp, rfl⟩⟩
  refine ⟨?_, h1, h2⟩
  have hc : i.containsValue (fin k) = true := (CS.containsValue_iff ..).2 hk
  simp [CS.chop, CS.chopLoop, hc, h1.nonempty, h2.nonempty]

/-- An interval inside the domain that no bound of a piece cuts is a part of one piece. -/
theorem part_of_piece {f : PF} (hf : ∀ s ∈ f, s.1.HalfOpen) {i : CS} (hi : i.HalfOpen)
    (hcov : ∀ n : ℤ, i.Mem (fin n) → f.Covers n)
    (hcut : ∀ p ∈ cutPoints f, ∀ x y, i.Mem x → i.Mem y → ¬ (x < p ∧ p ≤ y)) : ∃ s ∈ f, Sub i s.1 := by
  obtain ⟨n, hn⟩ := ho_mem hi
  obtain ⟨s, hs, hm⟩ := hcov n hn
  have hso := hf s hs
  have hn' := (hi.mem_iff n).1 hn
  have hm' := (hso.mem_iff n).1 hm
  have hcp : ∀ a : ℤ, s.1.lower = fin a ∨ s.1.upper = fin a → fin a ∈ cutPoints f := by
    intro a ha
    unfold cutPoints
    rw [List.mem_filter, List.mem_flatMap]
    refine ⟨⟨s, hs, ?_⟩, by simp [FP.isInf]⟩
    rw [hso.lowermost, hso.uppermost, up_dn]
    rcases ha with h | h <;> simp [h]
  refine ⟨s, hs, ?_, ?_⟩
  · by_contra hc
    rw [not_le] at hc
    cases hl : s.1.lower with
    | ninf => rw [hl] at hc; exact absurd hc (not_lt.2 (ninf_le _))
    | pinf => rw [hl] at hm'; exact absurd hm'.1 (by simp [FP.le_def, leb])
    | fin a =>
      rw [hl] at hc hm'
      refine hcut (fin a) (hcp a (.inl hl)) (fin (a - 1)) (fin n) ?_ hn ⟨by simp [FP.lt_def, leb], hm'.1⟩
      rw [hi.mem_iff]
      constructor
      · cases hil : i.lower with
        | ninf => exact ninf_le _
        | pinf => rw [hil] at hc; exact absurd hc (not_lt.2 (le_pinf _))
        | fin j => rw [hil] at hc; simp [FP.lt_def, FP.le_def, leb] at hc ⊢; omega
      · refine lt_trans (lt_of_lt_of_le ?_ hm'.1) hn'.2
        simp [FP.lt_def, leb]
  · by_contra hc
    rw [not_le] at hc
    cases hl : s.1.upper with
    | pinf => rw [hl] at hc; exact absurd hc (not_lt.2 (le_pinf _))
    | ninf => rw [hl] at hm'; exact absurd hm'.2 (by simp [FP.lt_def, leb])
    | fin b =>
      rw [hl] at hc hm'
      refine hcut (fin b) (hcp b (.inr hl)) (fin n) (fin b) hn ?_ ⟨hm'.2, le_refl _⟩
      rw [hi.mem_iff]
      exact ⟨le_trans hn'.1 (le_of_lt hm'.2), hc⟩

theorem Nearest.le {val : ℤ → ℚ} {rnd : ℚ → ℤ} (hv : StrictMono val) (h : Nearest val rnd) {q : ℚ} {b : ℤ}
    (hq : q ≤ val b) : rnd q ≤ b := by
  by_contra hc
  rw [not_le] at hc
  have h1 := h q b
  have h2 := hv hc
  rw [abs_of_nonpos (by linarith), abs_of_nonpos (by linarith)] at h1
  linarith

theorem Nearest.ge {val : ℤ → ℚ} {rnd : ℚ → ℤ} (hv : StrictMono val) (h : Nearest val rnd) {q : ℚ} {a : ℤ}
    (hq : val a ≤ q) : a ≤ rnd q := by
  by_contra hc
  rw [not_le] at hc
  have h1 := h q a
  have h2 := hv hc
  rw [abs_of_nonneg (by linarith), abs_of_nonneg (by linarith)] at h1
  linarith

/-- The float nearest to the middle is an inner float if there is one. -/
theorem Nearest.middle {val : ℤ → ℚ} {rnd : ℚ → ℤ} (hv : StrictMono val) (h : Nearest val rnd) {a b : ℤ} (hab : a ≤ b) :
    a ≤ rnd ((val a + val b) * (1 / 2)) ∧ rnd ((val a + val b) * (1 / 2)) ≤ b ∧
      (a + 2 ≤ b → a < rnd ((val a + val b) * (1 / 2)) ∧ rnd ((val a + val b) * (1 / 2)) < b) := by
  have h0 := hv.monotone hab
  have h1 : a ≤ rnd ((val a + val b) * (1 / 2)) := h.ge hv (by linarith)
  have h2 : rnd ((val a + val b) * (1 / 2)) ≤ b := h.le hv (by linarith)
  refine ⟨h1, h2, fun h3 => ?_⟩
  have h4 : val a < val (a + 1) := hv (by omega)
  have h5 : val (a + 1) < val b := hv (by omega)
  have h6 := h ((val a + val b) * (1 / 2)) (a + 1)
  have h7 : |(val a + val b) * (1 / 2) - val (a + 1)| < (val b - val a) * (1 / 2) := by
    rw [abs_lt]
    constructor <;> linarith
  constructor
  · refine lt_of_le_of_ne h1 ?_
    intro e
    rw [← e, abs_of_nonneg (by linarith)] at h6
    linarith
  · refine lt_of_le_of_ne h2 ?_
    intro e
    rw [e, abs_of_nonpos (by linarith)] at h6
    linarith

/-- The three shapes of a half-open interval other than the whole line, and their centers. -/
theorem center_cases {val : ℤ → ℚ} {rnd : ℚ → ℤ} (hv : StrictMono val) (hr : Nearest val rnd) {i : CS}
    (hi : i.HalfOpen) (hw : ¬ (i.lower = ninf ∧ i.upper = pinf)) :
    (i.lower = ninf ∧ center val rnd i = some ninf ∧ hit ninf i = true) ∨
    (i.upper = pinf ∧ center val rnd i = some pinf ∧ hit pinf i = true) ∨
    ∃ a b k : ℤ, i.lower = fin a ∧ i.upper = fin (b + 1) ∧ i.lowermost = fin a ∧ i.uppermost = fin b ∧ a ≤ b ∧
      center val rnd i = some (fin k) ∧ a ≤ k ∧ k ≤ b ∧ (a + 2 ≤ b → a < k ∧ k < b) := by
  cases hl : i.lower with
  | pinf => have := hi.1; rw [hl] at this; exact absurd this (not_lt.2 (le_pinf _))
  | ninf =>
    left
    refine ⟨rfl, ?_, (hit_ninf hi).2 hl⟩
    unfold center
    rw [hi.lowermost, hi.uppermost, hl]
    cases hu : i.upper with
    | pinf => exact absurd ⟨hl, hu⟩ hw
    | ninf => have := hi.1; rw [hu] at this; exact absurd this (not_lt.2 (ninf_le _))
    | fin b => simp [FP.dn]
  | fin a =>
    right
    cases hu : i.upper with
    | pinf =>
      left
      refine ⟨rfl, ?_, (hit_pinf hi).2 hu⟩
      unfold center
      rw [hi.lowermost, hi.uppermost, hl, hu]
      simp [FP.dn]
    | ninf => have := hi.1; rw [hu] at this; exact absurd this (not_lt.2 (ninf_le _))
    | fin b =>
      right
      have hab : a ≤ b - 1 := by
        have := hi.1
        rw [hl, hu] at this
        simp [FP.lt_def, leb] at this
        omega
      obtain ⟨h1, h2, h3⟩ := hr.middle hv hab
      refine ⟨a, b - 1, _, rfl, by simp, by rw [hi.lowermost, hl], by rw [hi.uppermost, hu]; rfl, hab, ?_, h1, h2, h3⟩
      unfold center
      rw [hi.lowermost, hi.uppermost, hl, hu]
      simp [FP.dn]

end PF

end Verif.Fun
