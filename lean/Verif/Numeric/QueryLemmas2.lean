import Verif.Numeric.QueryLemmas
import Mathlib.Algebra.Order.Group.Int

/-! # Probabilities from a continuous cdf -/

namespace Verif.Num

open Iv Iv.FP Fun

/-- A continuous cdf by its knots; it is 0 before the first and 1 from the last on. -/
structure ContCdf (val : ℤ → ℚ) (L : List (ℤ × Fn)) (F : ℤ → ℚ) : Prop where
  knots : Knots L
  pieces : ∀ s ∈ L, (∃ v, s.2 = .const v) ∨ ∃ m c, 0 < m ∧ s.2 = .lin m c
  last : ∃ z, L.getLast? = some (z, .const 1)
  cont : ∀ s ∈ L, (tileAt (.const 0) L (s.1 - 1)).eval (val s.1) = s.2.eval (val s.1)
  eval : ∀ n, (tileAt (.const 0) L n).eval (val n) = some (F n)

theorem tileAt_mem {n : ℤ} : ∀ {L : List (ℤ × Fn)} {f : Fn}, tileAt f L n = f ∨ ∃ s ∈ L, tileAt f L n = s.2
  | [], _ => .inl rfl
  | (k, g) :: r, f => by
    simp only [tileAt]
    by_cases h : n < k
    · rw [if_pos h]; exact .inl rfl
    · rw [if_neg h]
      rcases tileAt_mem (n := n) (L := r) (f := g) with h1 | ⟨s, hs, h1⟩
      · exact .inr ⟨(k, g), by simp, h1⟩
      · exact .inr ⟨s, by simp [hs], h1⟩

namespace ContCdf

variable {val : ℤ → ℚ} {L : List (ℤ × Fn)} {F : ℤ → ℚ}

theorem piece (h : ContCdf val L F) (n : ℤ) :
    (∃ v, tileAt (.const 0) L n = .const v) ∨ ∃ m c, 0 < m ∧ tileAt (.const 0) L n = .lin m c := by
  rcases tileAt_mem (n := n) (L := L) (f := .const 0) with h1 | ⟨s, hs, h1⟩
  · exact .inl ⟨0, h1⟩
  · rw [h1]; exact h.pieces s hs

theorem step (h : ContCdf val L F) (n : ℤ) :
    (tileAt (.const 0) L n).eval (val (n + 1)) = some (F (n + 1)) := by
  rcases tileAt_succ (n := n) (f := .const 0) h.knots with ⟨s, hs, h1, h2⟩ | h1
  · have := h.cont s hs
    rw [h1, show n + 1 - 1 = n by omega] at this
    rw [this, ← h2]; exact h.eval _
  · rw [← h1]; exact h.eval _

theorem flat (h : ContCdf val L F) {n : ℤ} (hs : sl (tileAt (.const 0) L n) ≤ 0) : F (n + 1) = F n := by
  have h1 := h.step n
  have h2 := h.eval n
  rcases h.piece n with ⟨v, e⟩ | ⟨m, c, hm, e⟩
  · rw [e] at h1 h2; simp only [Fn.eval, Option.some.injEq] at h1 h2; rw [← h1, ← h2]
  · rw [e] at hs; simp only [sl] at hs; exact absurd hm (not_lt.2 hs)

theorem mono (hval : StrictMono val) (h : ContCdf val L F) : Monotone F := by
  refine monotone_int_of_le_succ (fun n => ?_)
  have h1 := h.step n
  have h2 := h.eval n
  rcases h.piece n with ⟨v, e⟩ | ⟨m, c, hm, e⟩
  · rw [e] at h1 h2; simp only [Fn.eval, Option.some.injEq] at h1 h2; rw [← h1, ← h2]
  · rw [e] at h1 h2; simp only [Fn.eval, Option.some.injEq] at h1 h2; rw [← h1, ← h2]
    have := hval (show n < n + 1 by omega)
    nlinarith

theorem run (h : ContCdf val L F) {a b : ℤ} (hab : a ≤ b)
    (hs : ∀ n, a ≤ n → n < b → sl (tileAt (.const 0) L n) ≤ 0) : F b = F a := by
  induction b, hab using Int.leInduction with
  | base => rfl
  | succ b hb ih =>
    rw [h.flat (hs b hb (by omega))]
    exact ih (fun n h1 h2 => hs n h1 (by omega))

theorem zero (h : ContCdf val L F) : ∃ N, ∀ n, n ≤ N → F n = 0 := by
  obtain ⟨z, hz⟩ := h.last
  cases hL : L with
  | nil => rw [hL] at hz; simp at hz
  | cons s r =>
    refine ⟨s.1 - 1, fun n hn => ?_⟩
    have h2 := h.eval n
    rw [hL] at h2
    simp only [tileAt, show n < s.1 by omega, if_true, Fn.eval, Option.some.injEq] at h2
    exact h2.symm

theorem one (h : ContCdf val L F) : ∃ N, ∀ n, N ≤ n → F n = 1 := by
  obtain ⟨z, hz⟩ := h.last
  obtain ⟨L', rfl⟩ := List.getLast?_eq_some_iff.1 hz
  refine ⟨z, fun n hn => ?_⟩
  have h2 := h.eval n
  rw [tileAt_append h.knots, if_neg (by omega)] at h2
  simpa [Fn.eval] using h2.symm

theorem simple (h : ContCdf val L F) : ∀ s ∈ L, Simple s.2 := by
  intro s hs
  rcases h.pieces s hs with ⟨v, e⟩ | ⟨m, c, -, e⟩ <;> rw [e] <;> rfl

theorem cdfAt_fin (h : ContCdf val L F) (n : ℤ) :
    cdfAt val (tile ninf (.const 0) L pinf) (fin n) = .ok (F n) := by
  rw [cdfAt, tile_at (by simp [FP.le_def, leb]) (by simp [FP.lt_def, leb])]
  simp only [evalFP, h.eval]

theorem endLow (h : ContCdf val L F) {m : ℤ} : ∀ {x : FP}, x ≤ fin m →
    ∃ A, A ≤ m ∧ F A = below F x ∧ x ≤ fin A
  | ninf, _ => by
    obtain ⟨N, hN⟩ := h.zero
    exact ⟨min N m, min_le_right _ _, hN _ (min_le_left _ _), FP.ninf_le _⟩
  | fin a, ha => ⟨a, by simpa [FP.le_def, leb] using ha, rfl, le_rfl⟩
  | pinf, ha => by simp [FP.le_def, leb] at ha

theorem endHigh (h : ContCdf val L F) {m : ℤ} : ∀ {x : FP}, fin m ≤ x →
    ∃ B, m ≤ B ∧ F B = below F x ∧ fin B ≤ x
  | pinf, _ => by
    obtain ⟨N, hN⟩ := h.one
    exact ⟨max N m, le_max_right _ _, hN _ (le_max_left _ _), FP.le_pinf _⟩
  | fin a, ha => ⟨a, by simpa [FP.le_def, leb] using ha, rfl, le_rfl⟩
  | ninf, ha => by simp [FP.le_def, leb] at ha

end ContCdf

theorem mem_bounds {I : CS} {m : ℤ} (h : I.Mem (fin m)) : I.lower ≤ fin m ∧ fin m ≤ I.upper := by
  obtain ⟨h1, h2⟩ := h
  refine ⟨?_, ?_⟩
  · rcases h1 with h1 | ⟨h1, -⟩
    · exact h1.le
    · exact h1.le
  · rcases h2 with h2 | ⟨h2, -⟩
    · exact h2.le
    · exact h2.le

theorem intersects_overlap {s I : CS} {n m : ℤ} (hI : I.Mem (fin m)) (h1 : s.lower ≤ fin n) (h2 : fin n < s.upper)
    (h3 : I.lower ≤ fin n) (h4 : fin n < I.upper) : s.intersects I = true := by
  have he := CS.isempty_false_of_mem hI
  unfold CS.intersects
  rw [he]
  have a1 : ¬ (I.lower > s.upper ∨ I.upper < s.lower) := by
    rintro (h | h)
    · exact absurd (lt_trans (lt_of_le_of_lt h3 h2) h) (lt_irrefl _)
    · exact absurd (lt_trans (lt_of_le_of_lt h1 h4) h) (lt_irrefl _)
  have a2 : ¬ (s.lower = I.upper ∧ (I.right = .exc ∨ s.left = .exc)) := by
    rintro ⟨h, -⟩; exact absurd (lt_of_le_of_lt h1 h4) (by rw [h]; exact lt_irrefl _)
  have a3 : ¬ (s.upper = I.lower ∧ (s.right = .exc ∨ I.left = .exc)) := by
    rintro ⟨h, -⟩; exact absurd (lt_of_le_of_lt h3 h2) (by rw [h]; exact lt_irrefl _)
  simp [a1, a2, a3]

theorem massTo_eq {val : ℤ → ℚ} {L : List (ℤ × Fn)} {F : ℤ → ℚ}
    (h : ∀ n, cdfAt val (tile ninf (.const 0) L pinf) (fin n) = .ok (F n)) {m : ℤ} :
    ∀ {x : FP}, fin m ≤ x → massTo val (tile ninf (.const 0) L pinf) x = .ok (below F x)
  | pinf, _ => rfl
  | fin a, _ => by simpa [massTo, below] using h a
  | ninf, ha => by simp [FP.le_def, leb] at ha

theorem massFrom_eq {val : ℤ → ℚ} {L : List (ℤ × Fn)} {F : ℤ → ℚ}
    (h : ∀ n, cdfAt val (tile ninf (.const 0) L pinf) (fin n) = .ok (F n)) {m : ℤ} :
    ∀ {x : FP}, x ≤ fin m → massFrom val (tile ninf (.const 0) L pinf) x = .ok (below F x)
  | ninf, _ => rfl
  | fin a, _ => by simpa [massFrom, below] using h a
  | pinf, ha => by simp [FP.le_def, leb] at ha

/-- The probability of an interval that contains a float. -/
theorem ContCdf.p {val : ℤ → ℚ} {L : List (ℤ × Fn)} {F : ℤ → ℚ} (hval : StrictMono val) (h : ContCdf val L F)
    (h2 : 2 ≤ L.length) (hmid : ∃ n, 0 < F n ∧ F n < 1) {I : CS} {m : ℤ} (hm : I.Mem (fin m)) :
    pInterval val (tile ninf (.const 0) L pinf) I = .ok (below F I.upper - below F I.lower) := by
  have hlen : (tile ninf (.const 0) L pinf).length ≠ 2 := by rw [tile_length]; omega
  obtain ⟨hb1, hb2⟩ := mem_bounds hm
  have hcover : ∀ n, 0 < sl (tileAt (.const 0) L n) →
      ∃ s ∈ gtZero none (densOf (tile ninf (.const 0) L pinf)),
        s.lower ≤ fin n ∧ fin n < s.upper ∧ s.left = .inc ∧ s.right = .exc := fun n hn =>
    gtZero_cover h.knots (fun s _ => by simp [FP.lt_def, leb]) (FP.ninf_le _) (fun l hl => by cases hl) hn
  rw [pInterval, pdf_eq (tile_simple (simple_const _) h.simple) hlen]
  simp only [bind, Except.bind]
  rw [massTo_eq h.cdfAt_fin hb2, massFrom_eq h.cdfAt_fin hb1]
  generalize gtZero none (densOf (tile ninf (.const 0) L pinf)) = space at *
  obtain ⟨A, hA1, hA2, hA3⟩ := h.endLow hb1
  obtain ⟨B, hB1, hB2, hB3⟩ := h.endHigh hb2
  by_cases hi : RS.intersects space [I] = true
  · simp only [hi, Bool.not_true, Bool.false_eq_true, if_false]
    by_cases h0 : below F I.upper - below F I.lower = 0
    · rw [if_pos h0, h0, if_neg]
      intro hc
      rw [List.all_eq_true] at hc
      have hin : ∀ n, 0 < sl (tileAt (.const 0) L n) → I.Mem (fin n) := by
        intro n hn
        obtain ⟨s, hs, s1, s2, s3, s4⟩ := hcover n hn
        refine CS.containsInterval_sound (hc s hs) ⟨?_, .inl s2⟩
        rcases lt_or_eq_of_le s1 with h' | h'
        · exact .inl h'
        · exact .inr ⟨h', s3⟩
      have hlow : below F I.lower = 0 := by
        cases hx : I.lower with
        | ninf => rfl
        | pinf => rw [hx] at hb1; simp [FP.le_def, leb] at hb1
        | fin a =>
          obtain ⟨N, hN⟩ := h.zero
          have := h.run (a := min N a) (b := a) (min_le_right _ _) (fun n _ hn => by
            by_contra hc'
            have := (mem_bounds (hin n (not_le.1 hc'))).1
            rw [hx] at this
            simp [FP.le_def, leb] at this; omega)
          exact this.trans (hN _ (min_le_left _ _))
      have hup : below F I.upper = 0 := by rw [hlow] at h0; linarith
      cases hx : I.upper with
      | ninf => rw [hx] at hb2; simp [FP.le_def, leb] at hb2
      | pinf => rw [hx] at hup; simp [below] at hup
      | fin b =>
        rw [hx] at hup
        obtain ⟨N, hN⟩ := h.one
        have h1 := h.run (a := b + 1) (b := max N (b + 1)) (le_max_right _ _) (fun n hn _ => by
            by_contra hc'
            have := (mem_bounds (hin n (not_le.1 hc'))).2
            rw [hx] at this
            simp [FP.le_def, leb] at this; omega)
        rw [hN _ (le_max_left _ _)] at h1
        obtain ⟨n, hn0, hn1⟩ := hmid
        have hmono := h.mono hval
        rcases le_or_gt n b with hn | hn
        · have := hmono hn
          simp only [below] at hup
          linarith
        · have := hmono (show b + 1 ≤ n by omega)
          linarith
    · rw [if_neg h0]
  · have hi' : RS.intersects space [I] = false := by simpa using hi
    simp only [hi', Bool.not_false, if_true]
    have : F B = F A := h.run (by omega) (fun n h3 h4 => by
      by_contra hc
      obtain ⟨s, hs, s1, s2, -⟩ := hcover n (not_le.1 hc)
      refine hi (List.any_eq_true.2 ⟨s, hs, List.any_eq_true.2 ⟨I, by simp, ?_⟩⟩)
      refine intersects_overlap hm s1 s2 (le_trans hA3 (by simpa [FP.le_def, leb] using h3))
        (lt_of_lt_of_le (by simpa [FP.lt_def, leb] using h4) hB3))
    rw [← hA2, ← hB2, this, sub_self]

end Verif.Num
