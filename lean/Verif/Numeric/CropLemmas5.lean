import Verif.Numeric.CropLemmas4

/-! # Cropping a cdf -/

namespace Verif.Num

open Iv Iv.FP Fun

/-! ## The knots inside the interval -/

/-- The knots behind `a` up to `b`. -/
def knotsIn (a : ℤ) (b : FP) (l : List (ℤ × Fn)) : List (ℤ × Fn) :=
  l.filter (fun s => decide (a < s.1) && leB s.1 b)

theorem takeWhile_filter {b : FP} {a : ℤ} : ∀ {l : List (ℤ × Fn)}, Knots l → (∀ s ∈ l, a < s.1) →
    l.takeWhile (fun s => leB s.1 b) = knotsIn a b l
  | [], _, _ => rfl
  | (k, g) :: r, hk, ha => by
    have hk' := List.pairwise_cons.1 hk
    have ih := takeWhile_filter (b := b) (a := a) hk'.2 (fun s hs => ha s (by simp [hs]))
    have hak : a < k := ha (k, g) (by simp)
    simp only [knotsIn] at ih ⊢
    cases hc : leB k b with
    | true => simp [hc, hak, ih]
    | false =>
      simp only [List.takeWhile_cons, hc, List.filter_cons, Bool.and_false, Bool.false_eq_true, if_false]
      symm
      rw [List.filter_eq_nil_iff]
      intro s hs h
      simp only [Bool.and_eq_true, leB, decide_eq_true_eq, decide_eq_false_iff_not] at h hc
      have h1 : fin k ≤ fin s.1 := by
        have := hk'.1 s hs
        simp only at this
        simpa [FP.le_def, leb] using this.le
      exact hc (h1.trans h.2)

/-- Where the crop starts, for an included lower bound. -/
theorem startAt_inc {b : FP} {a : ℤ} : ∀ {l : List (ℤ × Fn)} {f : Fn}, Knots l →
    (startAt (fin a) f l).1 = tileAt f l a ∧
    (startAt (fin a) f l).2.takeWhile (fun s => leB s.1 b) = knotsIn a b l
  | [], f, _ => ⟨rfl, rfl⟩
  | (k, g) :: r, f, hk => by
    have hk' := List.pairwise_cons.1 hk
    by_cases hc : k ≤ a
    · have h1 : fin k ≤ fin a := by simpa [FP.le_def, leb] using hc
      simp only [startAt, if_pos h1, tileAt, if_neg (not_lt.2 hc)]
      obtain ⟨e1, e2⟩ := startAt_inc (b := b) (a := a) (l := r) (f := g) hk'.2
      refine ⟨e1, ?_⟩
      rw [e2]
      simp [knotsIn, not_lt.2 hc]
    · have h1 : ¬ fin k ≤ fin a := by simpa [FP.le_def, leb] using hc
      simp only [startAt, if_neg h1, tileAt, if_pos (not_le.1 hc), true_and]
      exact takeWhile_filter hk (fun s hs => by
        rcases List.mem_cons.1 hs with rfl | hs
        · exact not_le.1 hc
        · have := hk'.1 s hs; simp only at this; omega)

/-- Where the crop starts, for an excluded lower bound. -/
theorem startAt_exc {b : FP} {a : ℤ} (hab : fin a ≤ b) : ∀ {l : List (ℤ × Fn)} {f : Fn}, Knots l →
    ((startAt (fin (a - 1)) f l).1 = tileAt f l a ∧
      (startAt (fin (a - 1)) f l).2.takeWhile (fun s => leB s.1 b) = knotsIn a b l) ∨
    ((startAt (fin (a - 1)) f l).2.takeWhile (fun s => leB s.1 b) =
      (a, tileAt f l a) :: knotsIn a b l)
  | [], f, _ => .inl ⟨rfl, rfl⟩
  | (k, g) :: r, f, hk => by
    have hk' := List.pairwise_cons.1 hk
    by_cases hc : k ≤ a - 1
    · have h1 : fin k ≤ fin (a - 1) := by simpa [FP.le_def, leb] using hc
      simp only [startAt, if_pos h1, tileAt, if_neg (show ¬ a < k by omega)]
      have e : knotsIn a b ((k, g) :: r) = knotsIn a b r := by
        simp [knotsIn, show ¬ a < k by omega]
      rw [e]
      exact startAt_exc hab hk'.2
    · have h1 : ¬ fin k ≤ fin (a - 1) := by simpa [FP.le_def, leb] using hc
      simp only [startAt, if_neg h1]
      by_cases hka : k = a
      · subst hka
        right
        have e2 : tileAt f ((k, g) :: r) k = g := by
          cases r with
          | nil => simp [tileAt]
          | cons t r =>
            have := hk'.1 t (by simp)
            simp only at this
            simp [tileAt, this]
        have e1 : leB k b = true := by simpa [leB] using hab
        have e3 : knotsIn k b ((k, g) :: r) = knotsIn k b r := by simp [knotsIn]
        rw [e2, e3, List.takeWhile_cons, e1, if_pos rfl, takeWhile_filter hk'.2 (fun s hs => hk'.1 s hs)]
      · left
        have hak : a < k := by omega
        refine ⟨by simp [tileAt, hak], takeWhile_filter hk (fun s hs => ?_)⟩
        rcases List.mem_cons.1 hs with rfl | hs
        · exact hak
        · have := hk'.1 s hs; simp only at this; omega

theorem tileAt_knotsIn {b : FP} {a n : ℤ} (han : a ≤ n) (hnb : fin n ≤ b) : ∀ {l : List (ℤ × Fn)} {f : Fn},
    Knots l → tileAt (tileAt f l a) (knotsIn a b l) n = tileAt f l n
  | [], f, _ => rfl
  | (k, g) :: r, f, hk => by
    have hk' := List.pairwise_cons.1 hk
    by_cases hc : a < k
    · have hf : tileAt f ((k, g) :: r) a = f := by simp [tileAt, hc]
      rw [hf]
      have hr : ∀ s ∈ r, a < s.1 := fun s hs => by have := hk'.1 s hs; simp only at this; omega
      cases hb : leB k b with
      | true =>
        have e : knotsIn a b ((k, g) :: r) = (k, g) :: knotsIn a b r := by simp [knotsIn, hc, hb]
        rw [e]
        simp only [tileAt]
        by_cases hnk : n < k
        · simp [hnk]
        · rw [if_neg hnk, if_neg hnk]
          have hg : tileAt g r a = g := by
            cases r with
            | nil => rfl
            | cons t r => simp [tileAt, hr t (by simp)]
          have := tileAt_knotsIn han hnb (l := r) (f := g) hk'.2
          rwa [hg] at this
      | false =>
        have hnk : n < k := by
          simp only [leB, decide_eq_false_iff_not, not_le] at hb
          have := hnb.trans_lt hb
          simpa [FP.lt_def, leb] using this
        rw [← takeWhile_filter hk (a := a) (fun s hs => by
          rcases List.mem_cons.1 hs with rfl | hs
          · exact hc
          · exact hr s hs)]
        simp [hb, tileAt, hnk]
    · have e1 : tileAt f ((k, g) :: r) a = tileAt g r a := by simp [tileAt, hc]
      have e2 : tileAt f ((k, g) :: r) n = tileAt g r n := by simp [tileAt, show ¬ n < k by omega]
      have e3 : knotsIn a b ((k, g) :: r) = knotsIn a b r := by simp [knotsIn, hc]
      rw [e1, e2, e3]
      exact tileAt_knotsIn han hnb hk'.2

/-! ## Continuity and pieces of a single float -/

/-- The pieces between `x` and the last knot are continuous at the knots and no linear piece is a
single float, in terms of the function before each knot. -/
theorem run_of {val : ℤ → ℚ} : ∀ {l : List (ℤ × Fn)} {x : ℤ} {f : Fn}, Knots l → (∀ s ∈ l, x < s.1) →
    IsPl f → (∀ s ∈ l, IsPl s.2) →
    (∀ s ∈ l, ev (tileAt f l (s.1 - 1)) (val s.1) = ev s.2 (val s.1) ∧
      (IsLin (tileAt f l (s.1 - 1)) → s.1 - 1 ≠ x ∧ ∀ t ∈ l, t.1 ≠ s.1 - 1)) →
    Run val x f l
  | [], x, f, _, _, hf, _, _ => hf
  | (k, g) :: r, x, f, hk, hx, hf, hl, h => by
    have hk' := List.pairwise_cons.1 hk
    have h0 := h (k, g) (by simp)
    have e : tileAt f ((k, g) :: r) (k - 1) = f := by simp [tileAt]
    simp only [e] at h0
    refine ⟨hf, hx (k, g) (by simp), h0.1, fun hlin hkx => (h0.2 hlin).1 (by omega), ?_⟩
    refine run_of hk'.2 (fun s hs => hk'.1 s hs) (hl (k, g) (by simp)) (fun s hs => hl s (by simp [hs])) ?_
    intro s hs
    have hks := hk'.1 s hs
    simp only at hks
    have e2 : tileAt f ((k, g) :: r) (s.1 - 1) = tileAt g r (s.1 - 1) := by
      simp [tileAt, show ¬ s.1 - 1 < k by omega]
    have h1 := h s (by simp [hs])
    rw [e2] at h1
    refine ⟨h1.1, fun hlin => ⟨fun hc => ?_, fun t ht => (h1.2 hlin).2 t (by simp [ht])⟩⟩
    exact (h1.2 hlin).2 (k, g) (by simp) hc.symm

theorem IsLin.shift {f : Fn} {y : ℚ} : IsLin (shiftFn y f) ↔ IsLin f := by
  cases f <;> simp [IsLin, shiftFn]

theorem Run.shift {val : ℤ → ℚ} {y : ℚ} : ∀ {l : List (ℤ × Fn)} {x : ℤ} {f : Fn}, Run val x f l →
    Run val x (shiftFn y f) (shiftL y l)
  | [], _, _, h => IsPl.shift h y
  | (k, g) :: r, x, f, h => by
    refine ⟨h.1.shift y, h.2.1, ?_, fun hl => h.2.2.2.1 (IsLin.shift.1 hl), Run.shift h.2.2.2.2⟩
    rw [ev_shift h.1, ev_shift h.2.2.2.2.pl, h.2.2.1]

theorem Run.mrg {val : ℤ → ℚ} : ∀ {l : List (ℤ × Fn)} {x : ℤ} {f : Fn}, Run val x f l →
    Run val x f (mrg f l)
  | [], _, _, h => h
  | (k, g) :: r, x, f, h => by
    simp only [Num.mrg]
    by_cases e : g = f
    · subst e
      rw [if_pos rfl]
      have hr := h.2.2.2.2
      have hxk := h.2.1
      have ih := Run.mrg hr
      revert ih
      cases hm : Num.mrg g r with
      | nil => intro ih; exact ih
      | cons s t =>
        intro ih
        refine ⟨ih.1, ?_, ih.2.2.1, fun _ => ?_, ih.2.2.2.2⟩
        · have := ih.2.1; omega
        · have := ih.2.1; omega
    · rw [if_neg e]
      exact ⟨h.1, h.2.1, h.2.2.1, h.2.2.2.1, Run.mrg h.2.2.2.2⟩

theorem mrg_sub : ∀ {l : List (ℤ × Fn)} {f : Fn} {s : ℤ × Fn}, s ∈ mrg f l → s ∈ l
  | [], _, _, h => h
  | (k, g) :: r, f, s, h => by
    simp only [mrg] at h
    split at h
    · exact List.mem_cons_of_mem _ (mrg_sub h)
    · rcases List.mem_cons.1 h with rfl | h
      · simp
      · exact List.mem_cons_of_mem _ (mrg_sub h)

theorem mrg_head : ∀ {l : List (ℤ × Fn)} {f g : Fn} {k : ℤ} {r : List (ℤ × Fn)}, mrg f l = (k, g) :: r →
    g ≠ f
  | [], _, _, _, _, h => by simp [mrg] at h
  | (k', g') :: l, f, g, k, r, h => by
    simp only [mrg] at h
    split at h
    · exact mrg_head h
    · simp only [List.cons.injEq, Prod.mk.injEq] at h
      rename_i hne
      rw [← h.1.2]; exact hne

theorem tileAt_mrg {n : ℤ} : ∀ {l : List (ℤ × Fn)} {f : Fn}, Knots l →
    tileAt f (mrg f l) n = tileAt f l n
  | [], _, _ => rfl
  | (k, g) :: r, f, hk => by
    have hk' := List.pairwise_cons.1 hk
    simp only [mrg]
    by_cases e : g = f
    · subst e
      rw [if_pos rfl, tileAt_mrg hk'.2]
      simp only [tileAt]
      by_cases hnk : n < k
      · rw [if_pos hnk]
        cases r with
        | nil => rfl
        | cons t r =>
          have := hk'.1 t (by simp)
          simp only at this
          simp [tileAt, show n < t.1 by omega]
      · rw [if_neg hnk]
    · rw [if_neg e]
      simp only [tileAt, tileAt_mrg hk'.2]

theorem lastOf_mrg : ∀ {l : List (ℤ × Fn)} {f : Fn}, lastOf f (mrg f l) = lastOf f l
  | [], _ => rfl
  | (k, g) :: r, f => by
    simp only [mrg]
    by_cases e : g = f
    · subst e
      rw [if_pos rfl, lastOf_mrg]
      rfl
    · rw [if_neg e]
      simp only [lastOf, lastOf_mrg]

theorem lastOf_shift {y : ℚ} : ∀ {l : List (ℤ × Fn)} {f : Fn},
    lastOf (shiftFn y f) (shiftL y l) = shiftFn y (lastOf f l)
  | [], _ => rfl
  | (_, g) :: r, _ => lastOf_shift (l := r) (f := g)

theorem tileAt_shift {y : ℚ} {n : ℤ} : ∀ {l : List (ℤ × Fn)} {f : Fn},
    tileAt (shiftFn y f) (shiftL y l) n = shiftFn y (tileAt f l n)
  | [], _ => rfl
  | (k, g) :: r, f => by
    simp only [shiftL, List.map_cons, tileAt]
    split
    · rfl
    · exact tileAt_shift (l := r) (f := g)

theorem tileAt_last {n : ℤ} : ∀ {l : List (ℤ × Fn)} {f : Fn}, (∀ s ∈ l, s.1 ≤ n) →
    tileAt f l n = lastOf f l
  | [], _, _ => rfl
  | (k, g) :: r, f, h => by
    have := h (k, g) (by simp)
    simp only at this
    simp only [tileAt, if_neg (not_lt.2 this), lastOf]
    exact tileAt_last (fun s hs => h s (by simp [hs]))

end Verif.Num
