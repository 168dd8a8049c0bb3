import Verif.Numeric.CropLemmas6

/-! # Cropping a cdf: the result -/

namespace Verif.Num

open Iv Iv.FP Fun

theorem evalFP_shift {val : ℤ → ℚ} {f : Fn} (hf : IsPl f) {b : FP} {y beta : ℚ}
    (h : evalFP val f b = .ok beta) : evalFP val (shiftFn y f) b = .ok (beta + y) := by
  cases b with
  | fin n =>
    rw [hf.evalFP] at h
    rw [(hf.shift y).evalFP, ev_shift hf]
    cases h; rfl
  | ninf => cases f <;> simp_all [evalFP, shiftFn]
  | pinf => cases f <;> simp_all [evalFP, shiftFn]

theorem getLast_lower {l : List (ℤ × Fn)} {lo u : FP} {f : Fn} {z : ℤ × Fn} (h : l.getLast? = some z) :
    ∃ s, (tile lo f l u).getLast? = some s ∧ s.1.lower = fin z.1 := by
  obtain ⟨l', rfl⟩ := List.getLast?_eq_some_iff.1 h
  obtain ⟨i, h1, -, -, h2⟩ := getLast_tile (u := u) (l := l' ++ [z]) (lo := lo) (f := f)
  exact ⟨_, h1, (h2 z.1 z.2 l' rfl).1⟩

theorem le_last {l : List (ℤ × Fn)} (hk : Knots l) {z s : ℤ × Fn} (h : l.getLast? = some z) (hs : s ∈ l) :
    s.1 ≤ z.1 := by
  obtain ⟨l', rfl⟩ := List.getLast?_eq_some_iff.1 h
  rcases List.mem_append.1 hs with hs | hs
  · exact ((List.pairwise_append.1 hk).2.2 s hs z (by simp)).le
  · simp only [List.mem_singleton] at hs; rw [hs]

/-- Cropping at a finite lower bound. -/
theorem crop_spec_fin {val : ℤ → ℚ} (hval : StrictMono val) {L : List (ℤ × Fn)} {v0 v1 : ℚ} {I : CS} {a : ℤ}
    {b : FP} (hk : Knots L) (hne : L ≠ []) (hL : ∀ s ∈ L, IsPl s.2) (hlast : lastOf (.const v0) L = .const v1)
    (hIa : I.lowermost = fin a) (hIb : I.uppermost = b) (hI : I.isempty = false) (hwf : I.lower ≤ I.upper)
    (hab : fin a ≤ b) (hrun : Run val a (tileAt (.const v0) L a) (knotsIn a b L)) {beta : ℚ}
    (hbeta : evalFP val (lastOf (tileAt (.const v0) L a) (knotsIn a b L)) b = .ok beta)
    (hpos : ev (tileAt (.const v0) L a) (val a) < beta) :
    ∃ R : List (ℤ × Fn), Knots R ∧ R ≠ [] ∧ ((∀ s ∈ knotsIn a b L, IsLin s.2) → RisesTo val b R) ∧
      crop val (tile ninf (.const v0) L pinf) I = .ok (tile ninf (.const 0) R pinf) ∧
      (∀ n, n < a → tileAt (.const 0) R n = .const 0) ∧
      ∀ n, a ≤ n → (b ≤ fin n → tileAt (.const 0) R n = .const 1) ∧
        (fin n ≤ b → IsPl (tileAt (.const 0) R n) ∧
          ev (tileAt (.const 0) R n) (val n) =
            (ev (tileAt (.const v0) L n) (val n) - ev (tileAt (.const v0) L a) (val a)) /
              (beta - ev (tileAt (.const v0) L a) (val a))) := by
  have hconst : ∀ v, knotsIn a b L = [] → tileAt (.const v0) L a ≠ .const v := by
    intro v h1 h2
    rw [h1, h2] at hbeta
    rw [h2] at hpos
    simp only [lastOf] at hbeta
    have : beta = v := by cases b <;> simp [evalFP, Fn.eval] at hbeta <;> exact hbeta.symm
    simp [ev, Fn.eval, this] at hpos
  obtain ⟨c, s, hc1, hc2, hc3, hc4, hc5⟩ := crop_start hk (f0 := .const v0) trivial hL hIa hIb hI hwf hab
  generalize hf1 : tileAt (.const v0) L a = f1 at *
  generalize hl1 : knotsIn a b L = l1 at *
  generalize hy : ev f1 (val a) = y at *
  have hfp : IsPl f1 := hrun.pl
  obtain ⟨k0, g0, L', rfl⟩ : ∃ k0 g0 L', L = (k0, g0) :: L' := by
    cases L with
    | nil => exact absurd rfl hne
    | cons s r => exact ⟨s.1, s.2, r, rfl⟩
  obtain ⟨z, hz⟩ : ∃ z, ((k0, g0) :: L').getLast? = some z := ⟨_, List.getLast?_cons⟩
  obtain ⟨t, ht1, ht2⟩ := getLast_lower (lo := ninf) (u := pinf) (f := .const v0) hz
  have hun : ¬ (I.uppermost < fin k0 ∨ I.lowermost > t.1.lower) := by
    rw [hIa, hIb, ht2]
    rintro (h | h)
    · have hak : a < k0 := by
        have := hab.trans_lt h
        simpa [FP.lt_def, leb] using this
      refine hconst v0 ?_ ?_
      · rw [← hl1, knotsIn, List.filter_eq_nil_iff]
        intro s hs hh
        simp only [Bool.and_eq_true, leB, decide_eq_true_eq] at hh
        have hks : k0 ≤ s.1 := by
          rcases List.mem_cons.1 hs with rfl | hs
          · exact le_rfl
          · exact ((List.pairwise_cons.1 hk).1 s hs).le
        have h3 : fin k0 ≤ fin s.1 := by simpa [FP.le_def, leb] using hks
        exact absurd (h.trans_le (h3.trans hh.2)) (lt_irrefl _)
      · rw [← hf1]; simp [tileAt, hak]
    · have hza : z.1 < a := by simpa [FP.lt_def, leb] using h
      refine hconst v1 ?_ ?_
      · rw [← hl1, knotsIn, List.filter_eq_nil_iff]
        intro s hs hh
        simp only [Bool.and_eq_true, decide_eq_true_eq] at hh
        have := le_last hk hz hs
        omega
      · rw [← hf1, tileAt_last (fun s hs => by have := le_last hk hz hs; omega), hlast]
  have hrun2 : Run val a (shiftFn (-y) f1) (mrg (shiftFn (-y) f1) (shiftL (-y) l1)) := (hrun.shift).mrg
  have hal : evalFP val (lastOf (shiftFn (-y) f1) (mrg (shiftFn (-y) f1) (shiftL (-y) l1))) b =
      .ok (beta + -y) := by
    rw [lastOf_mrg, lastOf_shift]
    exact evalFP_shift hrun.last hbeta
  obtain ⟨R, hR1, hR2, hR0, hR3, hR4, hR5⟩ := crop_from hval (alpha := beta + -y) (by linarith) (lo := fin a)
    hrun2 hal hab
    (fun s hs => by
      have hs := mrg_sub hs
      simp only [shiftL, List.mem_map] at hs
      obtain ⟨t, ht, rfl⟩ := hs
      rw [← hl1] at ht
      exact (mem_knotsIn.1 ht).2.2)
    (by rw [ev_shift hfp, hy]; ring) (.inl rfl) (fun k g r h => mrg_head h)
  refine ⟨R, hR1, hR2, (fun h => hR0 (fun s hs => by
    have hs := mrg_sub hs
    simp only [shiftL, List.mem_map] at hs
    obtain ⟨t, ht, rfl⟩ := hs
    exact IsLin.shift.2 (h t ht))), ?_, hR4, fun n hn => ⟨(hR5 n hn).1, fun hnb => ⟨((hR5 n hn).2 hnb).1, ?_⟩⟩⟩
  · obtain ⟨i, hi1, hi2, hi3⟩ := tileI_head (lo := fin a) (f := shiftFn (-y) f1)
      (l := mrg (shiftFn (-y) f1) (shiftL (-y) l1)) (u := endOf b)
    unfold crop
    rw [ht1]
    simp only [tile, List.head?_cons, if_neg hun] at hc1 ⊢
    simp only [hc1, bind, Except.bind, hc2, hc3, hc4, hfp.evalFP, hy, hc5, hi1, tileI_lastFn, hIb, hal, hi2]
    simpa only [bind, Except.bind] using hR3
  · rw [((hR5 n hn).2 hnb).2, tileAt_mrg, tileAt_shift, ev_shift, ← hl1, ← hf1, tileAt_knotsIn hn hnb hk]
    · ring
    · rw [← hf1, ← hl1, tileAt_knotsIn hn hnb hk]
      exact tileAt_pl trivial hL
    · have := knotsIn_knots (a := a) (b := b) hk
      rw [← hl1]
      simpa only [Knots, shiftL, List.pairwise_map] using this

/-- Cropping without a lower bound. -/
theorem crop_spec_ninf {val : ℤ → ℚ} (hval : StrictMono val) {k0 : ℤ} {g0 : Fn} {L : List (ℤ × Fn)} {v0 : ℚ}
    {I : CS} {b : FP} (hk : Knots ((k0, g0) :: L)) (hL : ∀ s ∈ (k0, g0) :: L, IsPl s.2)
    (hIa : I.lower = ninf) (hIb : I.uppermost = b) (hI : I.isempty = false) (hkb : fin k0 ≤ b)
    (hrun : Run val (k0 - 1) (.const v0) (knotsIn (k0 - 1) b ((k0, g0) :: L))) {beta : ℚ}
    (hbeta : evalFP val (lastOf (.const v0) (knotsIn (k0 - 1) b ((k0, g0) :: L))) b = .ok beta)
    (hpos : v0 < beta) :
    ∃ R : List (ℤ × Fn), Knots R ∧ R ≠ [] ∧
      ((∀ s ∈ knotsIn (k0 - 1) b ((k0, g0) :: L), IsLin s.2) → RisesTo val b R) ∧
      crop val (tile ninf (.const v0) ((k0, g0) :: L) pinf) I = .ok (tile ninf (.const 0) R pinf) ∧
      ∀ n, (b ≤ fin n → tileAt (.const 0) R n = .const 1) ∧
        (fin n ≤ b → IsPl (tileAt (.const 0) R n) ∧
          ev (tileAt (.const 0) R n) (val n) =
            (ev (tileAt (.const v0) ((k0, g0) :: L) n) (val n) - v0) / (beta - v0)) := by
  have hbn : b ≠ ninf := by rintro rfl; simp [FP.le_def, leb] at hkb
  have hlk : ∀ s ∈ (k0, g0) :: L, k0 - 1 < s.1 := by
    intro s hs
    rcases List.mem_cons.1 hs with rfl | hs
    · simp
    · have := (List.pairwise_cons.1 hk).1 s hs; simp only at this; omega
  have hlow : I.lowermost = ninf := by simp [CS.lowermost, hIa, FP.up]
  obtain ⟨c, s, hc1, hc2, hc3, hc4, hc5⟩ := crop_start_ninf (v := v0) hk hL hIa hIb hI hbn
  rw [takeWhile_filter hk hlk] at hc5
  have hat : tileAt (.const v0) ((k0, g0) :: L) (k0 - 1) = .const v0 := by simp [tileAt]
  have htk := fun n hn hnb => tileAt_knotsIn (a := k0 - 1) (b := b) (n := n) hn hnb (f := .const v0) hk
  rw [hat] at htk
  have hkk := knotsIn_knots (a := k0 - 1) (b := b) hk
  have hsub : ∀ s ∈ knotsIn (k0 - 1) b ((k0, g0) :: L), fin s.1 ≤ b := fun s hs => (mem_knotsIn.1 hs).2.2
  generalize hl1 : knotsIn (k0 - 1) b ((k0, g0) :: L) = l1 at *
  obtain ⟨z, hz⟩ : ∃ z, ((k0, g0) :: L).getLast? = some z := ⟨_, List.getLast?_cons⟩
  obtain ⟨t, ht1, ht2⟩ := getLast_lower (lo := ninf) (u := pinf) (f := .const v0) hz
  have hun : ¬ (I.uppermost < fin k0 ∨ I.lowermost > t.1.lower) := by
    rw [hlow, hIb, ht2]
    rintro (h | h)
    · exact absurd (h.trans_le hkb) (lt_irrefl _)
    · simp [FP.lt_def, leb] at h
  have hrun2 : Run val (k0 - 1) (.const (v0 + -v0)) (mrg (.const (v0 + -v0)) (shiftL (-v0) l1)) :=
    (hrun.shift (y := -v0)).mrg
  have hal : evalFP val (lastOf (.const (v0 + -v0)) (mrg (.const (v0 + -v0)) (shiftL (-v0) l1))) b =
      .ok (beta + -v0) := by
    rw [lastOf_mrg, show Fn.const (v0 + -v0) = shiftFn (-v0) (.const v0) from rfl, lastOf_shift]
    exact evalFP_shift hrun.last hbeta
  have h0 : v0 + -v0 = 0 := by ring
  obtain ⟨R, hR1, hR2, hR0, hR3, hR4, hR5⟩ := crop_from hval (alpha := beta + -v0) (by linarith) (lo := ninf)
    hrun2 hal ((show fin (k0 - 1) ≤ fin k0 by simp [FP.le_def, leb]).trans hkb)
    (fun s hs => by
      have hs := mrg_sub hs
      simp only [shiftL, List.mem_map] at hs
      obtain ⟨t, ht, rfl⟩ := hs
      exact hsub t ht)
    (by simp [ev, Fn.eval]) (.inr (by rw [h0])) (fun k g r h => mrg_head h)
  refine ⟨R, hR1, hR2, (fun h => hR0 (fun s hs => by
    have hs := mrg_sub hs
    simp only [shiftL, List.mem_map] at hs
    obtain ⟨t, ht, rfl⟩ := hs
    exact IsLin.shift.2 (h t ht))), ?_, fun n => ?_⟩
  · obtain ⟨i, hi1, hi2, hi3⟩ := tileI_head (lo := ninf) (f := .const (v0 + -v0))
      (l := mrg (.const (v0 + -v0)) (shiftL (-v0) l1)) (u := endOf b)
    have hev : evalFP val (.const v0) ninf = .ok v0 := rfl
    unfold crop
    rw [ht1]
    simp only [tile, List.head?_cons, if_neg hun] at hc1 ⊢
    simp only [hc1, bind, Except.bind, hc2, hc3, hc4, hev, hc5, hi1, tileI_lastFn, hIb, hal, hi2]
    simpa only [bind, Except.bind] using hR3
  · by_cases hn : k0 - 1 ≤ n
    · refine ⟨(hR5 n hn).1, fun hnb => ⟨((hR5 n hn).2 hnb).1, ?_⟩⟩
      have hpl : IsPl (tileAt (.const v0) l1 n) := by
        rw [htk n hn hnb]; exact tileAt_pl trivial hL
      rw [((hR5 n hn).2 hnb).2, tileAt_mrg, show Fn.const (v0 + -v0) = shiftFn (-v0) (.const v0) from rfl,
        tileAt_shift, ev_shift hpl, htk n hn hnb]
      · ring
      · simpa only [Knots, shiftL, List.pairwise_map] using hkk
    · have hnk : n < k0 := by omega
      rw [hR4 n (by omega)]
      refine ⟨fun h => ?_, fun _ => ⟨trivial, ?_⟩⟩
      · have := hkb.trans h
        have : k0 ≤ n := by simpa [FP.le_def, leb] using this
        omega
      · simp [tileAt, hnk, ev, Fn.eval]

/-- An interval before the first or behind the last knot. -/
theorem crop_outside {val : ℤ → ℚ} {k0 : ℤ} {g0 : Fn} {L : List (ℤ × Fn)} {v0 : ℚ} {I : CS} {z : ℤ × Fn}
    (hz : ((k0, g0) :: L).getLast? = some z) (h : I.uppermost < fin k0 ∨ fin z.1 < I.lowermost) :
    crop val (tile ninf (.const v0) ((k0, g0) :: L) pinf) I = .error .unsatisfiable := by
  obtain ⟨t, ht1, ht2⟩ := getLast_lower (lo := ninf) (u := pinf) (f := .const v0) hz
  unfold crop
  rw [ht1]
  simp only [tile, List.head?_cons]
  rw [if_pos (by rw [ht2]; exact h)]

end Verif.Num
