import Verif.Numeric.CropLemmas7
import Verif.Numeric.Spec

/-! # Cropping a cdf: in terms of the members of the interval -/

namespace Verif.Num

open Iv Iv.FP Fun

theorem mem_fin_iff {I : CS} {n : ℤ} : I.Mem (fin n) ↔ I.lowermost ≤ fin n ∧ fin n ≤ I.uppermost := by
  obtain ⟨l, u, L, R⟩ := I
  cases l <;> cases u <;> cases L <;> cases R <;>
    simp [CS.Mem, CS.lowermost, CS.uppermost, FP.lt_def, FP.le_def, leb, FP.up, FP.dn] <;> omega

theorem mem_wf {I : CS} {n : ℤ} (h : I.Mem (fin n)) : I.isempty = false ∧ I.lower ≤ I.upper := by
  obtain ⟨l, u, L, R⟩ := I
  cases l <;> cases u <;> cases L <;> cases R <;>
    simp_all [CS.Mem, CS.isempty, CS.isclosed, CS.itype, Br.code, FP.lt_def, FP.le_def, leb, FP.up] <;> omega

theorem lowermost_of_least {I : CS} {a : ℤ} (h : I.Mem (fin a)) (hmin : ∀ n, I.Mem (fin n) → a ≤ n) :
    I.lowermost = fin a := by
  have h1 := mem_fin_iff.1 h
  cases hl : I.lowermost with
  | ninf =>
    have := hmin (a - 1) (mem_fin_iff.2 ⟨by rw [hl]; simp [FP.le_def, leb],
      (show fin (a - 1) ≤ fin a by simp [FP.le_def, leb]).trans h1.2⟩)
    omega
  | pinf => rw [hl] at h1; simp [FP.le_def, leb] at h1
  | fin k =>
    have hka : k ≤ a := by rw [hl] at h1; simpa [FP.le_def, leb] using h1.1
    have := hmin k (mem_fin_iff.2 ⟨by rw [hl],
      (show fin k ≤ fin a by simpa [FP.le_def, leb] using hka).trans h1.2⟩)
    rw [show k = a by omega]

theorem uppermost_of_greatest {I : CS} {b : ℤ} (h : I.Mem (fin b)) (hmax : ∀ n, I.Mem (fin n) → n ≤ b) :
    I.uppermost = fin b := by
  have h1 := mem_fin_iff.1 h
  cases hl : I.uppermost with
  | pinf =>
    have := hmax (b + 1) (mem_fin_iff.2
      ⟨h1.1.trans (show fin b ≤ fin (b + 1) by simp [FP.le_def, leb]), by rw [hl]; simp [FP.le_def, leb]⟩)
    omega
  | ninf => rw [hl] at h1; simp [FP.le_def, leb] at h1
  | fin k =>
    have hkb : b ≤ k := by rw [hl] at h1; simpa [FP.le_def, leb] using h1.2
    have := hmax k (mem_fin_iff.2
      ⟨h1.1.trans (show fin b ≤ fin k by simpa [FP.le_def, leb] using hkb), by rw [hl]⟩)
    rw [show k = b by omega]

theorem exists_above (l : List (ℤ × Fn)) (a : ℤ) : ∃ n, a ≤ n ∧ ∀ s ∈ l, s.1 ≤ n := by
  induction l with
  | nil => exact ⟨a, le_rfl, by simp⟩
  | cons s r ih =>
    obtain ⟨n, h1, h2⟩ := ih
    refine ⟨max n s.1, by omega, fun t ht => ?_⟩
    rcases List.mem_cons.1 ht with rfl | ht
    · omega
    · have := h2 t ht; omega

/-- The value at the upper end. -/
theorem eval_end {val : ℤ → ℚ} {L : List (ℤ × Fn)} {F : ℤ → ℚ} {I : CS} {y1 : ℚ} {a : ℤ} {f0 : Fn}
    (hk : Knots L) (hf0 : IsPl f0) (hL : ∀ s ∈ L, IsPl s.2) (hlast : lastOf f0 L = .const 1)
    (hF : ∀ n, ev (tileAt f0 L n) (val n) = F n) (hy : HighEnd F I y1) (hab : fin a ≤ I.uppermost) :
    evalFP val (lastOf (tileAt f0 L a) (knotsIn a I.uppermost L)) I.uppermost = .ok y1 := by
  rcases hy with ⟨h1, rfl⟩ | ⟨b, h1, h2, rfl⟩
  · have hu : I.uppermost = pinf := by simp [CS.uppermost, h1, FP.dn]
    rw [hu]
    obtain ⟨n, hn1, hn2⟩ := exists_above L a
    rw [← tileAt_last (n := n) (fun s hs => hn2 s (mem_knotsIn.1 hs).1),
      tileAt_knotsIn hn1 (by simp [FP.le_def, leb]) hk, tileAt_last hn2, hlast]
    rfl
  · have hu := uppermost_of_greatest h1 h2
    rw [hu] at hab ⊢
    have hab' : a ≤ b := by simpa [FP.le_def, leb] using hab
    rw [← tileAt_last (n := b) (fun s hs => by
      have := (mem_knotsIn.1 hs).2.2
      simpa [FP.le_def, leb] using this), tileAt_knotsIn hab' le_rfl hk, (tileAt_pl hf0 hL).evalFP, hF]

/-- `crop` conditions a cdf on an interval. -/
theorem crop_conditions {val : ℤ → ℚ} (hval : StrictMono val) {L : List (ℤ × Fn)} {F : ℤ → ℚ} {I : CS}
    (hk : Knots L) (hL : ∀ s ∈ L, IsPl s.2) (hlast : lastOf (.const 0) L = .const 1)
    (hF : ∀ n, ev (tileAt (.const 0) L n) (val n) = F n) {y0 y1 : ℚ} (hy0 : LowEnd F I y0)
    (hy1 : HighEnd F I y1) (hy : y0 < y1) {m : ℤ} (hm : I.Mem (fin m))
    (hcont : ∀ s ∈ L, I.Mem (fin s.1) → I.Mem (fin (s.1 - 1)) →
      ev (tileAt (.const 0) L (s.1 - 1)) (val s.1) = ev s.2 (val s.1))
    (hsize : ∀ s ∈ L, I.Mem (fin s.1) → I.Mem (fin (s.1 - 1)) → IsLin (tileAt (.const 0) L (s.1 - 1)) →
      I.Mem (fin (s.1 - 2)) ∧ ∀ t ∈ L, t.1 ≠ s.1 - 1) :
    ∃ (R : List (ℤ × Fn)) (G : ℤ → ℚ), Knots R ∧ R ≠ [] ∧ (∀ n, IsPl (tileAt (.const 0) R n)) ∧
      ((∀ s ∈ L, I.Mem (fin s.1) → IsLin s.2) → RisesTo val I.uppermost R) ∧
      crop val (tile ninf (.const 0) L pinf) I = .ok (tile ninf (.const 0) R pinf) ∧
      (∀ n, (tile ninf (.const 0) R pinf).eval val n = .ok (some (G n))) ∧ Conditioned F I y0 y1 G := by
  obtain ⟨hI, hwf⟩ := mem_wf hm
  have hne : L ≠ [] := by rintro rfl; simp [lastOf] at hlast
  have hmm := mem_fin_iff.1 hm
  set b := I.uppermost with hb
  have hup : ∀ n, I.upper ≠ pinf → (∀ m, I.Mem (fin m) → m ≤ n) → b ≤ fin n := by
    intro n h1 h2
    cases hbb : b with
    | ninf => simp [FP.le_def, leb]
    | pinf =>
      exfalso
      rw [hb, CS.uppermost] at hbb
      cases hu : I.upper <;> cases hr : I.right <;> simp_all [FP.dn]
    | fin k =>
      have hmk : m ≤ k := by
        have := hmm.2; rw [hbb] at this; simpa [FP.le_def, leb] using this
      have := h2 k (mem_fin_iff.2 ⟨hmm.1.trans (by simpa [FP.le_def, leb] using hmk), by rw [← hb, hbb]⟩)
      simpa [FP.le_def, leb] using this
  have hevalR : ∀ (R : List (ℤ × Fn)) n, IsPl (tileAt (.const 0) R n) →
      (tile ninf (.const 0) R pinf).eval val n = .ok (some (ev (tileAt (.const 0) R n) (val n))) := by
    intro R n h
    rw [tile_eval, h.eval]
  rcases hl : I.lower with _ | a' | _
  · -- no lower bound
    have hlow : I.lowermost = ninf := by simp [CS.lowermost, hl, FP.up]
    have hy00 : y0 = 0 := by
      rcases hy0 with h | ⟨a, h1, h2, -⟩
      · exact h.2
      · have := lowermost_of_least h1 h2
        rw [hlow] at this; cases this
    subst hy00
    obtain ⟨k0, g0, L, rfl⟩ : ∃ k0 g0 L', L = (k0, g0) :: L' := by
      cases L with
      | nil => exact absurd rfl hne
      | cons s r => exact ⟨s.1, s.2, r, rfl⟩
    have hkb : fin k0 ≤ b := by
      by_contra hc
      have hc := not_le.1 hc
      rcases hy1 with ⟨h1, -⟩ | ⟨n, h1, h2, h3⟩
      · have : b = pinf := by rw [hb, CS.uppermost, h1]; simp [FP.dn]
        rw [this] at hc; simp [FP.lt_def, leb] at hc
      · rw [hb, uppermost_of_greatest h1 h2] at hc
        have hnk : n < k0 := by simpa [FP.lt_def, leb] using hc
        have := hF n
        rw [h3, ← this] at hy
        simp [tileAt, hnk, ev, Fn.eval] at hy
    have hmem : ∀ n, fin n ≤ b → I.Mem (fin n) := fun n h =>
      mem_fin_iff.2 ⟨by rw [hlow]; simp [FP.le_def, leb], h⟩
    have hat : tileAt (.const 0) ((k0, g0) :: L) (k0 - 1) = .const 0 := by simp [tileAt]
    have hkk := knotsIn_knots (a := k0 - 1) (b := b) hk
    have hrun : Run val (k0 - 1) (.const 0) (knotsIn (k0 - 1) b ((k0, g0) :: L)) := by
      refine run_of hkk (fun s hs => (mem_knotsIn.1 hs).2.1) trivial
        (fun s hs => hL s (mem_knotsIn.1 hs).1) (fun s hs => ?_)
      obtain ⟨h1, h2, h3⟩ := mem_knotsIn.1 hs
      have h4 : fin (s.1 - 1) ≤ b := (show fin (s.1 - 1) ≤ fin s.1 by simp [FP.le_def, leb]).trans h3
      have e : tileAt (.const 0) (knotsIn (k0 - 1) b ((k0, g0) :: L)) (s.1 - 1) =
          tileAt (.const 0) ((k0, g0) :: L) (s.1 - 1) := by
        have := tileAt_knotsIn (a := k0 - 1) (b := b) (n := s.1 - 1) (by omega) h4 (f := .const 0) hk
        rwa [hat] at this
      rw [e]
      refine ⟨hcont s h1 (hmem _ h3) (hmem _ h4), fun hlin => ⟨fun hc => ?_, fun t ht => ?_⟩⟩
      · rw [hc, hat] at hlin; exact hlin
      · exact (hsize s h1 (hmem _ h3) (hmem _ h4) hlin).2 t (mem_knotsIn.1 ht).1
    have hbeta := eval_end (val := val) (a := k0 - 1) hk (f0 := .const 0) trivial hL hlast hF hy1
      ((show fin (k0 - 1) ≤ fin k0 by simp [FP.le_def, leb]).trans hkb)
    rw [hat] at hbeta
    obtain ⟨R, hR1, hR2, hR0, hR3, hR4⟩ := crop_spec_ninf hval hk hL hl hb.symm hI hkb hrun hbeta hy
    have hpl : ∀ n, IsPl (tileAt (.const 0) R n) := by
      intro n
      rcases le_total b (fin n) with h | h
      · rw [(hR4 n).1 h]; trivial
      · exact ((hR4 n).2 h).1
    refine ⟨R, fun n => ev (tileAt (.const 0) R n) (val n), hR1, hR2, hpl,
      fun h => hR0 (fun s hs => h s (mem_knotsIn.1 hs).1 (hmem _ (mem_knotsIn.1 hs).2.2)), hR3, fun n => hevalR R n (hpl n), ?_, ?_, ?_⟩
    · intro n h
      have := h (min n m) (hmem _ ((show fin (min n m) ≤ fin m by simp [FP.le_def, leb]).trans hmm.2))
      omega
    · intro n h1 h2
      rw [(hR4 n).1 (hup n h1 h2)]; rfl
    · intro n h
      rw [((hR4 n).2 (mem_fin_iff.1 h).2).2, hF]
  · obtain ⟨a, hIa⟩ : ∃ a, I.lowermost = fin a := by
      rw [CS.lowermost, hl]; cases I.left <;> simp [FP.up]
    have ham : a ≤ m := by have := hmm.1; rw [hIa] at this; simpa [FP.le_def, leb] using this
    have hab : fin a ≤ b := (show fin a ≤ fin m by simpa [FP.le_def, leb] using ham).trans hmm.2
    have hmem : ∀ n, I.Mem (fin n) ↔ a ≤ n ∧ fin n ≤ b := by
      intro n
      rw [mem_fin_iff, hIa]
      simp [FP.le_def, leb, hb]
    have hy00 : y0 = F a := by
      rcases hy0 with h | ⟨a', h1, h2, h3⟩
      · rw [hl] at h; cases h.1
      · have h4 := lowermost_of_least h1 h2
        rw [hIa] at h4
        rw [h3]; simp only [FP.fin.injEq] at h4; rw [h4]
    have hfa : IsPl (tileAt (.const 0) L a) := tileAt_pl trivial hL
    have hrun : Run val a (tileAt (.const 0) L a) (knotsIn a b L) := by
      refine run_of (knotsIn_knots hk) (fun s hs => (mem_knotsIn.1 hs).2.1) hfa
        (fun s hs => hL s (mem_knotsIn.1 hs).1) (fun s hs => ?_)
      obtain ⟨h1, h2, h3⟩ := mem_knotsIn.1 hs
      have h4 : fin (s.1 - 1) ≤ b := (show fin (s.1 - 1) ≤ fin s.1 by simp [FP.le_def, leb]).trans h3
      rw [tileAt_knotsIn (by omega) h4 hk]
      have h5 := (hmem s.1).2 ⟨by omega, h3⟩
      have h6 := (hmem (s.1 - 1)).2 ⟨by omega, h4⟩
      refine ⟨hcont s h1 h5 h6, fun hlin => ⟨fun hc => ?_, fun t ht => ?_⟩⟩
      · have := (hmem _).1 (hsize s h1 h5 h6 hlin).1
        omega
      · exact (hsize s h1 h5 h6 hlin).2 t (mem_knotsIn.1 ht).1
    have hbeta := eval_end (val := val) (a := a) hk (f0 := .const 0) trivial hL hlast hF hy1 hab
    obtain ⟨R, hR1, hR2, hR0, hR3, hR4, hR5⟩ := crop_spec_fin hval hk hne hL hlast hIa hb.symm hI hwf hab hrun hbeta
      (by rw [hF, ← hy00]; exact hy)
    have hpl : ∀ n, IsPl (tileAt (.const 0) R n) := by
      intro n
      rcases lt_or_ge n a with hn | hn
      · rw [hR4 n hn]; trivial
      · rcases le_total b (fin n) with h | h
        · rw [(hR5 n hn).1 h]; trivial
        · exact ((hR5 n hn).2 h).1
    refine ⟨R, fun n => ev (tileAt (.const 0) R n) (val n), hR1, hR2, hpl,
      fun h => hR0 (fun s hs => h s (mem_knotsIn.1 hs).1 ((hmem _).2 ⟨(mem_knotsIn.1 hs).2.1.le, (mem_knotsIn.1 hs).2.2⟩)), hR3, fun n => hevalR R n (hpl n), ?_, ?_, ?_⟩
    · intro n h
      rw [hR4 n (h a ((hmem a).2 ⟨le_rfl, hab⟩))]; rfl
    · intro n h1 h2
      have hn : a ≤ n := h2 a ((hmem a).2 ⟨le_rfl, hab⟩)
      rw [(hR5 n hn).1 (hup n h1 h2)]; rfl
    · intro n h
      obtain ⟨h1, h2⟩ := (hmem n).1 h
      rw [((hR5 n h1).2 h2).2, hF, hF, ← hy00]
  · rw [CS.lowermost, hl] at hmm
    cases hleft : I.left <;> simp [hleft, FP.up, FP.le_def, leb] at hmm

end Verif.Num
