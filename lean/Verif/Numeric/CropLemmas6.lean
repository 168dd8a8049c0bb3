import Verif.Numeric.CropLemmas5

/-! # Cropping a cdf: assembly -/

namespace Verif.Num

open Iv Iv.FP Fun

theorem tileI_head {lo : FP} {f : Fn} {l : List (ℤ × Fn)} {u : FP} :
    ∃ i, (tileI lo f l u).head? = some (i, f) ∧ i.lower = lo ∧ i.left = .inc := by
  cases l with
  | nil => exact ⟨_, rfl, rfl, rfl⟩
  | cons s r => exact ⟨_, rfl, rfl, rfl⟩

theorem tileI_lastFn {lo : FP} {f : Fn} {l : List (ℤ × Fn)} {u : FP} :
    lastFn (tileI lo f l u) = .ok (lastOf f l) := by
  cases l with
  | nil => rfl
  | cons s r =>
    obtain ⟨k, g⟩ := s
    obtain ⟨i, h, -⟩ := getLast_tile (u := u) (l := r) (lo := fin k) (f := g)
    simp [lastFn, tileI, List.getLast?_cons, h, lastOf]

theorem mem_knotsIn {a : ℤ} {b : FP} {l : List (ℤ × Fn)} {s : ℤ × Fn} :
    s ∈ knotsIn a b l ↔ s ∈ l ∧ a < s.1 ∧ fin s.1 ≤ b := by
  simp [knotsIn, leB]

theorem knotsIn_knots {a : ℤ} {b : FP} {l : List (ℤ × Fn)} (h : Knots l) : Knots (knotsIn a b l) :=
  List.Pairwise.filter _ h

/-- What the loop and the end of `crop` make of the shifted pieces. -/
theorem crop_from {val : ℤ → ℚ} (hval : StrictMono val) {alpha : ℚ} (ha : 0 < alpha) {b lo : FP}
    {l : List (ℤ × Fn)} {x : ℤ} {f : Fn} (hrun : Run val x f l)
    (hal : evalFP val (lastOf f l) b = .ok alpha) (hxb : fin x ≤ b) (hl : ∀ s ∈ l, fin s.1 ≤ b)
    (hf0 : ev f (val x) = 0) (hlo : lo = fin x ∨ f = .const 0)
    (hne : ∀ k g r, l = (k, g) :: r → g ≠ f) :
    ∃ R : List (ℤ × Fn), Knots R ∧ R ≠ [] ∧ ((∀ s ∈ l, IsLin s.2) → RisesTo val b R) ∧
      (do
        let r ← cropLoop val alpha (tileI lo f l (endOf b)) [(⟨ninf, lo, .exc, .exc⟩, .const 0)] f
        let r ← cropEnd b r
        assertConsistency (r.filter (fun s => !s.1.isempty))) = .ok (tile ninf (.const 0) R pinf) ∧
      (∀ n, n < x → tileAt (.const 0) R n = .const 0) ∧
      ∀ n, x ≤ n → (b ≤ fin n → tileAt (.const 0) R n = .const 1) ∧
        (fin n ≤ b → IsPl (tileAt (.const 0) R n) ∧
          ev (tileAt (.const 0) R n) (val n) = ev (tileAt f l n) (val n) / alpha) := by
  have hfin : ∀ {l : List (ℤ × Fn)} {x : ℤ} {f : Fn}, finalL alpha b x f l ≠ [] := by
    intro l x f h
    obtain ⟨g, r, e⟩ := finalL_head (alpha := alpha) (b := b) x f l
    rw [e] at h; cases h
  have hf := hrun.pl
  cases f with
  | undef => cases hf
  | quad p q r => cases hf
  | lin m c =>
    have hlo' : lo = fin x := by
      rcases hlo with h | h
      · exact h
      · cases h
    subst hlo'
    refine ⟨finalL alpha b x (.lin m c) l, (finalL_knots hrun).1, hfin,
      fun h => finalL_rises ha hrun trivial h hxb hl hf0, ?_, fun n hn => finalL_before hn,
      fun n hn => finalL_on ha hrun hal hl hxb hn⟩
    rw [tileI_fin]
    exact crop_tail hval ha hrun hal hxb hl hf0 trivial hf hf0
  | const v =>
    have hv : v = 0 := by simpa [ev, Fn.eval] using hf0
    subst hv
    cases l with
    | nil =>
      have : (0 : ℚ) = alpha := by cases b <;> simpa [lastOf, evalFP, Fn.eval] using hal
      exact absurd this ha.ne
    | cons s r =>
      obtain ⟨k, g⟩ := s
      have hrun' := hrun.2.2.2.2
      have hg0 : ev g (val k) = 0 := by rw [← hrun.2.2.1]; rfl
      have hkb := hl (k, g) (by simp)
      have hl' : ∀ s ∈ r, fin s.1 ≤ b := fun s hs => hl s (by simp [hs])
      have hglin : IsLin g := by
        have hgp := hrun'.pl
        have hgne := hne k g r rfl
        cases g with
        | undef => cases hgp
        | quad p q r => cases hgp
        | lin m c => trivial
        | const v =>
          have : v = 0 := by simpa [ev, Fn.eval] using hg0
          subst this; exact absurd rfl hgne
      refine ⟨finalL alpha b k g r, (finalL_knots hrun').1, hfin,
        fun h => finalL_rises ha hrun' hglin (fun s hs => h s (by simp [hs])) hkb hl' hg0, ?_,
        fun n hn => finalL_before (by have := hrun.2.1; omega), fun n hn => ?_⟩
      · have := crop_tail hval ha hrun' (prev := .const 0) hal hkb hl' hg0 hglin trivial rfl
        have hz : (Fn.const 0).eq (.const 0) = .ok true := by simp [Fn.eq]
        simp only [tileI, cropLoop, hz, bind, Except.bind, if_true, setUpper]
        simpa only [bind, Except.bind] using this
      · by_cases hnk : n < k
        · rw [finalL_before hnk]
          refine ⟨fun hbn => ?_, fun _ => ⟨trivial, ?_⟩⟩
          · have := hkb.trans hbn
            have : k ≤ n := by simpa [FP.le_def, leb] using this
            omega
          · simp [tileAt, hnk, ev, Fn.eval]
        · have := finalL_on ha hrun' (h := .const 0) (n := n) hal hl' hkb (by omega)
          simpa [tileAt, hnk] using this

theorem tileAt_pl {n : ℤ} : ∀ {l : List (ℤ × Fn)} {f : Fn}, IsPl f → (∀ s ∈ l, IsPl s.2) →
    IsPl (tileAt f l n)
  | [], _, hf, _ => hf
  | (k, g) :: r, f, hf, hl => by
    simp only [tileAt]
    split
    · exact hf
    · exact tileAt_pl (hl (k, g) (by simp)) (fun s hs => hl s (by simp [hs]))

theorem startAt_pl {c : FP} : ∀ {l : List (ℤ × Fn)} {f : Fn}, IsPl f → (∀ s ∈ l, IsPl s.2) →
    IsPl (startAt c f l).1
  | [], _, hf, _ => hf
  | (k, g) :: r, f, hf, hl => by
    simp only [startAt]
    split
    · exact startAt_pl (hl (k, g) (by simp)) (fun s hs => hl s (by simp [hs]))
    · exact hf

theorem tileAt_before {n : ℤ} {f : Fn} {l : List (ℤ × Fn)} (h : ∀ s ∈ l, n < s.1) : tileAt f l n = f := by
  cases l with
  | nil => rfl
  | cons s r => simp [tileAt, h s (by simp)]

/-- The steps of `crop` before the loop, for a finite lower bound. -/
theorem crop_start {L : List (ℤ × Fn)} {f0 : Fn} {I : CS} {a : ℤ} {b : FP}
    (hk : Knots L) (hf0 : IsPl f0) (hL : ∀ s ∈ L, IsPl s.2) (hIa : I.lowermost = fin a)
    (hIb : I.uppermost = b) (hI : I.isempty = false) (hwf : I.lower ≤ I.upper) (hab : fin a ≤ b) :
    ∃ c s, PF.crop (tile ninf f0 L pinf) I = .ok c ∧ c.head? = some s ∧ s.1.lowermost = fin a ∧
      PF.atPos c (fin a) = some (tileAt f0 L a) ∧
      ∀ y, PF.plusFn c (.const y) = .ok (tileI (fin a) (shiftFn y (tileAt f0 L a))
        (mrg (shiftFn y (tileAt f0 L a)) (shiftL y (knotsIn a b L))) (endOf b)) := by
  have hbn : b ≠ ninf := by rintro rfl; simp [FP.le_def, leb] at hab
  have hlp : I.lower ≠ pinf := by
    intro h
    rw [CS.lowermost, h] at hIa
    cases hL : I.left <;> simp [hL, FP.up] at hIa
  have hend : ∀ k, fin k ≤ b → fin k < endOf b := by
    intro k hk
    cases b <;> simp_all [endOf, FP.lt_def, FP.le_def, leb]
    omega
  have hcrop := crop_tile hIb hI hwf hbn hlp (lo := ninf) (f := f0) hk (by cases I.lower <;> simp [FP.le_def, leb])
  have hfa : IsPl (tileAt f0 L a) := tileAt_pl hf0 hL
  have hkl : ∀ s ∈ knotsIn a b L, IsPl s.2 := fun s hs => hL s (mem_knotsIn.1 hs).1
  have hsl : ∀ y, ∀ s ∈ shiftL y (knotsIn a b L), IsPl s.2 ∧ a < s.1 ∧ fin s.1 ≤ b := by
    intro y s hs
    simp only [shiftL, List.mem_map] at hs
    obtain ⟨t, ht, rfl⟩ := hs
    exact ⟨(hkl t ht).shift y, (mem_knotsIn.1 ht).2⟩
  have hsk : ∀ y, Knots (shiftL y (knotsIn a b L)) := by
    intro y
    have := knotsIn_knots (a := a) (b := b) hk
    simpa only [Knots, shiftL, List.pairwise_map] using this
  have hA : PF.crop (tile ninf f0 L pinf) I = .ok (tileI (fin a) (tileAt f0 L a) (knotsIn a b L) (endOf b)) ∨
      ∃ f, IsPl f ∧ PF.crop (tile ninf f0 L pinf) I =
        .ok (tileI (fin a) f ((a, tileAt f0 L a) :: knotsIn a b L) (endOf b)) := by
    rw [hcrop, hIa]
    cases hleft : I.left with
    | inc =>
      have : I.lower = fin a := by rw [CS.lowermost, hleft] at hIa; simpa using hIa
      rw [this]
      obtain ⟨e1, e2⟩ := startAt_inc (b := b) (a := a) (f := f0) hk
      rw [e1, e2]
      exact .inl rfl
    | exc =>
      have : I.lower = fin (a - 1) := by
        rw [CS.lowermost, hleft] at hIa
        cases hl : I.lower <;> simp [hl, FP.up] at hIa ⊢
        omega
      rw [this]
      rcases startAt_exc hab (f := f0) hk with ⟨e1, e2⟩ | e
      · rw [e1, e2]; exact .inl rfl
      · rw [e]
        exact .inr ⟨_, startAt_pl hf0 hL, rfl⟩
  rcases hA with hA | ⟨f, hf, hA⟩
  · obtain ⟨i, h1, h2, h3⟩ := tileI_head (lo := fin a) (f := tileAt f0 L a) (l := knotsIn a b L) (u := endOf b)
    refine ⟨_, _, hA, h1, by simp [CS.lowermost, h2, h3], ?_, fun y => ?_⟩
    · rw [tileI_fin, tile_at le_rfl (hend a hab), tileAt_before]
      exact fun s hs => (mem_knotsIn.1 hs).2.1
    · rw [PF.plusFn, addFn_tileI hfa hkl]
      exact simplify_tileI (hfa.shift y) (fun s hs => (hsl y s hs).1) (hsk y)
        (fun s hs => by simpa [FP.lt_def, leb] using (hsl y s hs).2.1)
        (fun s hs => hend _ (hsl y s hs).2.2) (hend a hab)
  · obtain ⟨i, h1, h2, h3⟩ := tileI_head (lo := fin a) (f := f) (l := (a, tileAt f0 L a) :: knotsIn a b L)
      (u := endOf b)
    refine ⟨_, _, hA, h1, by simp [CS.lowermost, h2, h3], ?_, fun y => ?_⟩
    · rw [tileI_fin, tile_at le_rfl (hend a hab), tileAt, if_neg (lt_irrefl _), tileAt_before]
      exact fun s hs => (mem_knotsIn.1 hs).2.1
    · rw [PF.plusFn, addFn_tileI hf (fun s hs => by
        rcases List.mem_cons.1 hs with rfl | hs
        · exact hfa
        · exact hkl s hs)]
      exact simplify_tileI_empty (hfa.shift y) (fun s hs => (hsl y s hs).1)
        (List.pairwise_cons.2 ⟨fun s hs => (hsl y s hs).2.1, hsk y⟩)
        (fun s hs => by
          rcases List.mem_cons.1 hs with rfl | hs
          · exact hend a hab
          · exact hend _ (hsl y s hs).2.2)

/-- The steps of `crop` before the loop, without a lower bound. -/
theorem crop_start_ninf {L : List (ℤ × Fn)} {v : ℚ} {I : CS} {b : FP}
    (hk : Knots L) (hL : ∀ s ∈ L, IsPl s.2) (hIa : I.lower = ninf)
    (hIb : I.uppermost = b) (hI : I.isempty = false) (hbn : b ≠ ninf) :
    ∃ c s, PF.crop (tile ninf (.const v) L pinf) I = .ok c ∧ c.head? = some s ∧ s.1.lowermost = ninf ∧
      PF.atPos c ninf = some (.const v) ∧
      ∀ y, PF.plusFn c (.const y) = .ok (tileI ninf (.const (v + y))
        (mrg (.const (v + y)) (shiftL y (L.takeWhile (fun s => leB s.1 b)))) (endOf b)) := by
  have hend : ∀ k, fin k ≤ b → fin k < endOf b := by
    intro k hk
    cases b <;> simp_all [endOf, FP.lt_def, FP.le_def, leb]
    omega
  have hst : startAt ninf (.const v) L = (.const v, L) := by
    cases L with
    | nil => rfl
    | cons s r =>
      obtain ⟨k, g⟩ := s
      simp [startAt, FP.le_def, leb]
  have hlm : I.lowermost = ninf := by simp [CS.lowermost, hIa, FP.up]
  have hcrop := crop_tile hIb hI (by rw [hIa]; cases I.upper <;> simp [FP.le_def, leb]) hbn (by simp [hIa])
    (lo := ninf) (f := .const v) hk (by simp [hIa])
  rw [hIa, hst, hlm] at hcrop
  have hkl : ∀ s ∈ L.takeWhile (fun s => leB s.1 b), IsPl s.2 ∧ fin s.1 ≤ b := fun s hs =>
    ⟨hL s ((List.takeWhile_sublist _).subset hs), by
      have := List.all_eq_true.1 (List.all_takeWhile (l := L) (p := fun s => leB s.1 b)) s hs
      simpa [leB] using this⟩
  have hsl : ∀ y, ∀ s ∈ shiftL y (L.takeWhile (fun s => leB s.1 b)), IsPl s.2 ∧ fin s.1 ≤ b := by
    intro y s hs
    simp only [shiftL, List.mem_map] at hs
    obtain ⟨t, ht, rfl⟩ := hs
    exact ⟨(hkl t ht).1.shift y, (hkl t ht).2⟩
  have hsk : ∀ y, Knots (shiftL y (L.takeWhile (fun s => leB s.1 b))) := by
    intro y
    have : Knots (L.takeWhile (fun s => leB s.1 b)) := List.Pairwise.sublist (List.takeWhile_sublist _) hk
    simpa only [Knots, shiftL, List.pairwise_map] using this
  obtain ⟨i, h1, h2, h3⟩ := tileI_head (lo := ninf) (f := .const v) (l := L.takeWhile (fun s => leB s.1 b))
    (u := endOf b)
  refine ⟨_, _, hcrop, h1, by simp [CS.lowermost, h2, h3], ?_, fun y => ?_⟩
  · cases hT : L.takeWhile (fun s => leB s.1 b) with
    | nil => simp [tileI, PF.atPos, PF.hit]
    | cons s r => simp [tileI, PF.atPos, PF.hit]
  · rw [PF.plusFn, addFn_tileI (f := .const v) trivial (fun s hs => (hkl s hs).1)]
    refine simplify_tileI (f := .const (v + y)) trivial (fun s hs => (hsl y s hs).1) (hsk y)
      (fun s hs => by simp [FP.lt_def, leb]) (fun s hs => hend _ (hsl y s hs).2) ?_
    cases b <;> simp_all [endOf, FP.lt_def, leb]

end Verif.Num
