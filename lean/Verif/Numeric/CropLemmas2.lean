import Verif.Numeric.CropLemmas

/-! # Cropping a tiling -/

namespace Verif.Num

open Iv Iv.FP Fun

theorem cutAt_pinf {b : FP} : cutAt b pinf = endOf b := by
  cases b <;> simp [cutAt, endOf]

theorem crop_nil {I : CS} : PF.crop [] I = .ok [] := rfl

/-- The pieces from a knot inside the interval on. -/
theorem crop_in {I : CS} {b : FP} (hb : I.uppermost = b) (hI : I.isempty = false) :
    ∀ {l : List (ℤ × Fn)} {k : ℤ} {f : Fn}, Knots ((k, f) :: l) → I.lower < fin k → leB k b = true →
    PF.crop (tile (fin k) f l pinf) I =
      .ok (tile (fin k) f (l.takeWhile (fun s => leB s.1 b)) (endOf b))
  | [], k, f, _, h1, h2 => by
    obtain ⟨e1, e2⟩ := piece_in hb (u := pinf) hI h1 h2 (by simp [FP.lt_def, leb])
    simp only [tile, brOf, crop_cons, e1, e2, if_true, crop_nil, bind, Except.bind, List.takeWhile_nil,
      cutAt_pinf]
  | (k', g) :: r, k, f, hk, h1, h2 => by
    have hk' := List.pairwise_cons.1 hk
    have hkk : k < k' := hk'.1 (k', g) (by simp)
    have hlt : fin k < fin k' := by simp [FP.lt_def, leb, hkk]
    obtain ⟨e1, e2⟩ := piece_in hb (u := fin k') hI h1 h2 hlt
    simp only [tile, brOf, crop_cons, e1, e2, if_true]
    cases hc : leB k' b with
    | true =>
      rw [crop_in hb hI hk'.2 (h1.trans hlt) hc]
      simp [cutAt, hc, bind, Except.bind, tile, brOf]
    | false =>
      rw [crop_behind hb hk'.2 hc (fun s _ => by simp [FP.lt_def, leb])]
      simp [cutAt, hc, bind, Except.bind, tile, brOf]

/-- The function at the lower bound `c`, and the knots behind it. -/
def startAt (c : FP) : Fn → List (ℤ × Fn) → Fn × List (ℤ × Fn)
  | f, [] => (f, [])
  | f, (k, g) :: r => if fin k ≤ c then startAt c g r else (f, (k, g) :: r)

/-- Cropping a tiling of the line. -/
theorem crop_tile {I : CS} {b : FP} (hb : I.uppermost = b) (hI : I.isempty = false)
    (hwf : I.lower ≤ I.upper) (hbn : b ≠ ninf) (hlp : I.lower ≠ pinf) :
    ∀ {l : List (ℤ × Fn)} {lo : FP} {f : Fn}, Knots l → lo ≤ I.lower → 
    PF.crop (tile lo f l pinf) I =
      .ok (tileI I.lowermost (startAt I.lower f l).1
        ((startAt I.lower f l).2.takeWhile (fun s => leB s.1 b)) (endOf b))
  | [], lo, f, _, h1 => by
    have hlo : lo ≠ pinf := by
      rintro rfl; apply hlp; revert h1; cases I.lower <;> simp [FP.le_def, leb]
    have h2 : I.lower < pinf := lt_of_le_of_ne (by cases I.lower <;> simp [FP.le_def, leb]) hlp
    obtain ⟨e1, e2⟩ := piece_first hb (u := pinf) hI hwf h1 h2 hbn hlo
    simp only [tile, startAt, crop_cons, e1, e2, if_true, crop_nil, bind, Except.bind,
      List.takeWhile_nil, cutAt_pinf, tileI]
  | (k, g) :: r, lo, f, hk, h1 => by
    have hk' := List.pairwise_cons.1 hk
    have hlo : lo ≠ pinf := by
      rintro rfl; apply hlp; revert h1; cases I.lower <;> simp [FP.le_def, leb]
    by_cases hc : fin k ≤ I.lower
    · have e0 : CS.intersects ⟨lo, fin k, brOf lo, .exc⟩ I = false := by
        unfold CS.intersects
        rw [hI]
        rcases lt_or_eq_of_le hc with h | h
        · simp [h]
        · simp only [← h]
          by_cases h3 : I.upper < lo <;> by_cases h4 : lo = I.upper <;> simp [h3, h4]
      simp only [tile, crop_cons, e0, startAt, if_pos hc]
      exact crop_tile hb hI hwf hbn hlp hk'.2 hc
    · have hc' : I.lower < fin k := not_le.1 hc
      obtain ⟨e1, e2⟩ := piece_first hb (u := fin k) hI hwf h1 hc' hbn hlo
      simp only [tile, crop_cons, e1, e2, if_true, startAt, if_neg hc]
      cases hcb : leB k b with
      | true =>
        rw [crop_in hb hI hk hc' hcb]
        simp [cutAt, hcb, bind, Except.bind, tileI]
      | false =>
        rw [crop_behind hb hk hcb (fun s _ => by simp [FP.lt_def, leb])]
        simp [cutAt, hcb, bind, Except.bind, tileI]

/-! ## Adding a constant and simplifying -/

/-- A function shifted by `y`. -/
def shiftFn (y : ℚ) : Fn → Fn
  | .const v => .const (v + y)
  | .lin m c => .lin m (c + y)
  | f => f

theorem IsPl.shift {f : Fn} (h : IsPl f) (y : ℚ) : IsPl (shiftFn y f) := by
  cases f <;> simp_all [IsPl, shiftFn]

theorem IsPl.plus {f : Fn} (h : IsPl f) (y : ℚ) : f.plus (.const y) = .ok (shiftFn y f) := by
  cases f with
  | const v => rfl
  | lin m c =>
    have : m ≠ 0 := ne_of_gt h
    simp [Fn.plus, Fn.add, Fn.simplify, shiftFn, Except.map, this]
  | undef => cases h
  | quad a b c => cases h

theorem ev_shift {f : Fn} (h : IsPl f) (y x : ℚ) : ev (shiftFn y f) x = ev f x + y := by
  cases f with
  | const v => rfl
  | lin m c => simp [ev, shiftFn, Fn.eval]; ring
  | undef => cases h
  | quad a b c => cases h

/-- Shifting all functions. -/
def shiftL (y : ℚ) (l : List (ℤ × Fn)) : List (ℤ × Fn) := l.map (fun s => (s.1, shiftFn y s.2))

theorem addFn_tile {y : ℚ} {u : FP} : ∀ {l : List (ℤ × Fn)} {lo : FP} {f : Fn}, IsPl f →
    (∀ s ∈ l, IsPl s.2) →
    PF.addFn (tile lo f l u) (.const y) = .ok (tile lo (shiftFn y f) (shiftL y l) u)
  | [], lo, f, hf, _ => by
    simp [PF.addFn, tile, hf.plus, Except.map, shiftL, bind, Except.bind, pure, Except.pure]
  | (k, g) :: r, lo, f, hf, hl => by
    have ih := addFn_tile (y := y) (u := u) (l := r) (lo := fin k) (f := g) (hl (k, g) (by simp))
      (fun s hs => hl s (by simp [hs]))
    simp only [PF.addFn] at ih
    simp only [PF.addFn, tile, List.mapM_cons]
    rw [ih, hf.plus]
    rfl

theorem addFn_tileI {y : ℚ} {u : FP} {l : List (ℤ × Fn)} {lo : FP} {f : Fn} (hf : IsPl f)
    (hl : ∀ s ∈ l, IsPl s.2) :
    PF.addFn (tileI lo f l u) (.const y) = .ok (tileI lo (shiftFn y f) (shiftL y l) u) := by
  cases l with
  | nil => simp [PF.addFn, tileI, hf.plus, Except.map, shiftL, bind, Except.bind, pure, Except.pure]
  | cons s r =>
    obtain ⟨k, g⟩ := s
    have ih := addFn_tile (y := y) (u := u) (l := r) (lo := fin k) (f := g) (hl (k, g) (by simp))
      (fun s hs => hl s (by simp [hs]))
    simp only [PF.addFn] at ih
    simp only [PF.addFn, tileI, List.mapM_cons]
    rw [ih, hf.plus]
    rfl

/-- The knots at which the function changes. -/
def mrg : Fn → List (ℤ × Fn) → List (ℤ × Fn)
  | _, [] => []
  | f, (k, g) :: r => if g = f then mrg f r else (k, g) :: mrg g r

theorem comparator_next {lo : FP} {k : ℤ} {bl : Br} {i : CS} (h1 : i.lower = fin k) (h2 : i.left = .inc)  :
    CS.comparator ⟨lo, fin k, bl, .exc⟩ i = .ok (-1) := by
  unfold CS.comparator
  rw [if_pos]
  simp [CS.uppermost, CS.lowermost, h1, h2, FP.dn, FP.lt_def, leb]

theorem sortSegs_tile {u : FP} : ∀ {l : List (ℤ × Fn)} {lo : FP} {f : Fn},
    PF.sortSegs (tile lo f l u) = .ok (tile lo f l u)
  | [], _, _ => rfl
  | (k, g) :: r, lo, f => by
    simp only [tile, PF.sortSegs, bind, Except.bind, sortSegs_tile (l := r)]
    cases r with
    | nil =>
      simp only [tile, PF.insertSeg, bind, Except.bind, brOf, comparator_next]
      simp
    | cons s r =>
      simp only [tile, PF.insertSeg, bind, Except.bind, brOf, comparator_next]
      simp

theorem sortSegs_tileI {u : FP} {l : List (ℤ × Fn)} {lo : FP} {f : Fn} :
    PF.sortSegs (tileI lo f l u) = .ok (tileI lo f l u) := by
  cases l with
  | nil => rfl
  | cons s r =>
    obtain ⟨k, g⟩ := s
    simp only [tileI, PF.sortSegs, bind, Except.bind, sortSegs_tile (l := r)]
    cases r with
    | nil =>
      simp only [tile, PF.insertSeg, bind, Except.bind, brOf, comparator_next]
      simp
    | cons s r =>
      simp only [tile, PF.insertSeg, bind, Except.bind, brOf, comparator_next]
      simp

theorem halfopen_nonempty {lo u : FP} (h : lo < u) : CS.isempty ⟨lo, u, .inc, .exc⟩ = false := by
  simp [CS.isempty, not_lt.2 h.le, ne_of_lt h, CS.itype, Br.code]

/-- The loop of `simplify` on a tiling. -/
theorem simplifyLoop_tile {u : FP} : ∀ {l : List (ℤ × Fn)} {lo : FP} {f g : Fn} {k : ℤ}, IsPl f →
    IsPl g → (∀ s ∈ l, IsPl s.2) → Knots ((k, g) :: l) → (∀ s ∈ (k, g) :: l, fin s.1 < u) →
    PF.simplifyLoop (⟨lo, fin k, .inc, .exc⟩, f) (tile (fin k) g l u) =
      .ok (tileI lo f (mrg f ((k, g) :: l)) u)
  | [], lo, f, g, k, hf, hg, _, hk, hu => by
    have h1 := halfopen_nonempty (hu (k, g) (by simp))
    have hc : CS.contiguous ⟨fin k, u, .inc, .exc⟩ ⟨lo, fin k, .inc, .exc⟩ = true := by
      simp [CS.contiguous, Br.code]
    simp only [tile, brOf, PF.simplifyLoop, h1, hc, if_true, hg.eq hf, mrg]
    by_cases e : g = f
    · subst e; simp [tileI]
    · simp [e, tileI, tile, brOf, Except.map]
  | (k', g') :: r, lo, f, g, k, hf, hg, hl, hk, hu => by
    have hk' := List.pairwise_cons.1 hk
    have hkk : fin k < fin k' := by
      have := hk'.1 (k', g') (by simp)
      simpa [FP.lt_def, leb] using this
    have h1 := halfopen_nonempty hkk
    have hc : CS.contiguous ⟨fin k, fin k', .inc, .exc⟩ ⟨lo, fin k, .inc, .exc⟩ = true := by
      simp [CS.contiguous, Br.code]
    have hg' : IsPl g' := hl (k', g') (by simp)
    have hl' : ∀ s ∈ r, IsPl s.2 := fun s hs => hl s (by simp [hs])
    have hu' : ∀ s ∈ (k', g') :: r, fin s.1 < u := fun s hs => hu s (by simp [List.mem_cons.1 hs])
    simp only [tile, brOf, PF.simplifyLoop, h1, hc, if_true, hg.eq hf]
    by_cases e : g = f
    · subst e
      simp only [decide_true]
      have := simplifyLoop_tile (u := u) (l := r) (lo := lo) (f := g) (g := g') (k := k') hg hg' hl' hk'.2 hu'
      simp only [Bool.false_eq_true, if_false]
      rw [this]
      conv_rhs => rw [mrg, if_pos rfl]
    · simp only [e, decide_false]
      have := simplifyLoop_tile (u := u) (l := r) (lo := fin k) (f := g) (g := g') (k := k') hg hg' hl' hk'.2 hu'
      simp only [Bool.false_eq_true, if_false]
      rw [this, tileI_fin]
      conv_rhs => rw [mrg, if_neg e]
      simp [Except.map, tileI]

/-- `simplify` of a tiling whose first piece is not empty. -/
theorem simplify_tileI {u : FP} {l : List (ℤ × Fn)} {lo : FP} {f : Fn} (hf : IsPl f)
    (hl : ∀ s ∈ l, IsPl s.2) (hk : Knots l) (hlo : ∀ s ∈ l, lo < fin s.1) (hu : ∀ s ∈ l, fin s.1 < u)
    (hlu : lo < u) :
    PF.simplify (tileI lo f l u) = .ok (tileI lo f (mrg f l) u) := by
  simp only [PF.simplify, sortSegs_tileI, bind, Except.bind]
  cases l with
  | nil =>
    simp only [tileI, PF.simplifyStart, halfopen_nonempty hlu, mrg]
    rfl
  | cons s r =>
    obtain ⟨k, g⟩ := s
    simp only [tileI, PF.simplifyStart, halfopen_nonempty (hlo (k, g) (by simp))]
    exact simplifyLoop_tile hf (hl (k, g) (by simp)) (fun s hs => hl s (by simp [hs])) hk hu

/-- `simplify` of a tiling whose first piece is empty. -/
theorem simplify_tileI_empty {u : FP} {l : List (ℤ × Fn)} {k : ℤ} {f g : Fn} (hg : IsPl g)
    (hl : ∀ s ∈ l, IsPl s.2) (hk : Knots ((k, g) :: l)) (hu : ∀ s ∈ (k, g) :: l, fin s.1 < u) :
    PF.simplify (tileI (fin k) f ((k, g) :: l) u) = .ok (tileI (fin k) g (mrg g l) u) := by
  have he : CS.isempty ⟨fin k, fin k, .inc, .exc⟩ = true := by
    simp [CS.isempty, CS.isclosed, CS.itype, Br.code]
  simp only [PF.simplify, sortSegs_tileI, bind, Except.bind]
  rw [show tileI (fin k) f ((k, g) :: l) u = (⟨fin k, fin k, .inc, .exc⟩, f) :: tile (fin k) g l u from rfl]
  simp only [PF.simplifyStart, he, if_true]
  have := simplify_tileI (u := u) (l := l) (lo := fin k) (f := g) hg hl (List.pairwise_cons.1 hk).2
    (fun s hs => by
      have := (List.pairwise_cons.1 hk).1 s hs
      simpa [FP.lt_def, leb] using this) (fun s hs => hu s (by simp [hs])) (hu (k, g) (by simp))
  simp only [PF.simplify, sortSegs_tileI, bind, Except.bind] at this
  rw [tileI_fin] at this
  exact this

end Verif.Num
