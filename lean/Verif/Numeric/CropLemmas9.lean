import Verif.Numeric.CropLemmas8
import Verif.Numeric.PpfLemmas

/-! # Cropping a fitted cdf -/

namespace Verif.Num

open Iv Iv.FP Fun

theorem segs_get {val : ℤ → ℚ} : ∀ {pts : List (ℤ × ℚ)} {s : ℤ × Fn}, s ∈ segs val pts →
    ∃ (i : ℕ) (p q : ℤ × ℚ), pts[i]? = some p ∧ pts[i + 1]? = some q ∧ s = (p.1, lineOf val p q)
  | [], _, h => by simp [segs] at h
  | [_], _, h => by simp [segs] at h
  | a :: b :: r, s, h => by
    simp only [segs, List.mem_cons] at h
    rcases h with rfl | h
    · exact ⟨0, a, b, rfl, rfl, rfl⟩
    · obtain ⟨i, p, q, h1, h2, h3⟩ := segs_get h
      exact ⟨i + 1, p, q, by simpa using h1, by simpa using h2, h3⟩

theorem lineOf_pl {val : ℤ → ℚ} (hval : StrictMono val) {p q : ℤ × ℚ} (h1 : p.1 < q.1) (h2 : p.2 < q.2) :
    IsPl (lineOf val p q) := div_pos (sub_pos.2 h2) (sub_pos.2 (hval h1))

theorem ev_line_left {val : ℤ → ℚ} (p q : ℤ × ℚ) : ev (lineOf val p q) (val p.1) = p.2 := by
  simp [ev, lineOf_eval]

theorem ev_line_right {val : ℤ → ℚ} (hval : StrictMono val) {p q : ℤ × ℚ} (h1 : p.1 < q.1) :
    ev (lineOf val p q) (val q.1) = q.2 := by
  simp [ev, lineOf_eval, lineOf_end hval h1]

theorem rank_single {s : List ℤ} {lo : ℤ} (hmin : ∀ x ∈ s, lo ≤ x) (h1 : s.count lo = 1) : rank s lo = 0 := by
  have : s.countP (fun v => decide (v ≤ lo)) = s.count lo := by
    rw [List.count]
    apply List.countP_congr
    intro x hx
    have := hmin x hx
    simp only [decide_eq_true_eq, beq_iff_eq]
    omega
  rw [rank, this, h1]; simp

/-- Cropping a fitted cdf. -/
theorem crop_fit_tile {val : ℤ → ℚ} (hval : StrictMono val) {pts : List (ℤ × ℚ)} {p : PF} {F : ℤ → ℚ} {lo hi : ℤ}
    {r0 : ℚ} (hshape : p = tile ninf (.const 0) (segs val pts ++ [(hi + 1, .const 1)]) pinf)
    (heval : ∀ n, p.eval val n = .ok (some (F n))) (hr : Rising pts) (hlen : 2 ≤ pts.length)
    (hhead : pts.head? = some (lo, r0)) (hlast : pts.getLast? = some (hi, 1)) {I : CS}
    (htop : ∀ n, I.Mem (fin n) → n ≤ hi) (hr0 : I.Mem (fin (lo - 1)) → r0 = 0)
    (hsize : ∀ q ∈ pts, q.1 ≠ lo → I.Mem (fin q.1) → I.Mem (fin (q.1 - 1)) →
      I.Mem (fin (q.1 - 2)) ∧ ∀ t ∈ pts, t.1 ≠ q.1 - 1)
    {y0 y1 : ℚ} (hy0 : LowEnd F I y0) (hy1 : HighEnd F I y1) (hy : y0 < y1) {m : ℤ} (hm : I.Mem (fin m)) :
    ∃ (R : List (ℤ × Fn)) (G : ℤ → ℚ), Knots R ∧ R ≠ [] ∧ (∀ n, IsPl (tileAt (.const 0) R n)) ∧ RisesTo val I.uppermost R ∧
      crop val p I = .ok (tile ninf (.const 0) R pinf) ∧
      (∀ n, (tile ninf (.const 0) R pinf).eval val n = .ok (some (G n))) ∧ Conditioned F I y0 y1 G := by
  have hk : Knots (segs val pts ++ [(hi + 1, .const 1)]) := full_knots hr hlast
  have hL : ∀ s ∈ segs val pts ++ [(hi + 1, .const 1)], IsPl s.2 := by
    intro s hs
    rcases List.mem_append.1 hs with hs | hs
    · obtain ⟨i, a, b, h1, h2, rfl⟩ := segs_get hs
      have := rising_get hr h1 h2
      exact lineOf_pl hval this.1 this.2
    · simp only [List.mem_singleton] at hs; subst hs; trivial
  have hF : ∀ n, ev (tileAt (.const 0) (segs val pts ++ [(hi + 1, .const 1)]) n) (val n) = F n := by
    intro n
    have h1 := heval n
    rw [hshape, tile_eval, (tileAt_pl (f := .const 0) trivial hL).eval] at h1
    simpa using h1
  have hrest : ∀ s ∈ [((hi + 1, .const 1) : ℤ × Fn)], ∀ p ∈ pts, p.1 < s.1 := by
    intro s hs q hq
    have := rising_le_last hr hq hlast
    simp only [List.mem_singleton] at hs
    subst hs
    simp only at this ⊢; omega
  -- what comes before a knot
  have hprev : ∀ s ∈ segs val pts ++ [(hi + 1, .const 1)], I.Mem (fin s.1) →
      (s.1 = lo ∧ ev s.2 (val s.1) = r0 ∧
        tileAt (.const 0) (segs val pts ++ [(hi + 1, .const 1)]) (s.1 - 1) = .const 0) ∨
      (s.1 ≠ lo ∧ ∃ q ∈ pts, s.1 = q.1 ∧
        ev (tileAt (.const 0) (segs val pts ++ [(hi + 1, .const 1)]) (s.1 - 1)) (val s.1) = ev s.2 (val s.1)) := by
    intro s hs hsI
    rcases List.mem_append.1 hs with hs | hs
    · obtain ⟨i, a, b, h1, h2, rfl⟩ := segs_get hs
      cases i with
      | zero =>
        rw [List.head?_eq_getElem?, h1] at hhead
        cases hhead
        refine .inl ⟨rfl, ev_line_left _ _, tileAt_segs_before (fun q hq => ?_) hlen⟩
        obtain ⟨j, hj⟩ := List.getElem?_of_mem hq
        rcases Nat.eq_zero_or_pos j with rfl | hj0
        · rw [h1] at hj; cases hj; simp
        · obtain ⟨hi1, e1⟩ := List.getElem?_eq_some_iff.1 h1
          obtain ⟨hj1, e2⟩ := List.getElem?_eq_some_iff.1 hj
          have := (List.pairwise_iff_getElem.1 hr 0 j hi1 hj1 hj0).1
          rw [e1, e2] at this
          simp only at this ⊢; omega
      | succ i =>
        have hi' : i < pts.length := by
          have := (List.getElem?_eq_some_iff.1 h1).1; omega
        obtain ⟨c, hc⟩ : ∃ c, pts[i]? = some c := ⟨_, List.getElem?_eq_getElem hi'⟩
        have hca := rising_get hr hc h1
        have ht : tileAt (.const 0) (segs val pts ++ [(hi + 1, .const 1)]) (a.1 - 1) = lineOf val c a :=
          tileAt_segs_on i c a hr hrest hc h1 (by omega) (by omega) (.inl (by omega))
        refine .inr ⟨?_, a, List.mem_of_getElem? h1, rfl, ?_⟩
        · intro hal
          simp only at hal
          have h0 : 0 < pts.length := by omega
          rw [List.head?_eq_getElem?] at hhead
          obtain ⟨_, e1⟩ := List.getElem?_eq_some_iff.1 hhead
          obtain ⟨hj1, e2⟩ := List.getElem?_eq_some_iff.1 h1
          have := (List.pairwise_iff_getElem.1 hr 0 (i + 1) h0 hj1 (by omega)).1
          rw [e1, e2] at this
          simp only at this; omega
        · rw [ht, ev_line_right hval hca.1, ev_line_left]
    · simp only [List.mem_singleton] at hs
      subst hs
      have := htop _ hsI
      simp only at this; omega
  subst hshape
  obtain ⟨R, G, h1, h2, h3, h4, h5⟩ := crop_conditions hval hk hL (lastOf_append _ _ _ _) hF hy0 hy1 hy hm
    (fun s hs h1 h2 => by
      rcases hprev s hs h1 with ⟨e1, e2, e3⟩ | ⟨-, q, -, -, e⟩
      · rw [e3, e2, hr0 (by rw [← e1]; exact h2)]; rfl
      · exact e)
    (fun s hs h1 h2 hlin => by
      rcases hprev s hs h1 with ⟨e1, e2, e3⟩ | ⟨hne, q, hq, e1, e⟩
      · rw [e3] at hlin; exact hlin.elim
      · rw [e1] at hne h1 h2 ⊢
        refine ⟨(hsize q hq hne h1 h2).1, fun t ht => ?_⟩
        rcases List.mem_append.1 ht with ht | ht
        · obtain ⟨i, a, b, h3, h4, rfl⟩ := segs_get ht
          exact (hsize q hq hne h1 h2).2 a (List.mem_of_getElem? h3)
        · simp only [List.mem_singleton] at ht
          subst ht
          have := rising_le_last hr hq hlast
          simp only at this ⊢; omega)
  refine ⟨R, G, h1, h2, h3, h4 (fun s hs hsI => ?_), h5⟩
  rcases List.mem_append.1 hs with hs | hs
  · obtain ⟨i, a, b, -, -, rfl⟩ := segs_get hs
    trivial
  · simp only [List.mem_singleton] at hs
    subst hs
    have := htop _ hsI
    simp only at this; omega

theorem crop_fit {val : ℤ → ℚ} (hval : StrictMono val) {pts : List (ℤ × ℚ)} {p : PF} {F : ℤ → ℚ} {lo hi : ℤ}
    {r0 : ℚ} (hshape : p = tile ninf (.const 0) (segs val pts ++ [(hi + 1, .const 1)]) pinf)
    (heval : ∀ n, p.eval val n = .ok (some (F n))) (hr : Rising pts) (hlen : 2 ≤ pts.length)
    (hhead : pts.head? = some (lo, r0)) (hlast : pts.getLast? = some (hi, 1)) {I : CS}
    (htop : ∀ n, I.Mem (fin n) → n ≤ hi) (hr0 : I.Mem (fin (lo - 1)) → r0 = 0)
    (hsize : ∀ q ∈ pts, q.1 ≠ lo → I.Mem (fin q.1) → I.Mem (fin (q.1 - 1)) →
      I.Mem (fin (q.1 - 2)) ∧ ∀ t ∈ pts, t.1 ≠ q.1 - 1)
    {y0 y1 : ℚ} (hy0 : LowEnd F I y0) (hy1 : HighEnd F I y1) (hy : y0 < y1) {m : ℤ} (hm : I.Mem (fin m)) :
    ∃ (p' : PF) (G : ℤ → ℚ), crop val p I = .ok p' ∧ (∀ n, p'.eval val n = .ok (some (G n))) ∧
      Conditioned F I y0 y1 G := by
  obtain ⟨R, G, -, -, -, -, h3, h4, h5⟩ := crop_fit_tile hval hshape heval hr hlen hhead hlast htop hr0 hsize hy0 hy1 hy hm
  exact ⟨_, G, h3, h4, h5⟩

/-- A fitted cdf has no mass outside of the samples. -/
theorem crop_fit_outside {val : ℤ → ℚ} {pts : List (ℤ × ℚ)} {p : PF} {lo hi : ℤ} {r0 : ℚ}
    (hshape : p = tile ninf (.const 0) (segs val pts ++ [(hi + 1, .const 1)]) pinf) (hlen : 2 ≤ pts.length)
    (hhead : pts.head? = some (lo, r0)) {I : CS} {m : ℤ} (hm : I.Mem (fin m))
    (hout : (∀ n, I.Mem (fin n) → n < lo) ∨ ∀ n, I.Mem (fin n) → hi + 1 < n) :
    crop val p I = .error .unsatisfiable := by
  subst hshape
  match pts, hlen with
  | a :: b :: r, _ =>
    simp only [List.head?_cons, Option.some.injEq] at hhead
    subst hhead
    simp only [segs, List.cons_append]
    refine crop_outside (z := (hi + 1, .const 1)) (by
      rw [← List.cons_append]; exact List.getLast?_concat) ?_
    have hmm := mem_fin_iff.1 hm
    rcases hout with h | h
    · left
      cases hu : I.uppermost with
      | ninf => simp [FP.lt_def, leb]
      | pinf =>
        have := h (max m lo) (mem_fin_iff.2 ⟨hmm.1.trans (by simp [FP.le_def, leb]), by
          rw [hu]; simp [FP.le_def, leb]⟩)
        omega
      | fin k =>
        rw [hu] at hmm
        have := h k (mem_fin_iff.2 ⟨hmm.1.trans hmm.2, by rw [hu]⟩)
        simpa [FP.lt_def, leb] using this
    · right
      cases hl : I.lowermost with
      | pinf => simp [FP.lt_def, leb]
      | ninf =>
        have := h (min m (hi + 1)) (mem_fin_iff.2 ⟨by rw [hl]; simp [FP.le_def, leb],
          (show fin (min m (hi + 1)) ≤ fin m by simp [FP.le_def, leb]).trans hmm.2⟩)
        omega
      | fin k =>
        rw [hl] at hmm
        have := h k (mem_fin_iff.2 ⟨by rw [hl], hmm.1.trans hmm.2⟩)
        simpa [FP.lt_def, leb] using this

/-- A distribution on a single value above the least float of the interval. -/
theorem crop_jump {val : ℤ → ℚ} {x : ℤ} {I : CS} (h1 : I.Mem (fin x)) (h2 : I.Mem (fin (x - 1))) :
    crop val (jumpCdf x) I = .ok (jumpCdf x) := by
  obtain ⟨hI, hwf⟩ := mem_wf h1
  have hm1 := mem_fin_iff.1 h1
  have hm2 := mem_fin_iff.1 h2
  have hk : Knots [((x, .const 1) : ℤ × Fn)] := by simp [Knots]
  have hL : ∀ s ∈ [((x, .const 1) : ℤ × Fn)], IsPl s.2 := by simp [IsPl]
  have hb : I.uppermost ≠ ninf := by intro h; rw [h] at hm1; simp [FP.le_def, leb] at hm1
  have hshape : jumpCdf x = tile ninf (.const 0) [(x, .const 1)] pinf := rfl
  have hloop : ∀ lo : FP, (do
        let r ← cropLoop val 1 (tileI lo (.const 0) [(x, .const 1)] (endOf I.uppermost))
          [(⟨ninf, lo, .exc, .exc⟩, .const 0)] (.const 0)
        let r ← cropEnd I.uppermost r
        assertConsistency (r.filter (fun s => !s.1.isempty))) = .ok (jumpCdf x) := by
    intro lo
    have hz : (Fn.const 0).eq (.const 0) = .ok true := by simp [Fn.eq]
    have hz1 : (Fn.const 1).eq (.const 0) = .ok false := by simp [Fn.eq]
    have hz2 : (Fn.const 1).eq (.const 1) = .ok true := by simp [Fn.eq]
    have hf := filter_tile (f := .const 0) (lo := ninf) hk (fun s _ => by simp [FP.lt_def, leb])
      (by simp [FP.lt_def, leb])
    simp only [tile, brOf] at hf
    simp [tileI, tile, cropLoop, hz, hz1, hz2, bind, Except.bind, setUpper, lastFn, lastUpper, evalFP, Fn.eval,
      cropPiece, cropInterval, cropEnd, openLast, assertConsistency, brOf, hf, jumpCdf]
  have hun : ¬ (I.uppermost < fin x ∨ I.lowermost > fin x) := by
    rintro (h | h)
    · exact absurd (h.trans_le hm1.2) (lt_irrefl _)
    · exact absurd (h.trans_le hm1.1) (lt_irrefl _)
  have hlast1 : evalFP val (.const 1) I.uppermost = .ok 1 := by cases I.uppermost <;> rfl
  rcases hl : I.lower with _ | a' | _
  · obtain ⟨c, s, hc1, hc2, hc3, hc4, hc5⟩ := crop_start_ninf (v := 0) hk hL hl rfl hI hb
    have hc6 := hc5 (-0)
    have hx : leB x I.uppermost = true := by simpa [leB] using hm1.2
    simp only [hx, List.takeWhile_cons, if_true, List.takeWhile_nil, shiftL, List.map_cons, List.map_nil, shiftFn,
      neg_zero, add_zero, mrg, Fn.const.injEq, one_ne_zero, if_false] at hc6
    obtain ⟨i, hi1, hi2, hi3⟩ := tileI_head (lo := ninf) (f := .const 0) (l := [(x, .const 1)])
      (u := endOf I.uppermost)
    have hev : evalFP val (.const 0) ninf = .ok 0 := rfl
    rw [← hshape] at hc1
    unfold crop
    simp only [jumpCdf, List.head?_cons, List.getLast?_cons_cons, List.getLast?_singleton, if_neg hun] at hc1 ⊢
    simp only [hc1, bind, Except.bind, hc2, hc3, hc4, hev, neg_zero, hc6, hi1, tileI_lastFn, lastOf, hlast1, hi2]
    simpa only [bind, Except.bind, jumpCdf] using hloop ninf
  · obtain ⟨a, hIa⟩ : ∃ a, I.lowermost = fin a := by
      rw [CS.lowermost, hl]; cases I.left <;> simp [FP.up]
    have hax : a ≤ x - 1 := by have := hm2.1; rw [hIa] at this; simpa [FP.le_def, leb] using this
    have hab : fin a ≤ I.uppermost := (show fin a ≤ fin x by simp [FP.le_def, leb]; omega).trans hm1.2
    obtain ⟨c, s, hc1, hc2, hc3, hc4, hc5⟩ := crop_start hk (f0 := .const 0) trivial hL hIa rfl hI hwf hab
    have hc6 := hc5 (-0)
    have hx : leB x I.uppermost = true := by simpa [leB] using hm1.2
    have hax' : a < x := by omega
    have ht : tileAt (.const 0) [((x, .const 1) : ℤ × Fn)] a = .const 0 := by simp [tileAt, hax']
    have hkn : knotsIn a I.uppermost [((x, .const 1) : ℤ × Fn)] = [(x, .const 1)] := by simp [knotsIn, hx, hax']
    rw [ht] at hc4
    simp only [ht, hkn, shiftL, List.map_cons, List.map_nil, shiftFn,
      neg_zero, add_zero, mrg, Fn.const.injEq, one_ne_zero, if_false] at hc6
    obtain ⟨i, hi1, hi2, hi3⟩ := tileI_head (lo := fin a) (f := .const 0) (l := [(x, .const 1)])
      (u := endOf I.uppermost)
    have hev : evalFP val (.const 0) (fin a) = .ok 0 := rfl
    rw [← hshape] at hc1
    unfold crop
    simp only [jumpCdf, List.head?_cons, List.getLast?_cons_cons, List.getLast?_singleton, if_neg hun] at hc1 ⊢
    simp only [hc1, bind, Except.bind, hc2, hc3, hc4, hev, neg_zero, hc6, hi1, tileI_lastFn, lastOf, hlast1, hi2]
    simpa only [bind, Except.bind, jumpCdf] using hloop (fin a)
  · rw [CS.lowermost, hl] at hm1
    cases hleft : I.left <;> simp [hleft, FP.up, FP.le_def, leb] at hm1

end Verif.Num
