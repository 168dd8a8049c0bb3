import Verif.Numeric.CropLemmas3

/-! # The end of `crop`, and the values of the result -/

namespace Verif.Num

open Iv Iv.FP Fun

/-- The last piece of the result, and the constant 1. -/
def tailL (alpha : ℚ) (b : FP) (x : ℤ) : Fn → List (ℤ × Fn)
  | .lin m c => match b with
    | fin n => if x < n then [(x, sc alpha (.lin m c)), (n, .const 1)] else [(x, .const 1)]
    | _ => [(x, .const 1)]
  | _ => [(x, .const 1)]

/-- The pieces of the result. -/
def finalL (alpha : ℚ) (b : FP) : ℤ → Fn → List (ℤ × Fn) → List (ℤ × Fn)
  | x, f, [] => tailL alpha b x f
  | x, f, (k, g) :: r => (x, sc alpha f) :: finalL alpha b k g r

theorem openLast_cons {s : CS × Fn} {l : PF} (h : 2 ≤ l.length) : openLast (s :: l) = s :: openLast l := by
  match l, h with
  | t :: t' :: l, _ => rfl

theorem openLast_tile {u : FP} : ∀ {l : List (ℤ × Fn)} {lo : FP} {f : Fn}, l ≠ [] →
    openLast (tile lo f l u) = tile lo f l pinf
  | [], _, _, h => absurd rfl h
  | [(k, g)], lo, f, _ => rfl
  | (k, g) :: s :: r, lo, f, _ => by
    have ih := openLast_tile (u := u) (l := s :: r) (lo := fin k) (f := g) (by simp)
    rw [tile, openLast_cons (by rw [tile_length]; simp), ih]
    rfl

theorem Run.last {val : ℤ → ℚ} : ∀ {l : List (ℤ × Fn)} {x : ℤ} {f : Fn}, Run val x f l →
    IsPl (lastOf f l)
  | [], _, _, h => h
  | (k, g) :: r, _, _, h => Run.last (l := r) (x := k) (f := g) h.2.2.2.2

theorem cropEnd_one {b u : FP} {lo : FP} {f : Fn} {l : List (ℤ × Fn)} {k : ℤ} :
    cropEnd b (tile lo f (l ++ [(k, .const 1)]) u) = .ok (tile lo f (l ++ [(k, .const 1)]) pinf) := by
  simp only [cropEnd, lastFn_tile, lastOf_append, bind, Except.bind, Fn.eq, decide_true, if_true]
  rw [openLast_tile (by simp)]

theorem cropEnd_lin {b k : ℤ} {lo : FP} {f : Fn} {l : List (ℤ × Fn)} {m c : ℚ} (hm : m ≠ 0) (hk : k < b) :
    cropEnd (fin b) (tile lo f (l ++ [(k, .lin m c)]) (fin (b + 1))) =
      .ok (tile lo f (l ++ [(k, .lin m c)] ++ [(b, .const 1)]) pinf) := by
  obtain ⟨i, h1, h2, h3, h4⟩ := getLast_tile (u := fin (b + 1)) (l := l ++ [(k, .lin m c)]) (lo := lo) (f := f)
  obtain ⟨h5, h6⟩ := h4 k _ l rfl
  have hc : i.containsValue (fin b) = true := by
    rw [CS.containsValue_iff]
    obtain ⟨il, iu, iL, iR⟩ := i
    simp only at h2 h3 h5 h6
    subst h2 h3 h5 h6
    simp [CS.Mem, FP.lt_def, leb]
    omega
  simp only [cropEnd, lastFn_tile, lastOf_append, bind, Except.bind, Fn.eq, hm, false_and, decide_false,
    Bool.false_eq_true, if_false, h1, hc, if_true, h2, FP.dn, setUpper_tile]
  rw [show b + 1 - 1 = b by omega, tile_append]

/-- The end of `crop` after the loop. -/
theorem cropEnd_run {val : ℤ → ℚ} {alpha : ℚ} (ha : 0 < alpha) {b lo : FP} {h : Fn} :
    ∀ {l : List (ℤ × Fn)} {x : ℤ} {f : Fn} {D : List (ℤ × Fn)}, Run val x f l →
    evalFP val (lastOf f l) b = .ok alpha → fin x ≤ b → (∀ s ∈ l, fin s.1 ≤ b) → b ≠ ninf →
    cropEnd b (tile lo h (D ++ scaleL val alpha (endOf b) x f l) (endOf b)) =
      .ok (tile lo h (D ++ finalL alpha b x f l) pinf)
  | [], x, f, D, hrun, hal, hx, _, hb => by
    have hf : IsPl f := hrun
    simp only [scaleL, finalL, lastOf] at hal ⊢
    cases f with
    | const v =>
      have hv : v = alpha := by
        cases b <;> simpa [evalFP, Fn.eval] using hal
      subst hv
      have e : (if endOf b = fin (x + 1) then (Fn.const (ev (.const v) (val x) / v)) else sc v (.const v)) =
          .const 1 := by
        have : v / v = 1 := div_self ha.ne'
        split <;> simp [ev, Fn.eval, sc, this]
      rw [e]
      exact cropEnd_one
    | lin m c =>
      cases b with
      | ninf => exact absurd rfl hb
      | pinf => simp [evalFP] at hal
      | fin n =>
        have hal' : ev (.lin m c) (val n) = alpha := by
          simpa [evalFP, Fn.eval, ev] using hal
        have hxn : x ≤ n := by simpa [FP.le_def, leb] using hx
        by_cases hlt : x < n
        · have e : ¬ (endOf (fin n) = fin (x + 1)) := by simp [endOf]; omega
          rw [if_neg e]
          have hm : m / alpha ≠ 0 := ne_of_gt (div_pos hf ha)
          have := cropEnd_lin (lo := lo) (f := h) (l := D) (m := m / alpha) (c := c / alpha) hm hlt
          simp only [tailL, if_pos hlt, sc, endOf] at this ⊢
          rw [this]
          simp
        · have hxe : n = x := by omega
          subst hxe
          rw [if_pos (show endOf (fin n) = fin (n + 1) from rfl), hal', div_self ha.ne']
          simp only [tailL, lt_irrefl, if_false]
          exact cropEnd_one
    | undef => cases hf
    | quad a b c => cases hf
  | (k, g) :: r, x, f, D, hrun, hal, hx, hl, hb => by
    have ih := cropEnd_run ha (h := h) (lo := lo) (l := r) (x := k) (f := g) (D := D ++ [(x, sc alpha f)])
      hrun.2.2.2.2 hal (hl (k, g) (by simp)) (fun s hs => hl s (by simp [hs])) hb
    simp only [scaleL, finalL]
    simpa using ih

/-! ## Values -/

theorem finalL_head {alpha : ℚ} {b : FP} (x : ℤ) (f : Fn) (l : List (ℤ × Fn)) :
    ∃ g r, finalL alpha b x f l = (x, g) :: r := by
  cases l with
  | nil =>
    cases f <;> cases b <;> simp only [finalL, tailL]
    case lin.fin m c n => by_cases h : x < n <;> simp [h]
    all_goals exact ⟨_, _, rfl⟩
  | cons s r => exact ⟨_, _, rfl⟩

theorem finalL_before {alpha : ℚ} {b : FP} {h : Fn} {x n : ℤ} {f : Fn} {l : List (ℤ × Fn)} (hn : n < x) :
    tileAt h (finalL alpha b x f l) n = h := by
  obtain ⟨g, r, e⟩ := finalL_head (alpha := alpha) (b := b) x f l
  rw [e, tileAt, if_pos hn]

theorem finalL_on {val : ℤ → ℚ} {alpha : ℚ} (ha : 0 < alpha) {b : FP} :
    ∀ {l : List (ℤ × Fn)} {h : Fn} {x n : ℤ} {f : Fn}, Run val x f l →
    evalFP val (lastOf f l) b = .ok alpha → (∀ s ∈ l, fin s.1 ≤ b) → fin x ≤ b → x ≤ n →
    (b ≤ fin n → (tileAt h (finalL alpha b x f l) n) = .const 1) ∧
    (fin n ≤ b → IsPl (tileAt h (finalL alpha b x f l) n) ∧
      ev (tileAt h (finalL alpha b x f l) n) (val n) = ev (tileAt f l n) (val n) / alpha)
  | [], h, x, n, f, hrun, hal, _, hxb, hxn => by
    have hf : IsPl f := hrun
    simp only [finalL, lastOf, tileAt] at hal ⊢
    cases f with
    | const v =>
      have hv : v = alpha := by cases b <;> simpa [evalFP, Fn.eval] using hal
      subst hv
      have : v / v = 1 := div_self ha.ne'
      simp [tailL, tileAt, not_lt.2 hxn, ev, Fn.eval, this, IsPl]
    | lin m c =>
      cases b with
      | ninf => simp [evalFP] at hal
      | pinf => simp [evalFP] at hal
      | fin u =>
        have hal' : ev (.lin m c) (val u) = alpha := by simpa [evalFP, Fn.eval, ev] using hal
        have hxu : x ≤ u := by simpa [FP.le_def, leb] using hxb
        have e1 : ev (.const 1) (val n) = 1 := rfl
        by_cases hlt : x < u
        · simp only [tailL, if_pos hlt, tileAt, if_neg (not_lt.2 hxn)]
          constructor
          · intro hun
            have : u ≤ n := by simpa [FP.le_def, leb] using hun
            rw [if_neg (not_lt.2 this)]
          · intro hnu
            have : n ≤ u := by simpa [FP.le_def, leb] using hnu
            by_cases hnu' : n < u
            · rw [if_pos hnu']
              exact ⟨hf.sc ha, ev_sc hf _⟩
            · have : n = u := by omega
              subst this
              rw [if_neg (lt_irrefl _), e1, hal', div_self ha.ne']
              exact ⟨trivial, rfl⟩
        · have hxe : u = x := by omega
          subst hxe
          simp only [tailL, lt_irrefl, if_false, tileAt, if_neg (not_lt.2 hxn)]
          refine ⟨fun _ => trivial, fun hnu => ?_⟩
          have : n = u := by
            have : n ≤ u := by simpa [FP.le_def, leb] using hnu
            omega
          subst this
          rw [e1, hal', div_self ha.ne']
          exact ⟨trivial, rfl⟩
    | undef => cases hf
    | quad a b c => cases hf
  | (k, g) :: r, h, x, n, f, hrun, hal, hl, hxb, hxn => by
    have hkb := hl (k, g) (by simp)
    have hl' : ∀ s ∈ r, fin s.1 ≤ b := fun s hs => hl s (by simp [hs])
    simp only [finalL, tileAt, if_neg (not_lt.2 hxn)]
    by_cases hnk : n < k
    · rw [finalL_before hnk, if_pos hnk]
      refine ⟨fun hbn => ?_, fun _ => ⟨hrun.1.sc ha, ev_sc hrun.1 _⟩⟩
      have := hkb.trans hbn
      have : k ≤ n := by simpa [FP.le_def, leb] using this
      omega
    · rw [if_neg hnk]
      exact finalL_on ha hrun.2.2.2.2 hal hl' hkb (by omega)

/-- The knots of the result. -/
theorem finalL_knots {val : ℤ → ℚ} {alpha : ℚ} {b : FP} : ∀ {l : List (ℤ × Fn)} {x : ℤ} {f : Fn},
    Run val x f l → Knots (finalL alpha b x f l) ∧ ∀ s ∈ finalL alpha b x f l, x ≤ s.1
  | [], x, f, hrun => by
    cases f <;> cases b <;> simp only [finalL, tailL]
    case lin.fin m c n =>
      by_cases h : x < n
      · rw [if_pos h]
        simp [Knots, h, h.le]
      · rw [if_neg h]; simp [Knots]
    all_goals simp [Knots]
  | (k, g) :: r, x, f, hrun => by
    obtain ⟨h1, h2⟩ := finalL_knots (alpha := alpha) (b := b) hrun.2.2.2.2
    have hxk := hrun.2.1
    refine ⟨List.pairwise_cons.2 ⟨fun s hs => ?_, h1⟩, fun s hs => ?_⟩
    · have := h2 s hs; simp only; omega
    · rcases List.mem_cons.1 hs with rfl | hs
      · exact le_rfl
      · have := h2 s hs; omega

theorem piece_nonempty {lo u : FP} (h : lo < u) (h2 : lo = ninf → u ≠ ninf) :
    CS.isempty ⟨lo, u, brOf lo, .exc⟩ = false := by
  cases lo <;> cases u <;> simp_all [CS.isempty, FP.lt_def, FP.le_def, leb, CS.itype, brOf, Br.code, FP.up,
    CS.isclosed]
  omega

theorem filter_tile : ∀ {l : List (ℤ × Fn)} {lo : FP} {f : Fn}, Knots l → (∀ s ∈ l, lo < fin s.1) →
    lo < pinf →
    (tile lo f l pinf).filter (fun s => !s.1.isempty) = tile lo f l pinf
  | [], lo, f, _, _, h => by
    simp [tile, piece_nonempty h (fun _ => by simp)]
  | (k, g) :: r, lo, f, hk, hlo, _ => by
    have hk' := List.pairwise_cons.1 hk
    have h1 := piece_nonempty (hlo (k, g) (by simp)) (fun _ => by simp)
    simp only [tile, List.filter_cons, h1]
    rw [filter_tile hk'.2 (fun s hs => by simpa [FP.lt_def, leb] using hk'.1 s hs)
      (by simp [FP.lt_def, leb])]
    rfl

/-- Loop and end of `crop`, from the first linear piece on. -/
theorem crop_tail {val : ℤ → ℚ} (hval : StrictMono val) {alpha : ℚ} (ha : 0 < alpha) {b : FP}
    {l : List (ℤ × Fn)} {x : ℤ} {f prev : Fn} (hrun : Run val x f l)
    (hal : evalFP val (lastOf f l) b = .ok alpha) (hxb : fin x ≤ b) (hl : ∀ s ∈ l, fin s.1 ≤ b)
    (hf0 : ev f (val x) = 0) (hflin : IsLin f) (hp : IsPl prev) (hp0 : ev prev (val x) = 0) :
    (do
      let r ← cropLoop val alpha (tile (fin x) f l (endOf b)) [(⟨ninf, fin x, .exc, .exc⟩, .const 0)] prev
      let r ← cropEnd b r
      assertConsistency (r.filter (fun s => !s.1.isempty))) =
    .ok (tile ninf (.const 0) (finalL alpha b x f l) pinf) := by
  have hbn : b ≠ ninf := by rintro rfl; simp [FP.le_def, leb] at hxb
  have hlt : ∀ k, fin k ≤ b → fin k < endOf b := by
    intro k hk
    cases b <;> simp_all [endOf, FP.lt_def, FP.le_def, leb]
    omega
  have h1 := cropLoop_run hval ha (e := endOf b) (D := []) (prev := prev) hrun
    (by simp [lastOf, evalFP, Fn.eval, hf0]) hp (by rw [hp0, hf0]) hf0.ge (fun h => absurd hflin h)
    (hlt x hxb) (fun s hs => hlt s.1 (hl s hs)) (fun he => by
      have hb : b = pinf := by cases b <;> simp_all [endOf]
      subst hb
      intro hlin
      cases hg : lastOf f l with
      | lin m c => rw [hg] at hal; simp [evalFP] at hal
      | const v => rw [hg] at hlin; exact hlin
      | undef => rw [hg] at hlin; exact hlin
      | quad a b c => rw [hg] at hlin; exact hlin)
    (by cases b <;> simp_all [endOf])
  have h2 := cropEnd_run (val := val) ha (b := b) (lo := ninf) (h := .const 0) (D := []) hrun hal hxb hl hbn
  have hk := finalL_knots (alpha := alpha) (b := b) hrun
  have h3 := filter_tile (f := .const 0) (lo := ninf) hk.1 (fun s _ => by simp [FP.lt_def, leb])
    (by simp [FP.lt_def, leb])
  simp only [tile, brOf, List.nil_append] at h1 h2
  simp only [bind, Except.bind, h1, h2, h3, assertConsistency]
  rw [if_pos]
  rw [tile_length]
  obtain ⟨g, r, e⟩ := finalL_head (alpha := alpha) (b := b) x f l
  rw [e]; simp

/-- The function ends with the constant 1 from the float `b` on, and its other pieces are linear; the first begins
with 0. -/
def RisesTo (val : ℤ → ℚ) (b : FP) (R : List (ℤ × Fn)) : Prop :=
  ∀ b0, b = fin b0 → ∃ S, R = S ++ [(b0, .const 1)] ∧ (∀ s ∈ S, IsLin s.2 ∧ IsPl s.2) ∧
    ∀ s ∈ S.head?, ev s.2 (val s.1) = 0

theorem finalL_lin {val : ℤ → ℚ} {alpha : ℚ} (ha : 0 < alpha) {b0 : ℤ} : ∀ {l : List (ℤ × Fn)} {x : ℤ} {f : Fn},
    Run val x f l → IsLin f → (∀ s ∈ l, IsLin s.2) → x ≤ b0 → (∀ s ∈ l, s.1 ≤ b0) →
    ∃ S, finalL alpha (fin b0) x f l = S ++ [(b0, .const 1)] ∧ (∀ s ∈ S, IsLin s.2 ∧ IsPl s.2) ∧
      ∀ s ∈ S.head?, s = (x, sc alpha f)
  | [], x, f, hrun, hf, _, hx, _ => by
    cases f with
    | lin m c =>
      simp only [finalL, tailL]
      by_cases h : x < b0
      · rw [if_pos h]
        exact ⟨[(x, sc alpha (.lin m c))], rfl, by simpa [sc, IsLin, IsPl] using div_pos hrun ha, by simp⟩
      · rw [if_neg h, show x = b0 by omega]
        exact ⟨[], rfl, by simp, by simp⟩
    | const v => cases hf
    | undef => cases hf
    | quad p q r => cases hf
  | (k, g) :: r, x, f, hrun, hf, hl, hx, hb => by
    obtain ⟨S, h1, h2, -⟩ := finalL_lin ha hrun.2.2.2.2 (hl (k, g) (by simp)) (fun s hs => hl s (by simp [hs]))
      (hb (k, g) (by simp)) (fun s hs => hb s (by simp [hs]))
    refine ⟨(x, sc alpha f) :: S, by simp only [finalL, h1, List.cons_append], fun s hs => ?_, by simp⟩
    rcases List.mem_cons.1 hs with rfl | hs
    · refine ⟨?_, hrun.1.sc ha⟩
      cases f <;> simp_all [IsLin, sc]
    · exact h2 s hs

theorem finalL_rises {val : ℤ → ℚ} {alpha : ℚ} (ha : 0 < alpha) {b : FP} {l : List (ℤ × Fn)} {x : ℤ} {f : Fn}
    (hrun : Run val x f l) (hf : IsLin f) (hl : ∀ s ∈ l, IsLin s.2) (hx : fin x ≤ b) (hb : ∀ s ∈ l, fin s.1 ≤ b)
    (h0 : ev f (val x) = 0) : RisesTo val b (finalL alpha b x f l) := by
  rintro b0 rfl
  obtain ⟨S, h1, h2, h3⟩ := finalL_lin ha hrun hf hl (by simpa [FP.le_def, leb] using hx)
    (fun s hs => by simpa [FP.le_def, leb] using hb s hs)
  refine ⟨S, h1, h2, fun s hs => ?_⟩
  rw [h3 s hs, ev_sc hrun.pl, h0, zero_div]

end Verif.Num
