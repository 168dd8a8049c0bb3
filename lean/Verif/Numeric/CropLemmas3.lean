import Verif.Numeric.CropLemmas2

/-! # Stretching a cropped cdf -/

namespace Verif.Num

open Iv Iv.FP Fun

/-- The pieces from `x` on are constant or increasing, continuous at the knots, and no linear piece
except the last consists of a single float. -/
def Run (val : ℤ → ℚ) : ℤ → Fn → List (ℤ × Fn) → Prop
  | _, f, [] => IsPl f
  | x, f, (k, g) :: r =>
    IsPl f ∧ x < k ∧ ev f (val k) = ev g (val k) ∧ (IsLin f → k ≠ x + 1) ∧ Run val k g r

theorem Run.pl {val : ℤ → ℚ} {x : ℤ} {f : Fn} {l : List (ℤ × Fn)} (h : Run val x f l) : IsPl f := by
  cases l with
  | nil => exact h
  | cons s r => exact h.1

/-- Stretched by `1 / alpha`. -/
def sc (alpha : ℚ) : Fn → Fn
  | .const v => .const (v / alpha)
  | .lin m c => .lin (m / alpha) (c / alpha)
  | f => f

theorem ev_sc {alpha : ℚ} {f : Fn} (h : IsPl f) (x : ℚ) : ev (sc alpha f) x = ev f x / alpha := by
  cases f with
  | const v => rfl
  | lin m c => simp [ev, sc, Fn.eval]; ring
  | undef => cases h
  | quad a b c => cases h

theorem IsPl.sc {f : Fn} (h : IsPl f) {alpha : ℚ} (ha : 0 < alpha) : IsPl (sc alpha f) := by
  cases f with
  | const v => trivial
  | lin m c => exact div_pos h ha
  | undef => cases h
  | quad a b c => cases h

/-- The last function. -/
def lastOf : Fn → List (ℤ × Fn) → Fn
  | f, [] => f
  | _, (_, g) :: r => lastOf g r

theorem lastOf_append (f : Fn) : ∀ (l : List (ℤ × Fn)) (k : ℤ) (g : Fn), lastOf f (l ++ [(k, g)]) = g
  | [], _, _ => rfl
  | (_, f') :: l, k, g => lastOf_append f' l k g

theorem getLast_tile {u : FP} : ∀ {l : List (ℤ × Fn)} {lo : FP} {f : Fn},
    ∃ i, (tile lo f l u).getLast? = some (i, lastOf f l) ∧ i.upper = u ∧ i.right = .exc ∧
      (∀ k g l', l = l' ++ [(k, g)] → i.lower = fin k ∧ i.left = .inc)
  | [], lo, f => ⟨_, rfl, rfl, rfl, fun k g l' h => by simp at h⟩
  | (k, g) :: r, lo, f => by
    obtain ⟨i, h1, h2, h3, h4⟩ := getLast_tile (u := u) (l := r) (lo := fin k) (f := g)
    refine ⟨i, ?_, h2, h3, ?_⟩
    · simp only [tile, lastOf]
      rw [List.getLast?_cons, h1]; rfl
    · intro k' g' l' h
      cases l' with
      | nil =>
        simp only [List.nil_append, List.cons.injEq, Prod.mk.injEq] at h
        obtain ⟨⟨rfl, rfl⟩, rfl⟩ := h
        simp only [tile, List.getLast?_singleton, Option.some.injEq] at h1
        have := congrArg Prod.fst h1
        simp only at this
        subst this
        exact ⟨rfl, rfl⟩
      | cons s l' =>
        simp only [List.cons_append, List.cons.injEq] at h
        exact h4 k' g' l' h.2

theorem lastFn_tile {u : FP} {l : List (ℤ × Fn)} {lo : FP} {f : Fn} :
    lastFn (tile lo f l u) = .ok (lastOf f l) := by
  obtain ⟨i, h, -⟩ := getLast_tile (u := u) (l := l) (lo := lo) (f := f)
  simp [lastFn, h]

theorem lastUpper_tile {u : FP} {l : List (ℤ × Fn)} {lo : FP} {f : Fn} :
    lastUpper (tile lo f l u) = .ok u := by
  obtain ⟨i, h, h2, -⟩ := getLast_tile (u := u) (l := l) (lo := lo) (f := f)
  simp [lastUpper, h, h2]

theorem size_fin {x u : ℤ} (h : x < u) :
    CS.size ⟨fin x, fin u, .inc, .exc⟩ = some 1 ↔ u = x + 1 := by
  have h1 : CS.isempty ⟨fin x, fin u, .inc, .exc⟩ = false :=
    halfopen_nonempty (by simp [FP.lt_def, leb, h])
  simp only [CS.size, h1, CS.itype, Br.code, FP.up]
  have : x ≠ u := by omega
  by_cases hc : u = x + 1
  · subst hc; simp
  · have : ¬ (x + 1 = u) := by omega
    simp [*]

/-- A constant piece. -/
theorem cropPiece_const {val : ℤ → ℚ} {alpha y v : ℚ} {i : CS} :
    cropPiece val alpha y i (.const v) = .ok (.const y) := rfl

/-- A linear piece. -/
theorem cropPiece_lin {val : ℤ → ℚ} (hval : StrictMono val) {alpha m c : ℚ} (ha : 0 < alpha) (hm : 0 < m)
    {x u : ℤ} (h : x + 1 < u) :
    cropPiece val alpha (ev (.lin m c) (val x) / alpha) ⟨fin x, fin u, .inc, .exc⟩ (.lin m c) =
      .ok (sc alpha (.lin m c)) := by
  have h1 : ¬ CS.size ⟨fin x, fin u, .inc, .exc⟩ = some 1 := by rw [size_fin (by omega)]; omega
  have hv : val x < val (u - 1) := hval (by omega)
  have hv' : val (u - 1) - val x ≠ 0 := sub_ne_zero.2 (ne_of_gt hv)
  simp only [cropPiece, h1, if_false, ha.ne', FP.dn]
  have h2 : ¬ (m / alpha * (val (u - 1) - val x) + ev (.lin m c) (val x) / alpha =
      ev (.lin m c) (val x) / alpha) := by
    have : 0 < m / alpha * (val (u - 1) - val x) := mul_pos (div_pos hm ha) (by linarith)
    linarith
  unfold Fn.fromPoints
  rw [if_neg (by exact ne_of_lt hv), if_neg h2]
  simp only [sc, Except.ok.injEq, Fn.lin.injEq, ev, Fn.eval, Option.getD_some]
  constructor
  · field_simp
    ring
  · field_simp
    ring

/-- The pieces after stretching, up to `e`. -/
def scaleL (val : ℤ → ℚ) (alpha : ℚ) (e : FP) : ℤ → Fn → List (ℤ × Fn) → List (ℤ × Fn)
  | x, f, [] => [(x, if e = fin (x + 1) then .const (ev f (val x) / alpha) else sc alpha f)]
  | x, f, (k, g) :: r => (x, sc alpha f) :: scaleL val alpha e k g r

theorem eq_zero_false {f : Fn} (hf : IsPl f) (h : ¬ IsLin f → ∀ x, 0 < ev f x) :
    f.eq (.const 0) = .ok false := by
  cases f with
  | const v =>
    have := h (by simp [IsLin]) 0
    simp only [ev, Fn.eval, Option.getD_some] at this
    simp [Fn.eq, ne_of_gt this]
  | lin m c => simp [Fn.eq, ne_of_gt hf]
  | undef => cases hf
  | quad a b c => cases hf

theorem cropLoop_run {val : ℤ → ℚ} (hval : StrictMono val) {alpha : ℚ} (ha : 0 < alpha) {e : FP} :
    ∀ {l : List (ℤ × Fn)} {x : ℤ} {f : Fn} {D : List (ℤ × Fn)} {prev : Fn}, Run val x f l →
    evalFP val (lastOf (.const 0) D) (fin x) = .ok (ev f (val x) / alpha) → IsPl prev →
    ev prev (val x) = ev f (val x) → 0 ≤ ev f (val x) → (¬ IsLin f → 0 < ev f (val x)) →
    fin x < e → (∀ s ∈ l, fin s.1 < e) → (e = pinf → ¬ IsLin (lastOf f l)) → e ≠ ninf →
    cropLoop val alpha (tile (fin x) f l e) (tile ninf (.const 0) D (fin x)) prev =
      .ok (tile ninf (.const 0) (D ++ scaleL val alpha e x f l) e)
  | [], x, f, D, prev, hrun, hy, hp, hpe, h0, hlin, hxe, hle, hpinf, hne => by
    have hf : IsPl f := hrun
    have hz : f.eq (.const 0) = .ok false := eq_zero_false hf (fun hn z => by
      have := hlin hn
      cases f with
      | const v => simpa [ev, Fn.eval] using this
      | lin m c => simp [IsLin] at hn
      | undef => cases hf
      | quad a b c => cases hf)
    have hya : ev f (val x) / alpha + (ev f (val x) - ev f (val x)) * alpha = ev f (val x) / alpha := by
      ring
    simp only [tile, cropLoop, hz, bind, Except.bind, lastFn_tile, hy, hf.evalFP, hp.evalFP, hpe, hya,
      lastUpper_tile, brOf, scaleL]
    cases f with
    | const v =>
      have e2 : sc alpha (.const v) = .const (ev (.const v) (val x) / alpha) := rfl
      simp only [cropPiece_const, cropInterval, tile_append, e2, ite_self]
      rfl
    | lin m c =>
      cases e with
      | ninf => exact absurd rfl hne
      | pinf => exact absurd (by simp [IsLin, lastOf]) (hpinf rfl)
      | fin u =>
        have hxu : x < u := by simpa [FP.lt_def, leb] using hxe
        by_cases hu : u = x + 1
        · subst hu
          have h1 := (size_fin (x := x) (u := x + 1) (by omega)).2 rfl
          simp only [cropPiece, cropInterval, h1, if_true, tile_append]
          rfl
        · have h1 : ¬ CS.size ⟨fin x, fin u, .inc, .exc⟩ = some 1 := by
            rw [size_fin hxu]; exact hu
          have hu' : ¬ (fin u = fin (x + 1)) := by simp [hu]
          rw [cropPiece_lin hval ha hf (by omega)]
          simp only [cropInterval, h1, if_false, hu', tile_append]
          rfl
    | undef => cases hf
    | quad a b c => cases hf
  | (k, g) :: r, x, f, D, prev, hrun, hy, hp, hpe, h0, hlin, hxe, hle, hpinf, hne => by
    obtain ⟨hf, hxk, hcont, htiny, hrun'⟩ := hrun
    have hz : f.eq (.const 0) = .ok false := eq_zero_false hf (fun hn z => by
      have := hlin hn
      cases f with
      | const v => simpa [ev, Fn.eval] using this
      | lin m c => simp [IsLin] at hn
      | undef => cases hf
      | quad a b c => cases hf)
    have hya : ev f (val x) / alpha + (ev f (val x) - ev f (val x)) * alpha = ev f (val x) / alpha := by
      ring
    have hpos : 0 < ev f (val k) := by
      cases f with
      | const v => exact hlin (by simp [IsLin])
      | lin m c =>
        have hv := hval hxk
        simp only [IsPl] at hf
        simp only [ev, Fn.eval, Option.getD_some] at h0 ⊢
        nlinarith
      | undef => cases hf
      | quad a b c => cases hf
    have ih := cropLoop_run hval ha (e := e) (l := r) (x := k) (f := g) (D := D ++ [(x, sc alpha f)])
      (prev := f) hrun' (by rw [lastOf_append, (hf.sc ha).evalFP, ev_sc hf, hcont]) hf hcont
      (by rw [← hcont]; exact hpos.le) (fun _ => by rw [← hcont]; exact hpos) (hle (k, g) (by simp))
      (fun s hs => hle s (by simp [hs])) hpinf hne
    have hpiece : cropPiece val alpha (ev f (val x) / alpha) ⟨fin x, fin k, .inc, .exc⟩ f =
        .ok (sc alpha f) ∧ cropInterval (fin x) ⟨fin x, fin k, .inc, .exc⟩ f =
          ⟨fin x, fin k, .inc, .exc⟩ := by
      cases f with
      | const v => exact ⟨rfl, rfl⟩
      | lin m c =>
        have := htiny (by simp [IsLin])
        refine ⟨cropPiece_lin hval ha hf (by omega), ?_⟩
        simp [cropInterval]
      | undef => cases hf
      | quad a b c => cases hf
    simp only [tile, cropLoop, hz, bind, Except.bind, lastFn_tile, hy, hf.evalFP, hp.evalFP, hpe, hya,
      lastUpper_tile, brOf, scaleL, hpiece.1, hpiece.2, tile_append]
    simp only [Bool.false_eq_true, if_false]
    rw [ih]
    simp

end Verif.Num
