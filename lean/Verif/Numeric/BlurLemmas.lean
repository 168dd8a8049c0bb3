import Verif.Numeric.Blur
import Verif.Numeric.BlurSpec
import Verif.Numeric.PpfLemmas

namespace Verif.Num

open Iv Iv.FP Fun

/-! ### Finding a piece and staying off the ends -/

/-- The index of the piece that contains `n`. -/
theorem tile_findIdx {n : ℤ} {u : FP} : ∀ {l : List (ℤ × Fn)} {lo : FP} {f : Fn}, lo ≤ fin n → fin n < u →
    ∃ j, (tile lo f l u).findIdx? (fun s => s.1.containsValue (fin n)) = some j ∧ j ≤ l.length ∧
      (∀ i s, i < j → l[i]? = some s → s.1 ≤ n) ∧ (∀ s, l[j]? = some s → n < s.1)
  | [], lo, f, h, hu => by
    have hm : CS.containsValue ⟨lo, u, brOf lo, .exc⟩ (fin n) = true := (CS.containsValue_iff _ _).2 (tile_mem.2 ⟨h, hu⟩)
    exact ⟨0, by simp [tile, List.findIdx?_cons, hm], by simp, by simp, by simp⟩
  | (k, g) :: r, lo, f, h, hu => by
    by_cases hk : n < k
    · have hm : CS.containsValue ⟨lo, fin k, brOf lo, .exc⟩ (fin n) = true :=
        (CS.containsValue_iff _ _).2 (tile_mem.2 ⟨h, by simp [FP.lt_def, leb, hk]⟩)
      exact ⟨0, by simp [tile, List.findIdx?_cons, hm], by simp, by simp, by simpa using hk⟩
    · have hm : CS.containsValue ⟨lo, fin k, brOf lo, .exc⟩ (fin n) = false := by
        rw [Bool.eq_false_iff]
        intro hh
        have := (tile_mem.1 ((CS.containsValue_iff _ _).1 hh)).2
        simp [FP.lt_def, leb] at this
        omega
      obtain ⟨j, h1, h2, h3, h4⟩ := tile_findIdx (n := n) (u := u) (l := r) (lo := fin k) (f := g)
        (by simp [FP.le_def, leb]; omega) hu
      refine ⟨j + 1, by simp [tile, List.findIdx?_cons, hm, h1], by simp; omega, ?_, by simpa using h4⟩
      intro i s hi hs
      cases i with
      | zero => simp at hs; subst hs; simp; omega
      | succ i => exact h3 i s (by omega) (by simpa using hs)

theorem tile_snds {u : FP} : ∀ {l : List (ℤ × Fn)} {lo : FP} {f : Fn},
    (tile lo f l u).map Prod.snd = f :: l.map Prod.snd
  | [], _, _ => rfl
  | (k, g) :: r, _, _ => by simp [tile, tile_snds (l := r)]

/-- Like `tile`, for quantile functions. -/
def qtile (lo : XQ) (f : Fn) : List (ℚ × Fn) → List PPiece
  | [] => [⟨lo, .pinf, f⟩]
  | (k, g) :: r => ⟨lo, .fin k, f⟩ :: qtile (.fin k) g r

theorem qtile_findIdx {y : ℚ} : ∀ {l : List (ℚ × Fn)} {lo : XQ} {f : Fn}, lo.le (.fin y) = true →
    ∃ j, (qtile lo f l).findIdx? (fun s => s.lower.le (.fin y) && !s.upper.le (.fin y)) = some j ∧ j ≤ l.length ∧
      (∀ i s, i < j → l[i]? = some s → s.1 ≤ y) ∧ (∀ s, l[j]? = some s → y < s.1)
  | [], lo, f, h => by
    have hp : XQ.pinf.le (.fin y) = false := rfl
    exact ⟨0, by simp [qtile, List.findIdx?_cons, h, hp], by simp, by simp, by simp⟩
  | (k, g) :: r, lo, f, h => by
    by_cases hk : y < k
    · have hp : (XQ.fin k).le (.fin y) = false := by simp [XQ.le, hk]
      exact ⟨0, by simp [qtile, List.findIdx?_cons, h, hp], by simp, by simp, by simpa using hk⟩
    · obtain ⟨j, h1, h2, h3, h4⟩ := qtile_findIdx (y := y) (l := r) (lo := .fin k) (f := g)
        (by simp [XQ.le]; exact not_lt.1 hk)
      have hk' : k ≤ y := not_lt.1 hk
      have hp : (XQ.fin k).le (.fin y) = true := by simp [XQ.le, hk']
      refine ⟨j + 1, by simp [qtile, List.findIdx?_cons, hp, h1], by simp; omega, ?_, by simpa using h4⟩
      intro i s hi hs
      cases i with
      | zero => simp at hs; subst hs; exact hk'
      | succ i => exact h3 i s (by omega) (by simpa using hs)

theorem qtile_f : ∀ {l : List (ℚ × Fn)} {lo : XQ} {f : Fn}, (qtile lo f l).map PPiece.f = f :: l.map Prod.snd
  | [], _, _ => rfl
  | (k, g) :: r, _, _ => by simp [qtile, qtile_f (l := r)]

theorem qtile_length {l : List (ℚ × Fn)} {lo : XQ} {f : Fn} : (qtile lo f l).length = l.length + 1 := by
  have := congrArg List.length (qtile_f (l := l) (lo := lo) (f := f))
  simpa using this

/-- The inner pieces: the index is moved to the first or last of them if it is outside. -/
theorem clamp_pick {α : Type} [LinearOrder α] {M : List (α × Fn)} {e : α × Fn} {f : Fn} {x : α} {j : ℕ} (hM : M ≠ [])
    (hs : M.Pairwise (fun s t => s.1 < t.1)) (hj : j ≤ (M ++ [e]).length)
    (h1 : ∀ i s, i < j → (M ++ [e])[i]? = some s → s.1 ≤ x) (h2 : ∀ s, (M ++ [e])[j]? = some s → x < s.1) {N : ℤ}
    (hN : N = M.length) :
    ∃ i s, M[i]? = some s ∧ pyGet (f :: (M ++ [e]).map Prod.snd) (max 1 (min N j)) = .ok s.2 ∧
      pyGet (f :: (M ++ [e]).map Prod.snd) (min N (max 1 j)) = .ok s.2 ∧
      (i = 0 ∨ s.1 ≤ x) ∧ (∀ t, M[i + 1]? = some t → x < t.1) := by
  subst hN
  have hpos : 0 < M.length := List.length_pos_of_ne_nil hM
  have hget : ∀ i, i < M.length → (M ++ [e])[i]? = M[i]? := fun i hi => List.getElem?_append_left hi
  have hpy : ∀ i (hi : i < M.length) (k : ℤ), k = i + 1 → pyGet (f :: (M ++ [e]).map Prod.snd) k = .ok (M[i]).2 := by
    intro i hi k hk
    subst hk
    have e1 : ((i : ℤ) + 1) = ((i + 1 : ℕ) : ℤ) := by push_cast; rfl
    rw [e1, pyGet_natCast _ _ (by simp; omega)]
    rw [List.getElem_cons_succ, List.getElem_map, List.getElem_append_left hi]
  simp only [List.length_append, List.length_cons, List.length_nil] at hj
  rcases Nat.eq_zero_or_pos j with rfl | hj0
  · refine ⟨0, M[0], List.getElem?_eq_getElem hpos, hpy 0 hpos _ (by omega), hpy 0 hpos _ (by omega), .inl rfl, fun t ht => ?_⟩
    have h3 := h2 M[0] (by rw [hget 0 hpos, List.getElem?_eq_getElem hpos])
    obtain ⟨h4, rfl⟩ := List.getElem?_eq_some_iff.1 ht
    exact h3.trans (List.pairwise_iff_getElem.1 hs 0 1 hpos h4 (by omega))
  · by_cases hjm : j ≤ M.length
    · have hi : j - 1 < M.length := by omega
      refine ⟨j - 1, M[j - 1], List.getElem?_eq_getElem hi, hpy _ hi _ (by omega), hpy _ hi _ (by omega), .inr ?_, fun t ht => ?_⟩
      · exact h1 (j - 1) _ (by omega) (by rw [hget _ hi, List.getElem?_eq_getElem hi])
      · rw [show j - 1 + 1 = j by omega] at ht
        obtain ⟨h4, -⟩ := List.getElem?_eq_some_iff.1 ht
        exact h2 t (by rw [hget j h4]; exact ht)
    · have hi : M.length - 1 < M.length := by omega
      refine ⟨M.length - 1, M[M.length - 1], List.getElem?_eq_getElem hi, hpy _ hi _ (by omega), hpy _ hi _ (by omega),
        .inr ?_, fun t ht => ?_⟩
      · exact h1 (M.length - 1) _ (by omega) (by rw [hget _ hi, List.getElem?_eq_getElem hi])
      · obtain ⟨h4, -⟩ := List.getElem?_eq_some_iff.1 ht
        omega

/-! ### The lines -/

theorem segs_at_get {val : ℤ → ℚ} : ∀ {pts : List (ℤ × ℚ)} {i : ℕ} {s : ℤ × Fn}, (segs val pts)[i]? = some s →
    ∃ a b, pts[i]? = some a ∧ pts[i + 1]? = some b ∧ s = (a.1, lineOf val a b)
  | a :: b :: r, 0, s, h => ⟨a, b, rfl, rfl, by simpa [segs] using h.symm⟩
  | a :: b :: r, i + 1, s, h => by
    obtain ⟨c, d, h1, h2, h3⟩ := segs_at_get (pts := b :: r) (i := i) (s := s) (by simpa [segs] using h)
    exact ⟨c, d, by simpa using h1, by simpa using h2, h3⟩
  | [], i, s, h => by simp [segs] at h
  | [a], i, s, h => by simp [segs] at h

theorem segs_len {val : ℤ → ℚ} : ∀ {pts : List (ℤ × ℚ)}, (segs val pts).length = pts.length - 1
  | [] => rfl
  | [_] => rfl
  | _ :: b :: r => by simp [segs, segs_len (pts := b :: r)]

/-- The inverse lines between neighbouring points. -/
def qsegs (val : ℤ → ℚ) : List (ℤ × ℚ) → List (ℚ × Fn)
  | a :: b :: r => (a.2, invLine val a b) :: qsegs val (b :: r)
  | _ => []

theorem qsegs_get {val : ℤ → ℚ} : ∀ {pts : List (ℤ × ℚ)} {i : ℕ} {s : ℚ × Fn}, (qsegs val pts)[i]? = some s →
    ∃ a b, pts[i]? = some a ∧ pts[i + 1]? = some b ∧ s = (a.2, invLine val a b)
  | a :: b :: r, 0, s, h => ⟨a, b, rfl, rfl, by simpa [qsegs] using h.symm⟩
  | a :: b :: r, i + 1, s, h => by
    obtain ⟨c, d, h1, h2, h3⟩ := qsegs_get (pts := b :: r) (i := i) (s := s) (by simpa [qsegs] using h)
    exact ⟨c, d, by simpa using h1, by simpa using h2, h3⟩
  | [], i, s, h => by simp [qsegs] at h
  | [a], i, s, h => by simp [qsegs] at h

theorem qsegs_len {val : ℤ → ℚ} : ∀ {pts : List (ℤ × ℚ)}, (qsegs val pts).length = pts.length - 1
  | [] => rfl
  | [_] => rfl
  | _ :: b :: r => by simp [qsegs, qsegs_len (pts := b :: r)]

theorem invP_qtile {val : ℤ → ℚ} {ope : ℚ} : ∀ {r : List (ℤ × ℚ)} {a b : ℤ × ℚ} {cur : XQ},
    invP val (.fin ope) cur (a :: b :: r) ++ [⟨.fin ope, .pinf, .undef⟩] =
      qtile cur (invLine val a b) (qsegs val (b :: r) ++ [(ope, .undef)])
  | [], a, b, cur => rfl
  | c :: r, a, b, cur => by
    simp only [invP, qsegs, List.cons_append, qtile, invP_qtile (r := r) (a := b) (b := c) (cur := .fin b.2)]

/-- The line of the cdf for a float. -/
theorem cdf_pick {val : ℤ → ℚ} {pts : List (ℤ × ℚ)} (hr : Rising pts) (h2 : 2 ≤ pts.length) {hi : ℤ} {N : ℤ}
    (hN : N = (tile ninf (.const 0) (segs val pts ++ [(hi + 1, .const 1)]) pinf).length - 2) (n : ℤ) :
    ∃ (i : ℕ) (a b : ℤ × ℚ), pts[i]? = some a ∧ pts[i + 1]? = some b ∧
      pyGet ((tile ninf (.const 0) (segs val pts ++ [(hi + 1, .const 1)]) pinf).map Prod.snd)
        (max 1 (min N (cdfIdx (tile ninf (.const 0) (segs val pts ++ [(hi + 1, .const 1)]) pinf) n))) =
          .ok (lineOf val a b) ∧
      (i = 0 ∨ a.1 ≤ n) ∧ (pts[i + 2]? = none ∨ n < b.1) := by
  obtain ⟨j, g1, g2, g3, g4⟩ := tile_findIdx (n := n) (u := pinf) (l := segs val pts ++ [(hi + 1, .const 1)]) (lo := ninf)
    (f := .const 0) (by simp [FP.le_def, leb]) (by simp [FP.lt_def, leb])
  have hsort : (segs val pts).Pairwise (fun s t => s.1 < t.1) := by
    rw [List.pairwise_iff_getElem]
    intro i k hi hk hik
    obtain ⟨a, b, e1, -, e3⟩ := segs_at_get (List.getElem?_eq_getElem hi)
    obtain ⟨c, d, f1, -, f3⟩ := segs_at_get (List.getElem?_eq_getElem hk)
    rw [e3, f3]
    obtain ⟨k1, rfl⟩ := List.getElem?_eq_some_iff.1 e1
    obtain ⟨k2, rfl⟩ := List.getElem?_eq_some_iff.1 f1
    exact (List.pairwise_iff_getElem.1 hr i k k1 k2 hik).1
  have hlen : (segs val pts).length = pts.length - 1 := segs_len
  obtain ⟨i, s, p1, p2, -, p4, p5⟩ := clamp_pick (f := .const 0) (e := (hi + 1, .const 1))
    (by intro h; rw [h] at hlen; simp at hlen; omega) hsort g2 g3 g4 (N := N) (by rw [hN, tile_length]; simp; omega)
  obtain ⟨a, b, e1, e2, rfl⟩ := segs_at_get p1
  refine ⟨i, a, b, e1, e2, ?_, p4, ?_⟩
  · rw [tile_snds]
    simpa only [cdfIdx, g1] using p2
  · by_cases h3 : pts[i + 2]? = none
    · exact .inl h3
    · refine .inr ?_
      have hi1 : i + 1 < (segs val pts).length := by
        rw [hlen]
        rw [List.getElem?_eq_none_iff] at h3
        omega
      obtain ⟨c, d, f1, -, f3⟩ := segs_at_get (List.getElem?_eq_getElem hi1)
      have := p5 _ (List.getElem?_eq_getElem hi1)
      rw [f3] at this
      rw [e2, Option.some.injEq] at f1
      rw [f1]
      exact this

/-- The line of the quantile function for a number. -/
theorem ppf_pick {val : ℤ → ℚ} {ope : ℚ} {pts : List (ℤ × ℚ)} (hr : Rising pts) (h2 : 2 ≤ pts.length)
    (h0 : ∀ a, pts.head? = some a → 0 ≤ a.2) {N : ℤ} (hN : N = pts.length - 1) (y : ℚ) :
    ∃ (i : ℕ) (a b : ℤ × ℚ), pts[i]? = some a ∧ pts[i + 1]? = some b ∧
      pyGet ((ppfShape val ope pts).map PPiece.f) (max 1 (min N (ppfIdx (ppfShape val ope pts) (some y)))) =
        .ok (invLine val a b) ∧
      pyGet ((ppfShape val ope pts).map PPiece.f) (min N (max 1 (ppfIdx (ppfShape val ope pts) (some y)))) =
        .ok (invLine val a b) ∧
      (i = 0 ∨ a.2 ≤ y) ∧ (pts[i + 2]? = none ∨ y < b.2) := by
  match pts, h2 with
  | a :: b :: r, _ =>
    have hsh : ppfShape val ope (a :: b :: r) =
        qtile .ninf .undef (((0, invLine val a b) :: qsegs val (b :: r)) ++ [(ope, .undef)]) := by
      rw [ppfShape, invP_qtile]; rfl
    have ha := h0 a rfl
    have hab := rising_get hr (i := 0) (p := a) (q := b) rfl rfl
    obtain ⟨j, g1, g2, g3, g4⟩ := qtile_findIdx (y := y)
      (l := ((0, invLine val a b) :: qsegs val (b :: r)) ++ [(ope, .undef)]) (lo := .ninf) (f := .undef) rfl
    have hget : ∀ {i : ℕ} {s : ℚ × Fn}, ((0, invLine val a b) :: qsegs val (b :: r))[i]? = some s →
        ∃ c d, (a :: b :: r)[i]? = some c ∧ (a :: b :: r)[i + 1]? = some d ∧ s.2 = invLine val c d ∧
          (i = 0 ∧ s.1 = 0 ∨ s.1 = c.2) := by
      intro i s hs
      cases i with
      | zero =>
        simp at hs
        exact ⟨a, b, rfl, rfl, by rw [← hs], .inl ⟨rfl, by rw [← hs]⟩⟩
      | succ i =>
        obtain ⟨c, d, e1, e2, e3⟩ := qsegs_get (by simpa using hs)
        exact ⟨c, d, by simpa using e1, by simpa using e2, by rw [e3], .inr (by rw [e3])⟩
    have hsort : ((0, invLine val a b) :: qsegs val (b :: r)).Pairwise (fun s t => s.1 < t.1) := by
      rw [List.pairwise_iff_getElem]
      intro i k hi hk hik
      obtain ⟨c, d, e1, -, -, e4⟩ := hget (List.getElem?_eq_getElem hi)
      obtain ⟨c', d', f1, -, -, f4⟩ := hget (List.getElem?_eq_getElem hk)
      obtain ⟨k1, rfl⟩ := List.getElem?_eq_some_iff.1 e1
      obtain ⟨k2, rfl⟩ := List.getElem?_eq_some_iff.1 f1
      have hlt := (List.pairwise_iff_getElem.1 hr i k k1 k2 hik).2
      have f5 : ((0, invLine val a b) :: qsegs val (b :: r))[k].1 = (a :: b :: r)[k].2 := by
        rcases f4 with ⟨rfl, -⟩ | f4
        · omega
        · exact f4
      rw [f5]
      rcases e4 with ⟨rfl, e4⟩ | e4
      · rw [e4]
        exact lt_of_le_of_lt ha hlt
      · rw [e4]; exact hlt
    have hlen : ((0, invLine val a b) :: qsegs val (b :: r)).length = (a :: b :: r).length - 1 := by
      simp [qsegs_len]
    obtain ⟨i, s, p1, p2, p3, p4, p5⟩ := clamp_pick (f := .undef) (e := (ope, .undef)) (by simp) hsort g2 g3 g4 (N := N)
      (by rw [hN, hlen]; simp)
    obtain ⟨c, d, e1, e2, e3, e4⟩ := hget p1
    refine ⟨i, c, d, e1, e2, ?_, ?_, ?_, ?_⟩
    · rw [hsh, qtile_f]
      simpa only [ppfIdx, g1, e3] using p2
    · rw [hsh, qtile_f]
      simpa only [ppfIdx, g1, e3] using p3
    · rcases p4 with h | h
      · exact .inl h
      · rcases e4 with ⟨rfl, -⟩ | e4
        · exact .inl rfl
        · exact .inr (by rw [← e4]; exact h)
    · by_cases h3 : (a :: b :: r)[i + 2]? = none
      · exact .inl h3
      · refine .inr ?_
        have hi1 : i + 1 < ((0, invLine val a b) :: qsegs val (b :: r)).length := by
          rw [hlen]
          rw [List.getElem?_eq_none_iff] at h3
          omega
        obtain ⟨c', d', f1, -, -, f4⟩ := hget (List.getElem?_eq_getElem hi1)
        have h4 := p5 _ (List.getElem?_eq_getElem hi1)
        rw [e2, Option.some.injEq] at f1
        rcases f4 with ⟨h, -⟩ | f4
        · omega
        · rw [f4, ← f1] at h4; exact h4

/-- The extended graph increases strictly. -/
theorem extended_lt {val : ℤ → ℚ} (hval : StrictMono val) {K : List ℤ} {F : ℤ → ℚ} (hK : K.Pairwise (· < ·))
    (hF : ∀ i a b, K[i]? = some a → K[i + 1]? = some b → F a < F b) {x₁ y₁ x₂ y₂ : ℚ}
    (h1 : OnExtended val K F x₁ y₁) (h2 : OnExtended val K F x₂ y₂) (hy : y₁ < y₂) : x₁ < x₂ := by
  obtain ⟨i, a, b, ha, hb, l1, u1, e1⟩ := h1
  obtain ⟨k, c, d, hc, hd, l2, u2, e2⟩ := h2
  have key : ∀ {i a b}, K[i]? = some a → K[i + 1]? = some b → val a < val b := fun {i a b} ha hb => by
    obtain ⟨g1, rfl⟩ := List.getElem?_eq_some_iff.1 ha
    obtain ⟨g2, rfl⟩ := List.getElem?_eq_some_iff.1 hb
    exact hval (List.pairwise_iff_getElem.1 hK _ _ g1 g2 (by omega))
  have mono : ∀ {m : ℕ} {i : ℕ} {a b : ℤ}, K[i]? = some a → K[i + m]? = some b → val a ≤ val b ∧ F a ≤ F b := by
    intro m
    induction m with
    | zero => intro i a b ha hb; rw [Nat.add_zero, ha, Option.some.injEq] at hb; rw [hb]; exact ⟨le_rfl, le_rfl⟩
    | succ m ih =>
      intro i a b ha hb
      have hlt : i + m < K.length := by
        have := (List.getElem?_eq_some_iff.1 hb).1
        omega
      obtain ⟨g1, g2⟩ := ih ha (List.getElem?_eq_getElem hlt)
      rw [← Nat.add_assoc] at hb
      exact ⟨g1.trans (key (List.getElem?_eq_getElem hlt) hb).le, g2.trans (hF _ _ _ (List.getElem?_eq_getElem hlt) hb).le⟩
  have v1 := key ha hb
  have v2 := key hc hd
  have s1 := hF _ _ _ ha hb
  have s2 := hF _ _ _ hc hd
  rcases lt_trichotomy i k with h | h | h
  · -- the first point is on an earlier line
    have hx1 : x₁ ≤ val b := by
      rcases u1 with u1 | u1
      · rw [List.getElem?_eq_none_iff] at u1
        have := (List.getElem?_eq_some_iff.1 hd).1
        omega
      · exact u1
    have hx2 : val c ≤ x₂ := by
      rcases l2 with l2 | l2
      · omega
      · exact l2
    obtain ⟨m, rfl⟩ : ∃ m, k = i + 1 + m := ⟨k - (i + 1), by omega⟩
    obtain ⟨g1, g2⟩ := mono hb hc
    rcases eq_or_lt_of_le (hx1.trans (g1.trans hx2)) with he | hl
    · exfalso
      have q1 : x₁ = val b := by linarith
      have q2 : x₂ = val c := by linarith
      have q3 : val b = val c := by linarith
      rw [q1] at e1
      rw [q2] at e2
      have p1 : y₁ = F b := by
        have : (y₁ - F b) * (val b - val a) = 0 := by linear_combination e1
        rcases mul_eq_zero.1 this with h | h <;> linarith
      have p2 : y₂ = F c := by
        have : (y₂ - F c) * (val d - val c) = 0 := by linear_combination e2
        rcases mul_eq_zero.1 this with h | h <;> linarith
      have : b = c := hval.injective q3
      rw [p1, p2, this] at hy
      exact lt_irrefl _ hy
    · exact hl
  · subst h
    rw [ha, Option.some.injEq] at hc
    rw [hb, Option.some.injEq] at hd
    subst hc hd
    by_contra hn
    have h3 : (F b - F a) * (x₂ - val a) ≤ (F b - F a) * (x₁ - val a) :=
      mul_le_mul_of_nonneg_left (by linarith) (by linarith)
    have h4 : (y₁ - F a) * (val b - val a) < (y₂ - F a) * (val b - val a) :=
      mul_lt_mul_of_pos_right (by linarith) (by linarith)
    linarith
  · -- the first point is on a later line
    exfalso
    have hx2 : x₂ ≤ val d := by
      rcases u2 with u2 | u2
      · rw [List.getElem?_eq_none_iff] at u2
        have := (List.getElem?_eq_some_iff.1 hb).1
        omega
      · exact u2
    have hx1 : val a ≤ x₁ := by
      rcases l1 with l1 | l1
      · omega
      · exact l1
    obtain ⟨m, rfl⟩ : ∃ m, i = k + 1 + m := ⟨i - (k + 1), by omega⟩
    obtain ⟨g1, g2⟩ := mono hd ha
    have p1 : F a ≤ y₁ := by
      by_contra hn
      have h3 : 0 ≤ (F b - F a) * (x₁ - val a) := mul_nonneg (by linarith) (by linarith)
      have h4 : (y₁ - F a) * (val b - val a) < 0 := mul_neg_of_neg_of_pos (by linarith) (by linarith)
      linarith
    have p2 : y₂ ≤ F d := by
      by_contra hn
      have h3 : (F d - F c) * (x₂ - val c) ≤ (F d - F c) * (val d - val c) :=
        mul_le_mul_of_nonneg_left (by linarith) (by linarith)
      have h4 : (F d - F c) * (val d - val c) < (y₂ - F c) * (val d - val c) :=
        mul_lt_mul_of_pos_right (by linarith) (by linarith)
      linarith
    linarith

end Verif.Num
