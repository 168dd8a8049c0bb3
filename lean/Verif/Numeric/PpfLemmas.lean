import Verif.Numeric.FitLemmas3

/-! # The quantile function of a cdf through rising points -/

namespace Verif.Num

open Iv Iv.FP Fun

/-- The slope between two points. -/
def slope (val : ℤ → ℚ) (a b : ℤ × ℚ) : ℚ := (b.2 - a.2) / (val b.1 - val a.1)

/-- The inverse of the line through two points. -/
def invLine (val : ℤ → ℚ) (a b : ℤ × ℚ) : Fn :=
  .lin (1 / slope val a b) (-(a.2 - slope val a b * val a.1) / slope val a b)

/-- The pieces of the quantile function between the points; `e` is the upper bound of the last one. -/
def invP (val : ℤ → ℚ) (e : XQ) (cur : XQ) : List (ℤ × ℚ) → List PPiece
  | a :: b :: c :: r => ⟨cur, .fin b.2, invLine val a b⟩ :: invP val e (.fin b.2) (b :: c :: r)
  | [a, b] => [⟨cur, e, invLine val a b⟩]
  | _ => []

/-- All slopes between neighbouring points are large enough for the test in `is_invertible`. -/
def Steep (val : ℤ → ℚ) (pts : List (ℤ × ℚ)) : Prop :=
  ∀ (i : ℕ) (a b : ℤ × ℚ), pts[i]? = some a → pts[i + 1]? = some b → 1 / 10000 ≤ slope val a b

theorem Steep.tail {val : ℤ → ℚ} {a : ℤ × ℚ} {r : List (ℤ × ℚ)} (h : Steep val (a :: r)) :
    Steep val r :=
  fun i p q h1 h2 => h (i + 1) p q (by simpa using h1) (by simpa using h2)

theorem lineOf_invert {val : ℤ → ℚ} {a b : ℤ × ℚ} (h : 1 / 10000 ≤ slope val a b) :
    isInvertible (lineOf val a b) = true ∧ (lineOf val a b).invert = .ok (invLine val a b) := by
  have h0 : 0 < slope val a b := lt_of_lt_of_le (by norm_num) h
  constructor
  · simp only [isInvertible, lineOf, decide_eq_true_eq]
    exact h.trans (le_abs_self _)
  · simp only [lineOf, Fn.invert]
    rw [if_neg (by exact h0.ne')]
    rfl

theorem invP_split (val : ℤ → ℚ) : ∀ (pts : List (ℤ × ℚ)) (cur : XQ), 2 ≤ pts.length →
    ∃ (l : List PPiece) (cur' : XQ) (g : Fn), ∀ e, invP val e cur pts = l ++ [⟨cur', e, g⟩]
  | [a, b], cur, _ => ⟨[], cur, invLine val a b, fun e => rfl⟩
  | a :: b :: c :: r, cur, _ => by
    obtain ⟨l, cur', g, h⟩ := invP_split val (b :: c :: r) (.fin b.2) (by simp)
    exact ⟨⟨cur, .fin b.2, invLine val a b⟩ :: l, cur', g, fun e => by simp [invP, h]⟩

theorem ppfClose_append {ope : ℚ} {s : PPiece} : ∀ {l : List PPiece},
    ppfClose ope (l ++ [s]) = .ok (l ++ [{ s with upper := .fin ope }, ⟨.fin ope, .pinf, .undef⟩])
  | [] => rfl
  | [t] => by simp [ppfClose, bind, Except.bind]
  | t :: t' :: l => by
    have ih := ppfClose_append (ope := ope) (s := s) (l := t' :: l)
    simp only [List.cons_append] at ih ⊢
    rw [ppfClose]
    · simp only [ih, bind, Except.bind]
    · simp

theorem lineOf_at {val : ℤ → ℚ} (a b : ℤ × ℚ) (n : ℤ) :
    (lineOf val a b).eval (val n) = some (a.2 + slope val a b * (val n - val a.1)) :=
  lineOf_eval val a b _

/-- The loop over the linear pieces and the final constant piece. -/
theorem ppfLoop_segs {val : ℤ → ℚ} (hval : StrictMono val) {ope : ℚ} (hope : 1 < ope) :
    ∀ (r : List (ℤ × ℚ)) (a b z : ℤ × ℚ) (done : List PPiece) (cur : XQ) (y : ℚ),
    Rising (a :: b :: r) → Steep val (a :: b :: r) → (a :: b :: r).getLast? = some z → z.2 = 1 →
    ∃ e cur', ppfLoop val ope (tile (fin a.1) (lineOf val a b)
        (segs val (b :: r) ++ [(z.1 + 1, .const 1)]) pinf) done cur y =
      .ok (done ++ invP val e cur (a :: b :: r), cur')
  | [], a, b, z, done, cur, y, hr, hs, hz, hz1 => by
    have hzb : b = z := by simpa using hz
    subst hzb
    have hab := rising_get hr (i := 0) (p := a) (q := b) rfl rfl
    have hst := hs 0 a b rfl rfl
    obtain ⟨h1, h2⟩ := lineOf_invert hst
    set u := min ope (a.2 + slope val a b * (val (b.1 + 1) - val a.1)) with hu
    have hu1 : 1 ≤ u := by
      refine le_min hope.le ?_
      have e := lineOf_end hval hab.1
      have hv := hval (show b.1 < b.1 + 1 by omega)
      have h0 : 0 < slope val a b := lt_of_lt_of_le (by norm_num) hst
      have e' : a.2 + slope val a b * (val b.1 - val a.1) = 1 := by rw [← hz1]; exact e
      nlinarith
    refine ⟨.fin u, .fin u, ?_⟩
    simp only [segs, List.nil_append, tile]
    have f1 : ppfFn val y ⟨fin a.1, fin (b.1 + 1), brOf (fin a.1), .exc⟩ (lineOf val a b) =
        .ok (some (invLine val a b)) := by
      unfold ppfFn; rw [if_pos h1, h2]; rfl
    have f2 : ppfUpper val ope (lineOf val a b) (fin (b.1 + 1)) = .ok u := by
      simp only [ppfUpper, lineOf_at]; rw [hu]
    have f3 : ppfY val ope (lineOf val a b) (fin (b.1 + 1)) = .ok u := by
      simp only [ppfY, lineOf_at]; rw [hu]
    have f4 : ppfFn val u ⟨fin (b.1 + 1), pinf, brOf (fin (b.1 + 1)), .exc⟩ (.const 1) = .ok none := by
      simp [ppfFn, isInvertible, not_lt.2 hu1]
    simp only [ppfLoop, bind, Except.bind, f1, f2, f3, f4, invP]
  | c :: r, a, b, z, done, cur, y, hr, hs, hz, hz1 => by
    have hab := rising_get hr (i := 0) (p := a) (q := b) rfl rfl
    have hst := hs 0 a b rfl rfl
    obtain ⟨h1, h2⟩ := lineOf_invert hst
    have hbz : b.2 ≤ 1 := by
      have hz' : (b :: c :: r).getLast? = some z := by rw [List.getLast?_cons_cons] at hz; exact hz
      have := dropLast_lt (List.pairwise_cons.1 hr).2 (p := b) (by simp) hz'
      linarith [this.2]
    have hu : min ope (a.2 + slope val a b * (val b.1 - val a.1)) = b.2 := by
      have e := lineOf_end hval hab.1
      have e' : a.2 + slope val a b * (val b.1 - val a.1) = b.2 := e
      rw [e', min_eq_right (by linarith)]
    obtain ⟨e, cur', ih⟩ := ppfLoop_segs hval hope r b c z (done ++ [⟨cur, .fin b.2, invLine val a b⟩])
      (.fin b.2) b.2 (List.pairwise_cons.1 hr).2 hs.tail (by
        rw [List.getLast?_cons_cons] at hz; exact hz) hz1
    refine ⟨e, cur', ?_⟩
    have f1 : ppfFn val y ⟨fin a.1, fin b.1, brOf (fin a.1), .exc⟩ (lineOf val a b) =
        .ok (some (invLine val a b)) := by
      unfold ppfFn; rw [if_pos h1, h2]; rfl
    have f2 : ppfUpper val ope (lineOf val a b) (fin b.1) = .ok b.2 := by
      simp only [ppfUpper, lineOf_at]; rw [hu]
    have f3 : ppfY val ope (lineOf val a b) (fin b.1) = .ok b.2 := by
      simp only [ppfY, lineOf_at]; rw [hu]
    rw [show segs val (b :: c :: r) = (b.1, lineOf val b c) :: segs val (c :: r) from rfl,
      List.cons_append, tile]
    simp only [ppfLoop, bind, Except.bind, f1, f2, f3]
    rw [ih]
    simp [invP]

/-- The pieces of the quantile function. -/
def ppfShape (val : ℤ → ℚ) (ope : ℚ) (pts : List (ℤ × ℚ)) : List PPiece :=
  ⟨.ninf, .fin 0, .undef⟩ :: (invP val (.fin ope) (.fin 0) pts ++ [⟨.fin ope, .pinf, .undef⟩])

theorem invP_find {val : ℤ → ℚ} {ope : ℚ} {rest : List PPiece} : ∀ (r : List (ℤ × ℚ)) (a b : ℤ × ℚ)
    (cur y : ℚ), Rising (a :: b :: r) → cur ≤ y → y < ope →
    ∃ (i : ℕ) (p q : ℤ × ℚ) (s : PPiece), (a :: b :: r)[i]? = some p ∧ (a :: b :: r)[i + 1]? = some q ∧
      (invP val (.fin ope) (.fin cur) (a :: b :: r) ++ rest).find?
        (fun s => s.lower.le (.fin y) && !s.upper.le (.fin y)) = some s ∧ s.f = invLine val p q ∧
      (i = 0 ∨ p.2 ≤ y) ∧ (y < q.2 ∨ (a :: b :: r)[i + 2]? = none)
  | [], a, b, cur, y, hr, h1, h2 =>
    ⟨0, a, b, ⟨.fin cur, .fin ope, invLine val a b⟩, rfl, rfl, by simp [invP, XQ.le, h1, h2], rfl,
      .inl rfl, .inr rfl⟩
  | c :: r, a, b, cur, y, hr, h1, h2 => by
    by_cases hy : y < b.2
    · exact ⟨0, a, b, ⟨.fin cur, .fin b.2, invLine val a b⟩, rfl, rfl,
        by simp [invP, XQ.le, h1, hy], rfl, .inl rfl, .inl hy⟩
    · obtain ⟨i, p, q, s, h3, h4, h5, h6, h7, h8⟩ := invP_find (rest := rest) r b c b.2 y
        (List.pairwise_cons.1 hr).2 (not_lt.1 hy) h2
      refine ⟨i + 1, p, q, s, by simpa using h3, by simpa using h4, ?_, h6, .inr ?_, ?_⟩
      · simp only [invP, List.cons_append, List.find?_cons]
        have : (XQ.le (.fin cur) (.fin y) && !XQ.le (.fin b.2) (.fin y)) = false := by
          simp [XQ.le, not_lt.1 hy]
        rw [this]
        exact h5
      · rcases h7 with rfl | h7
        · simp at h3; subst h3; exact not_lt.1 hy
        · exact h7
      · rcases h8 with h8 | h8
        · exact .inl h8
        · exact .inr (by simpa using h8)

theorem invLine_eval {val : ℤ → ℚ} {a b : ℤ × ℚ} (h : slope val a b ≠ 0) (y : ℚ) :
    (invLine val a b).eval y = some (val a.1 + (y - a.2) / slope val a b) := by
  simp only [invLine, Fn.eval, Option.some.injEq]
  field_simp
  ring

/-- Values of the quantile function between 0 and 1. -/
theorem ppfShape_eval {val : ℤ → ℚ} {ope : ℚ} {pts : List (ℤ × ℚ)} (hr : Rising pts)
    (hs : Steep val pts) (h2 : 2 ≤ pts.length) {y : ℚ} (h0 : 0 ≤ y) (hy : y < ope) :
    ∃ (i : ℕ) (p q : ℤ × ℚ), pts[i]? = some p ∧ pts[i + 1]? = some q ∧
      ppfEval (ppfShape val ope pts) y = some (val p.1 + (y - p.2) / slope val p q) ∧
      (i = 0 ∨ p.2 ≤ y) ∧ (y < q.2 ∨ pts[i + 2]? = none) := by
  match pts, h2 with
  | a :: b :: r, _ =>
    obtain ⟨i, p, q, s, h3, h4, h5, h6, h7, h8⟩ := invP_find (val := val) (ope := ope)
      (rest := [⟨.fin ope, .pinf, .undef⟩]) r a b 0 y hr h0 hy
    refine ⟨i, p, q, h3, h4, ?_, h7, h8⟩
    have hpos : 0 < slope val p q := lt_of_lt_of_le (by norm_num) (hs i p q h3 h4)
    unfold ppfEval ppfShape
    rw [List.find?_cons]
    have : (XQ.le .ninf (.fin y) && !XQ.le (.fin 0) (.fin y)) = false := by simp [XQ.le, h0]
    rw [this]
    simp only [h5, h6]
    exact invLine_eval hpos.ne' y

theorem invP_find_ope {val : ℤ → ℚ} {ope : ℚ} : ∀ (r : List (ℤ × ℚ)) (a b : ℤ × ℚ)
    (cur : XQ) (y : ℚ), (∀ p ∈ b :: r, p.2 ≤ ope) → ope ≤ y →
    (invP val (.fin ope) cur (a :: b :: r)).find?
        (fun s => s.lower.le (.fin y) && !s.upper.le (.fin y)) = none
  | [], a, b, cur, y, _, h => by simp [invP, XQ.le, h]
  | c :: r, a, b, cur, y, h1, h => by
    have := h1 b (by simp)
    rw [invP, List.find?_cons]
    have e : (XQ.le cur (.fin y) && !XQ.le (.fin b.2) (.fin y)) = false := by
      simp [XQ.le, this.trans h]
    simp only [e]
    exact invP_find_ope r b c (.fin b.2) y (fun p hp => h1 p (by simp [List.mem_cons.1 hp])) h

theorem rising_le_one {pts : List (ℤ × ℚ)} (hr : Rising pts) {p z : ℤ × ℚ} (hp : p ∈ pts)
    (hz : pts.getLast? = some z) : p.2 ≤ z.2 := by
  obtain ⟨l, rfl⟩ := List.getLast?_eq_some_iff.1 hz
  rcases List.mem_append.1 hp with hp | hp
  · exact ((List.pairwise_append.1 hr).2.2 p hp z (by simp)).2.le
  · simp at hp; rw [hp]

/-- Above `one_plus_eps` the quantile function is undefined. -/
theorem ppfShape_above {val : ℤ → ℚ} {ope : ℚ} (hope : 1 < ope) {pts : List (ℤ × ℚ)} {z : ℤ × ℚ}
    (hr : Rising pts) (h2 : 2 ≤ pts.length) (hz : pts.getLast? = some z) (hz1 : z.2 = 1) {y : ℚ}
    (hy : ope ≤ y) : ppfEval (ppfShape val ope pts) y = none := by
  match pts, h2 with
  | a :: b :: r, _ =>
    have h1 := invP_find_ope (val := val) (ope := ope) r a b (.fin 0) y
      (fun p hp => by
        have := rising_le_one hr (p := p) (by simp [List.mem_cons.1 hp]) hz
        linarith) hy
    unfold ppfEval ppfShape
    rw [List.find?_cons]
    have : (XQ.le .ninf (.fin y) && !XQ.le (.fin 0) (.fin y)) = false := by
      simp [XQ.le]; linarith
    rw [this]
    simp only [List.find?_append, h1]
    simp [XQ.le, hy, Fn.eval]

/-- The quantile function of a cdf through rising points. -/
theorem ppf_spec {val : ℤ → ℚ} (hval : StrictMono val) {ope : ℚ} (hope : 1 < ope)
    {pts : List (ℤ × ℚ)} {z : ℤ × ℚ} (hr : Rising pts) (hs : Steep val pts) (h2 : 2 ≤ pts.length)
    (hz : pts.getLast? = some z) (hz1 : z.2 = 1) :
    ppf val ope (tile ninf (.const 0) (segs val pts ++ [(z.1 + 1, .const 1)]) pinf) =
      .ok (ppfShape val ope pts) := by
  have hlen : (tile ninf (.const 0) (segs val pts ++ [(z.1 + 1, .const 1)]) pinf).length =
      (segs val pts).length + 2 := by rw [tile_length]; simp
  have hseg : 1 ≤ (segs val pts).length := by
    match pts, h2 with
    | a :: b :: r, _ => simp [segs]
  have habove := ppfShape_above (val := val) hope hr h2 hz hz1 (le_refl ope)
  have hone : ppfEval (ppfShape val ope pts) 1 ≠ none := by
    obtain ⟨i, p, q, _, _, h, _⟩ := ppfShape_eval hr hs h2 (y := 1) (by norm_num) hope
    rw [h]; simp
  have hloop : ∃ e cur', ppfLoop val ope
      (tile ninf (.const 0) (segs val pts ++ [(z.1 + 1, .const 1)]) pinf) [] .ninf 0 =
      .ok (⟨.ninf, .fin 0, .undef⟩ :: invP val e (.fin 0) pts, cur') := by
    match pts, h2 with
    | a :: b :: r, _ =>
      obtain ⟨e, cur', h⟩ := ppfLoop_segs hval hope r a b z [⟨.ninf, .fin 0, .undef⟩] (.fin 0) 0
        hr hs hz hz1
      refine ⟨e, cur', ?_⟩
      have hmin : min ope 0 = 0 := min_eq_right (by linarith)
      rw [show segs val (a :: b :: r) = (a.1, lineOf val a b) :: segs val (b :: r) from rfl,
        List.cons_append, tile]
      have f1 : ppfFn val 0 ⟨ninf, fin a.1, brOf ninf, .exc⟩ (.const 0) = .ok (some .undef) := by
        simp [ppfFn, isInvertible]
      have f2 : ppfUpper val ope (.const 0) (fin a.1) = .ok 0 := by
        simp [ppfUpper, Fn.eval, hmin]
      have f3 : ppfY val ope (.const 0) (fin a.1) = .ok 0 := by
        simp [ppfY, Fn.eval, hmin]
      simp only [ppfLoop, bind, Except.bind, f1, f2, f3, List.nil_append]
      rw [h]
      rfl
  obtain ⟨e, cur', hloop⟩ := hloop
  obtain ⟨l, c', g, hsplit⟩ := invP_split val pts (.fin 0) h2
  have hclose : ppfClose ope (⟨.ninf, .fin 0, .undef⟩ :: invP val e (.fin 0) pts) =
      .ok (ppfShape val ope pts) := by
    rw [hsplit e, ← List.cons_append, ppfClose_append, ppfShape, hsplit (.fin ope)]
    simp
  unfold ppf
  have hass : assertConsistency (tile ninf (.const 0) (segs val pts ++ [(z.1 + 1, .const 1)]) pinf) =
      .ok (tile ninf (.const 0) (segs val pts ++ [(z.1 + 1, .const 1)]) pinf) := by
    rw [assertConsistency, if_pos (by omega)]
  simp only [hass, bind, Except.bind]
  rw [if_neg (by omega)]
  simp only [hloop, hclose]
  rw [if_neg (by simpa using habove), if_neg hone]

theorem ppfShape_below {val : ℤ → ℚ} {ope : ℚ} {pts : List (ℤ × ℚ)} {y : ℚ} (hy : y < 0) :
    ppfEval (ppfShape val ope pts) y = none := by
  unfold ppfEval ppfShape
  rw [List.find?_cons]
  have : (XQ.le .ninf (.fin y) && !XQ.le (.fin 0) (.fin y)) = true := by simp [XQ.le, hy]
  rw [this]
  rfl

theorem Through.at {val : ℤ → ℚ} (hval : StrictMono val) {pts : List (ℤ × ℚ)} {F : ℤ → ℚ}
    (h : Through val pts F) (hr : Rising pts) {i : ℕ} {a b : ℤ × ℚ} (ha : pts[i]? = some a)
    (hb : pts[i + 1]? = some b) : F a.1 = a.2 ∧ F b.1 = b.2 := by
  have hab := rising_get hr ha hb
  refine ⟨?_, ?_⟩
  · rw [h.on i a b ha hb a.1 le_rfl hab.1.le]; ring
  · rw [h.on i a b ha hb b.1 hab.1.le le_rfl, lineOf_end hval hab.1]

theorem Through.at_mem {val : ℤ → ℚ} (hval : StrictMono val) {pts : List (ℤ × ℚ)} {F : ℤ → ℚ}
    (h : Through val pts F) (hr : Rising pts) (h2 : 2 ≤ pts.length) {p : ℤ × ℚ} (hp : p ∈ pts) :
    F p.1 = p.2 := by
  obtain ⟨i, hi, rfl⟩ := List.getElem_of_mem hp
  by_cases hi2 : i + 1 < pts.length
  · exact (h.at hval hr (List.getElem?_eq_getElem hi) (List.getElem?_eq_getElem hi2)).1
  · have h1 : pts[i - 1]? = some pts[i - 1] := List.getElem?_eq_getElem (by omega)
    have h3 : pts[i - 1 + 1]? = some pts[i] := by
      rw [show i - 1 + 1 = i by omega]; exact List.getElem?_eq_getElem hi
    exact (h.at hval hr h1 h3).2

/-- Between the first and the last point the cdf increases strictly. -/
theorem Through.strict {val : ℤ → ℚ} (hval : StrictMono val) {pts : List (ℤ × ℚ)} {F : ℤ → ℚ}
    (h : Through val pts F) (hr : Rising pts) {a z : ℤ × ℚ} (ha : pts.head? = some a)
    (hz : pts.getLast? = some z) (h0 : 0 ≤ a.2) (h2 : 2 ≤ pts.length) {n m : ℤ} (hn : a.1 ≤ n)
    (hnm : n < m) (hm : m ≤ z.1) : F n < F m := by
  have hmono := h.monotone hval hr ha hz h0 h2
  refine lt_of_lt_of_le ?_ (hmono (show n + 1 ≤ m by omega))
  rcases locate ha hn with ⟨i, p, q, h1, h3, h4, h5⟩ | ⟨z', hz', hzn⟩
  · rw [h.on i p q h1 h3 n h4 h5.le, h.on i p q h1 h3 (n + 1) (by omega) (by omega)]
    have hpq := rising_get hr h1 h3
    have hv : 0 < val q.1 - val p.1 := sub_pos.2 (hval hpq.1)
    have hm : 0 < (q.2 - p.2) / (val q.1 - val p.1) := div_pos (sub_pos.2 hpq.2) hv
    have := hval (show n < n + 1 by omega)
    nlinarith
  · rw [hz] at hz'; cases hz'
    omega

/-- The cdf and then the quantile function lead back. -/
theorem ppf_cdf {val : ℤ → ℚ} (hval : StrictMono val) {ope : ℚ} (hope : 1 < ope)
    {pts : List (ℤ × ℚ)} {F : ℤ → ℚ} (h : Through val pts F) (hr : Rising pts) (hs : Steep val pts)
    {a z : ℤ × ℚ} (ha : pts.head? = some a) (hz : pts.getLast? = some z) (hz1 : z.2 = 1)
    (h0 : 0 ≤ a.2) (h2 : 2 ≤ pts.length) {n : ℤ} (hn : a.1 ≤ n) (hnz : n ≤ z.1) :
    ppfEval (ppfShape val ope pts) (F n) = some (val n) := by
  have hmono := h.monotone hval hr ha hz h0 h2
  have hFa : F a.1 = a.2 := h.at_mem hval hr h2 (List.mem_of_head? ha)
  have hFz : F z.1 = z.2 := h.at_mem hval hr h2 (List.mem_of_getLast? hz)
  have hF0 : 0 ≤ F n := by have := hmono hn; linarith
  have hF1 : F n ≤ 1 := by have := hmono hnz; linarith
  obtain ⟨i, p, q, h3, h4, h5, h6, h7⟩ := ppfShape_eval (ope := ope) hr hs h2 hF0 (by linarith)
  have hpq := rising_get hr h3 h4
  have hpm : p ∈ pts := List.mem_of_getElem? h3
  have hqm : q ∈ pts := List.mem_of_getElem? h4
  have hp : p.1 ≤ n := by
    rcases h6 with rfl | h6
    · rw [List.head?_eq_getElem?, h3] at ha; cases ha; exact hn
    · by_contra hc
      have := h.strict hval hr ha hz h0 h2 hn (not_le.1 hc) (rising_le_last hr hpm hz)
      rw [h.at_mem hval hr h2 hpm] at this
      linarith
  have hq : n ≤ q.1 := by
    rcases h7 with h7 | h7
    · by_contra hc
      have := hmono (not_le.1 hc).le
      rw [h.at_mem hval hr h2 hqm] at this
      linarith
    · have : q = z := by
        rw [List.getLast?_eq_getElem?] at hz
        have hl := List.getElem?_eq_none_iff.1 h7
        have hl' : i + 1 < pts.length := (List.getElem?_eq_some_iff.1 h4).1
        rw [show pts.length - 1 = i + 1 by omega, h4] at hz
        exact Option.some.inj hz
      rw [this]; exact hnz
  have hpos : 0 < slope val p q := lt_of_lt_of_le (by norm_num) (hs i p q h3 h4)
  have e : F n = p.2 + slope val p q * (val n - val p.1) := h.on i p q h3 h4 n hp hq
  rw [h5, e]
  congr 1
  field_simp
  ring

/-- The quantile function increases strictly from 0 to 1. -/
theorem ppf_strict {val : ℤ → ℚ} (hval : StrictMono val) {ope : ℚ} (hope : 1 < ope)
    {pts : List (ℤ × ℚ)} (hr : Rising pts) (hs : Steep val pts) (h2 : 2 ≤ pts.length) {y y' x x' : ℚ}
    (h0 : 0 ≤ y) (hyy : y < y') (h1 : y' ≤ 1) (hx : ppfEval (ppfShape val ope pts) y = some x)
    (hx' : ppfEval (ppfShape val ope pts) y' = some x') : x < x' := by
  obtain ⟨i, p, q, h3, h4, h5, h6, h7⟩ := ppfShape_eval (ope := ope) hr hs h2 h0 (by linarith)
  obtain ⟨j, s, t, g3, g4, g5, g6, g7⟩ := ppfShape_eval (ope := ope) hr hs h2
    (show 0 ≤ y' by linarith) (by linarith)
  have hpos : 0 < slope val p q := lt_of_lt_of_le (by norm_num) (hs i p q h3 h4)
  have gpos : 0 < slope val s t := lt_of_lt_of_le (by norm_num) (hs j s t g3 g4)
  rw [h5] at hx
  rw [g5] at hx'
  cases hx
  cases hx'
  have hpq := rising_get hr h3 h4
  have hst := rising_get hr g3 g4
  rcases lt_trichotomy i j with hij | rfl | hij
  · have hi2 : y < q.2 := by
      rcases h7 with h7 | h7
      · exact h7
      · have h7 := List.getElem?_eq_none_iff.1 h7
        have g8 : j + 1 < pts.length := (List.getElem?_eq_some_iff.1 g4).1
        omega
    have hqs : q.1 ≤ s.1 := by
      rcases Nat.lt_or_ge (i + 1) j with hc | hc
      · obtain ⟨u1, rfl⟩ := List.getElem?_eq_some_iff.1 h4
        obtain ⟨u2, rfl⟩ := List.getElem?_eq_some_iff.1 g3
        exact (List.pairwise_iff_getElem.1 hr (i + 1) j u1 u2 hc).1.le
      · have : i + 1 = j := by omega
        rw [this, g3] at h4
        cases h4; exact le_rfl
    have hsy : s.2 ≤ y' := by
      rcases g6 with rfl | g6
      · omega
      · exact g6
    have e1 : val p.1 + (y - p.2) / slope val p q < val q.1 := by
      have hv : 0 < val q.1 - val p.1 := sub_pos.2 (hval hpq.1)
      have : (y - p.2) / slope val p q < val q.1 - val p.1 := by
        rw [div_lt_iff₀ hpos, slope, mul_div_cancel₀ _ hv.ne']; linarith
      linarith
    have e2 : val s.1 ≤ val s.1 + (y' - s.2) / slope val s t := by
      have : 0 ≤ (y' - s.2) / slope val s t := div_nonneg (by linarith) gpos.le
      linarith
    have := hval.monotone hqs
    linarith
  · rw [h3] at g3; rw [h4] at g4
    cases g3; cases g4
    have : (y - p.2) / slope val p q < (y' - p.2) / slope val p q :=
      div_lt_div_of_pos_right (by linarith) hpos
    linarith
  · exfalso
    have hj2 : y' < t.2 := by
      rcases g7 with g7 | g7
      · exact g7
      · have g7 := List.getElem?_eq_none_iff.1 g7
        have h8 : i + 1 < pts.length := (List.getElem?_eq_some_iff.1 h4).1
        omega
    have htp : t.2 ≤ p.2 := by
      rcases Nat.lt_or_ge (j + 1) i with hc | hc
      · obtain ⟨u1, rfl⟩ := List.getElem?_eq_some_iff.1 g4
        obtain ⟨u2, rfl⟩ := List.getElem?_eq_some_iff.1 h3
        exact (List.pairwise_iff_getElem.1 hr (j + 1) i u1 u2 hc).2.le
      · have : j + 1 = i := by omega
        rw [this, h3] at g4
        cases g4; exact le_rfl
    rcases h6 with rfl | h6
    · omega
    · linarith

end Verif.Num
