import Verif.Numeric.FitLemmas
import Verif.Numeric.Spec
import Mathlib.Order.SuccPred.Archimedean
import Mathlib.Data.Int.SuccPred

/-! # Values of a fitted cdf -/

namespace Verif.Num

open Iv Iv.FP Fun

/-- `F` is 0 before the points, goes straight from point to point, and is 1 from the last one on. -/
structure Through (val : ℤ → ℚ) (pts : List (ℤ × ℚ)) (F : ℤ → ℚ) : Prop where
  before : ∀ n, (∀ p ∈ pts, n < p.1) → F n = 0
  on : ∀ (i : ℕ) (p q : ℤ × ℚ), pts[i]? = some p → pts[i + 1]? = some q → ∀ n, p.1 ≤ n → n ≤ q.1 →
    F n = p.2 + (q.2 - p.2) / (val q.1 - val p.1) * (val n - val p.1)
  after : ∀ n, (∀ p ∈ pts, p.1 ≤ n) → F n = 1

theorem tileAt_segs_before {val : ℤ → ℚ} {pts : List (ℤ × ℚ)} {f : Fn} {n : ℤ} {rest : List (ℤ × Fn)}
    (h : ∀ p ∈ pts, n < p.1) (h2 : 2 ≤ pts.length) : tileAt f (segs val pts ++ rest) n = f := by
  match pts, h2 with
  | a :: b :: r, _ => simp [segs, tileAt, h a (by simp)]

theorem tileAt_segs_on {val : ℤ → ℚ} {n : ℤ} {rest : List (ℤ × Fn)} : ∀ {pts : List (ℤ × ℚ)} {f : Fn}
    (i : ℕ) (p q : ℤ × ℚ), Rising pts → (∀ s ∈ rest, ∀ p ∈ pts, p.1 < s.1) →
    pts[i]? = some p → pts[i + 1]? = some q → p.1 ≤ n → n ≤ q.1 →
    (n < q.1 ∨ pts[i + 2]? = none) →
    tileAt f (segs val pts ++ rest) n = lineOf val p q
  | [], _, i, p, q, _, _, h1, _, _, _, _ => by simp at h1
  | [a], _, i, p, q, _, _, h1, h2, _, _, _ => by simp at h2
  | a :: b :: r, f, 0, p, q, hr, hrest, h1, h2, h3, h3', h4 => by
    simp only [List.getElem?_cons_zero, Option.some.injEq, zero_add, List.getElem?_cons_succ] at h1 h2
    subst h1 h2
    simp only [segs, List.cons_append, tileAt]
    rw [if_neg (by omega)]
    cases r with
    | nil =>
      simp only [segs, List.nil_append]
      cases rest with
      | nil => rfl
      | cons s rest =>
        have := hrest s (by simp) b (by simp)
        simp only [tileAt]
        rw [if_pos (by omega)]
    | cons c r =>
      rcases h4 with h4 | h4
      · simp [segs, tileAt, h4]
      · simp at h4
  | a :: b :: r, f, i + 1, p, q, hr, hrest, h1, h2, h3, h3', h4 => by
    have hr' := List.pairwise_cons.1 hr
    simp only [List.getElem?_cons_succ] at h1 h2 h4
    simp only [segs, List.cons_append, tileAt]
    have hp : p ∈ b :: r := List.mem_of_getElem? h1
    have := (hr'.1 p hp).1
    rw [if_neg (by omega)]
    exact tileAt_segs_on i p q hr'.2 (fun s hs p hp => hrest s hs p (by simp [List.mem_cons.1 hp]))
      h1 h2 h3 h3' h4

theorem rising_get {pts : List (ℤ × ℚ)} (hr : Rising pts) {i : ℕ} {p q : ℤ × ℚ}
    (h1 : pts[i]? = some p) (h2 : pts[i + 1]? = some q) : p.1 < q.1 ∧ p.2 < q.2 := by
  obtain ⟨hi, rfl⟩ := List.getElem?_eq_some_iff.1 h1
  obtain ⟨hj, rfl⟩ := List.getElem?_eq_some_iff.1 h2
  exact List.pairwise_iff_getElem.1 hr i (i + 1) hi hj (by omega)

theorem rising_le_last {pts : List (ℤ × ℚ)} (hr : Rising pts) {p z : ℤ × ℚ} (hp : p ∈ pts)
    (hz : pts.getLast? = some z) : p.1 ≤ z.1 := by
  obtain ⟨l, rfl⟩ := List.getLast?_eq_some_iff.1 hz
  rcases List.mem_append.1 hp with hp | hp
  · exact ((List.pairwise_append.1 hr).2.2 p hp z (by simp)).1.le
  · simp at hp; rw [hp]

/-- The cdf through rising points that end at height 1. -/
theorem cdfThrough_spec {val : ℤ → ℚ} (hval : StrictMono val) {pts : List (ℤ × ℚ)} {z : ℤ × ℚ}
    (h2 : 2 ≤ pts.length) (hr : Rising pts) (hz : pts.getLast? = some z) (hz1 : z.2 = 1) :
    ∃ p F, cdfThrough val pts = .ok p ∧ 1 < p.length ∧
      p = tile ninf (.const 0) (segs val pts ++ [(z.1 + 1, .const 1)]) pinf ∧
      (∀ n, p.eval val n = .ok (some (F n))) ∧ Through val pts F := by
  set rest : List (ℤ × Fn) := [(z.1 + 1, .const 1)] with hrest
  have hrest' : ∀ s ∈ rest, ∀ p ∈ pts, p.1 < s.1 := by
    intro s hs p hp
    have := rising_le_last hr hp hz
    simp [hrest] at hs
    subst hs
    simp only; omega
  have hk : Knots (segs val pts ++ rest) := full_knots hr hz
  refine ⟨tile ninf (.const 0) (segs val pts ++ rest) pinf,
    fun n => ((tileAt (.const 0) (segs val pts ++ rest) n).eval (val n)).getD 0, ?_, ?_, rfl, ?_, ?_⟩
  · match pts, h2 with
    | a :: b :: r, _ => exact cdfThrough_tile hval hr hz
  · rw [tile_length]; simp [hrest]
  · intro n
    rw [tile_eval]
    congr 1
    have : ∀ s ∈ segs val pts ++ rest, ∃ v, s.2.eval (val n) = some v := by
      intro s hs
      rcases List.mem_append.1 hs with hs | hs
      · have : ∀ (l : List (ℤ × ℚ)), s ∈ segs val l → ∃ v, s.2.eval (val n) = some v := by
          intro l
          induction l with
          | nil => intro h; simp [segs] at h
          | cons a l ih =>
            cases l with
            | nil => intro h; simp [segs] at h
            | cons b l =>
              intro h
              simp only [segs, List.mem_cons] at h
              rcases h with rfl | h
              · exact ⟨_, lineOf_eval val a b _⟩
              · exact ih h
        exact this pts hs
      · simp [hrest] at hs; subst hs; exact ⟨1, rfl⟩
    have key : ∀ (l : List (ℤ × Fn)) (f : Fn), (∃ v, f.eval (val n) = some v) →
        (∀ s ∈ l, ∃ v, s.2.eval (val n) = some v) →
        ∃ v, (tileAt f l n).eval (val n) = some v := by
      intro l
      induction l with
      | nil => intro f hf _; exact hf
      | cons s l ih =>
        intro f hf hl
        simp only [tileAt]
        split
        · exact hf
        · exact ih _ (hl s (by simp)) (fun t ht => hl t (by simp [ht]))
    obtain ⟨v, hv⟩ := key _ (.const 0) ⟨0, rfl⟩ this
    simp [hv]
  · constructor
    · intro n hn
      rw [tileAt_segs_before hn h2]
      rfl
    · intro i p q h1 h3 n hn1 hn2
      have hpq := rising_get hr h1 h3
      by_cases hc : n < q.1 ∨ pts[i + 2]? = none
      · rw [tileAt_segs_on i p q hr hrest' h1 h3 hn1 hn2 hc, lineOf_eval]
        rfl
      · have hnq : n = q.1 := by
          have : ¬ n < q.1 := fun h => hc (.inl h)
          omega
        have hnone : pts[i + 2]? ≠ none := fun h => hc (.inr h)
        obtain ⟨q', hq'⟩ := Option.ne_none_iff_exists'.1 hnone
        have hqq := rising_get hr h3 hq'
        rw [tileAt_segs_on (i + 1) q q' hr hrest' h3 hq' (by omega) (by omega) (.inl (by omega)),
          lineOf_eval, hnq, lineOf_end hval hpq.1]
        simp
    · intro n hn
      have hzm : z ∈ pts := List.mem_of_getLast? hz
      by_cases hc : n < z.1 + 1
      · have hnz : n = z.1 := by have := hn z hzm; omega
        have hlen : pts.length - 1 < pts.length := by omega
        have hzi : pts[pts.length - 1]? = some z := by
          rw [← List.getLast?_eq_getElem?]; exact hz
        obtain ⟨p, hp⟩ : ∃ p, pts[pts.length - 2]? = some p :=
          ⟨_, List.getElem?_eq_getElem (by omega)⟩
        have hzi' : pts[pts.length - 2 + 1]? = some z := by
          rw [show pts.length - 2 + 1 = pts.length - 1 by omega]; exact hzi
        have hpz := rising_get hr hp hzi'
        rw [tileAt_segs_on (pts.length - 2) p z hr hrest' hp hzi' (by omega) (by omega)
          (.inr (List.getElem?_eq_none (by omega))), lineOf_eval, hnz, lineOf_end hval hpz.1, hz1]
        rfl
      · rw [tileAt_append hk, if_neg hc]
        rfl

/-- Where a float lies relative to the points. -/
theorem locate : ∀ {pts : List (ℤ × ℚ)} {a : ℤ × ℚ} {n : ℤ}, pts.head? = some a → a.1 ≤ n →
    (∃ (i : ℕ) (p q : ℤ × ℚ), pts[i]? = some p ∧ pts[i + 1]? = some q ∧ p.1 ≤ n ∧ n < q.1) ∨
    (∃ z, pts.getLast? = some z ∧ z.1 ≤ n)
  | [], a, n, h, _ => by simp at h
  | [b], a, n, h, hn => by
    simp at h; subst h
    exact .inr ⟨b, rfl, hn⟩
  | b :: c :: r, a, n, h, hn => by
    simp at h; subst h
    by_cases hc : n < c.1
    · exact .inl ⟨0, b, c, rfl, rfl, hn, hc⟩
    · rcases locate (pts := c :: r) (a := c) (n := n) rfl (by omega) with
        ⟨i, p, q, h1, h2, h3⟩ | ⟨z, hz, hzn⟩
      · exact .inl ⟨i + 1, p, q, by simpa using h1, by simpa using h2, h3⟩
      · exact .inr ⟨z, by rw [List.getLast?_cons_cons]; exact hz, hzn⟩

theorem Through.monotone {val : ℤ → ℚ} (hval : StrictMono val) {pts : List (ℤ × ℚ)} {F : ℤ → ℚ}
    (h : Through val pts F) (hr : Rising pts) {a z : ℤ × ℚ} (ha : pts.head? = some a)
    (hz : pts.getLast? = some z) (h0 : 0 ≤ a.2) (h2 : 2 ≤ pts.length) :
    Monotone F := by
  apply monotone_int_of_le_succ
  intro n
  have hmin : ∀ p ∈ pts, a.1 ≤ p.1 := by
    intro p hp
    obtain ⟨r, rfl⟩ := List.head?_eq_some_iff.1 ha
    rcases List.mem_cons.1 hp with rfl | hp
    · exact le_rfl
    · exact ((List.pairwise_cons.1 hr).1 p hp).1.le
  have hafter : ∀ m, z.1 ≤ m → F m = 1 := fun m hm =>
    h.after m (fun p hp => (rising_le_last hr hp hz).trans hm)
  by_cases hna : a.1 ≤ n
  · rcases locate ha hna with ⟨i, p, q, h1, h3, h4, h5⟩ | ⟨z', hz', hzn⟩
    · rw [h.on i p q h1 h3 n h4 h5.le, h.on i p q h1 h3 (n + 1) (by omega) (by omega)]
      have hpq := rising_get hr h1 h3
      have hv : 0 < val q.1 - val p.1 := sub_pos.2 (hval hpq.1)
      have hm : 0 < (q.2 - p.2) / (val q.1 - val p.1) := div_pos (sub_pos.2 hpq.2) hv
      have := hval (show n < n + 1 by omega)
      nlinarith
    · rw [hz] at hz'; cases hz'
      rw [hafter n hzn, hafter (n + 1) (by omega)]
  · rw [h.before n (fun p hp => by have := hmin p hp; omega)]
    by_cases hn1 : a.1 ≤ n + 1
    · obtain ⟨b, hb⟩ : ∃ b, pts[1]? = some b := ⟨_, List.getElem?_eq_getElem (by omega)⟩
      have ha0 : pts[0]? = some a := by rw [← List.head?_eq_getElem?]; exact ha
      have hab := rising_get hr ha0 hb
      have e : n + 1 = a.1 := by omega
      rw [e, h.on 0 a b ha0 hb a.1 le_rfl hab.1.le]
      simpa using h0
    · rw [h.before (n + 1) (fun p hp => by have := hmin p hp; omega)]

end Verif.Num
