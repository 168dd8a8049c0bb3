import Verif.Functions.LevelsSpec
import Mathlib.Tactic.Linarith
import Mathlib.Tactic.Ring
import Mathlib.Tactic.FieldSimp

/-!
# Lemmas about the solutions of equations and inequalities
-/

namespace Verif.Fun.LF

open Vars (RI)
open Trees (RIMem)
open Iv (Br)

/-- In a piece `[b, u)`. -/
theorem mem_piece {i : RI} {b : ℚ} (h1 : i.lower = .fin b) (h3 : i.left = .inc) (h4 : i.right = .exc) (x : ℚ) :
    RIMem i (.fin x) ↔ b ≤ x ∧ XQ.fin x < i.upper := by
  unfold RIMem
  rw [h1, h3, h4]
  simp only [XQ.fin_lt, XQ.fin.injEq, and_true, reduceCtorEq, and_false, or_false]
  rw [le_iff_lt_or_eq]

/-- Pieces from `b` on have only numbers from `b` on. -/
theorem ge_of_mem {b : XQ} {p : LF} (h : From b p) {s : RI × Fn} (hs : s ∈ p) {x : ℚ} (hx : RIMem s.1 (.fin x)) :
    b ≤ .fin x := by
  induction p generalizing b with
  | nil => cases hs
  | cons t p ih =>
    obtain ⟨h1, h2, -, -, h5⟩ := h
    rcases List.mem_cons.1 hs with rfl | hs
    · rcases hx.1 with h | h
      · rw [← h1]; exact h.le
      · rw [← h1]; exact h.1.le
    · exact h2.le.trans (ih h5 hs)

/-- The value in the first piece or in the rest. -/
theorem has_cons {b : ℚ} {s : RI × Fn} {p : LF} (h : From (.fin b) (s :: p)) (x v : ℚ) :
    Has (s :: p) x v ↔ (b ≤ x ∧ XQ.fin x < s.1.upper ∧ s.2.eval x = some v) ∨ (s.1.upper ≤ .fin x ∧ Has p x v) := by
  obtain ⟨h1, h2, h3, h4, h5⟩ := h
  rw [if_neg (by simp)] at h3
  constructor
  · rintro ⟨t, ht, hx, hv⟩
    rcases List.mem_cons.1 ht with rfl | ht
    · exact Or.inl ⟨((mem_piece h1 h3 h4 x).1 hx).1, ((mem_piece h1 h3 h4 x).1 hx).2, hv⟩
    · exact Or.inr ⟨ge_of_mem h5 ht hx, t, ht, hx, hv⟩
  · rintro (⟨hx1, hx2, hv⟩ | ⟨-, t, ht, hx, hv⟩)
    · exact ⟨s, List.mem_cons_self, (mem_piece h1 h3 h4 x).2 ⟨hx1, hx2⟩, hv⟩
    · exact ⟨t, List.mem_cons_of_mem _ ht, hx, hv⟩

theorem In_append (l l' : List RI) (x : ℚ) : In (l ++ l') x ↔ In l x ∨ In l' x := by
  unfold In
  simp only [List.mem_append]
  constructor
  · rintro ⟨i, hi | hi, h⟩
    · exact Or.inl ⟨i, hi, h⟩
    · exact Or.inr ⟨i, hi, h⟩
  · rintro (⟨i, hi, h⟩ | ⟨i, hi, h⟩)
    · exact ⟨i, Or.inl hi, h⟩
    · exact ⟨i, Or.inr hi, h⟩

theorem In_single (i : RI) (x : ℚ) : In [i] x ↔ RIMem i (.fin x) := by simp [In]

/-- The next piece begins where the last one ends, with the same value. -/
theorem next_value {b y : ℚ} {s : RI × Fn} {p : LF} (h : From (.fin b) (s :: p)) (hj : Joined (s :: p))
    (hy : Misses (s :: p) y) {u : ℚ} (hu : s.1.upper = .fin u) : ∃ t q, p = t :: q ∧ t.2.eval u = s.2.eval u ∧
      s.2.eval u ≠ some y := by
  obtain ⟨-, -, -, -, h5⟩ := h
  cases p with
  | nil =>
    rw [hu] at h5
    cases h5
  | cons t q =>
    have h6 := hj.1 t (by simp) u hu
    exact ⟨t, q, rfl, h6.symm, by rw [h6]; exact hy t (by simp) u (by rw [h5.1, hu])⟩

/-- What `lt` and `gt` have seen before `b`: if the function is on the right side of `y` at `b`, the pending interval is open
(or unbounded) and begins before `b`; otherwise there is none. -/
def Pending (good : Prop) (b : ℚ) (cur : Option RI) : Prop :=
  (good ∧ ∃ a l, cur = some ⟨a, .pinf, l, .exc⟩ ∧ a < .fin b ∧ (l = .inc → a = .ninf)) ∨ (¬ good ∧ cur = none)

/-- The loop of `lt` from `b` on. -/
theorem lt_loop {y : ℚ} : ∀ (p : LF) (b : ℚ) (st : LSt), From (.fin b) p → Joined p → Lines p → Misses p y →
    (∀ s ∈ p.head?, ∀ v, s.2.eval b = some v → Pending (v < y) b st.2) → ∃ r, p.foldlM (ltStep y) st = .ok r ∧
      ∀ x, In (finish r) x ↔ In st.1 x ∨ (x < b ∧ ∃ c, st.2 = some c ∧ RIMem c (.fin x)) ∨
        (b ≤ x ∧ ∃ v, Has p x v ∧ v < y) := by
  intro p
  induction p with
  | nil => intro b st h; cases h
  | cons s p ih =>
    intro b st hf hj hl hy hp
    obtain ⟨i, f⟩ := s
    have hf' := hf
    obtain ⟨h1, h2, h3, h4, h5⟩ := hf
    rw [if_neg (by simp)] at h3
    simp only at h1 h2 h3 h4 h5
    have hmem := mem_piece h1 h3 h4
    -- what the rest of the loop does, if the state is as it should be
    have rest : ∀ st' : LSt, ltStep y st (i, f) = .ok st' →
        (∀ u v, i.upper = .fin u → f.eval u = some v → v ≠ y → Pending (v < y) u st'.2) →
        (∀ x, (In st'.1 x ∨ (XQ.fin x < i.upper ∧ ∃ c, st'.2 = some c ∧ RIMem c (.fin x))) ↔
          (In st.1 x ∨ (x < b ∧ ∃ c, st.2 = some c ∧ RIMem c (.fin x)) ∨
            (b ≤ x ∧ XQ.fin x < i.upper ∧ ∃ v, f.eval x = some v ∧ v < y))) →
        ∃ r, ((i, f) :: p).foldlM (ltStep y) st = .ok r ∧
          ∀ x, In (finish r) x ↔ In st.1 x ∨ (x < b ∧ ∃ c, st.2 = some c ∧ RIMem c (.fin x)) ∨
            (b ≤ x ∧ ∃ v, Has ((i, f) :: p) x v ∧ v < y) := by
      intro st' hst' hpend hin
      have hrw : ∀ x, (b ≤ x ∧ ∃ v, Has ((i, f) :: p) x v ∧ v < y) ↔
          ((b ≤ x ∧ XQ.fin x < i.upper ∧ ∃ v, f.eval x = some v ∧ v < y) ∨
            (i.upper ≤ .fin x ∧ ∃ v, Has p x v ∧ v < y)) := by
        intro x
        constructor
        · rintro ⟨hbx, v, hv, hvy⟩
          rcases (has_cons hf' x v).1 hv with ⟨ha, hb, hc⟩ | ⟨ha, hb⟩
          · exact Or.inl ⟨ha, hb, v, hc, hvy⟩
          · exact Or.inr ⟨ha, v, hb, hvy⟩
        · rintro (⟨ha, hb, v, hc, hvy⟩ | ⟨ha, v, hb, hvy⟩)
          · exact ⟨ha, v, (has_cons hf' x v).2 (Or.inl ⟨ha, hb, hc⟩), hvy⟩
          · have : b < x := by
              have := lt_of_lt_of_le h2 ha
              simpa using this
            exact ⟨this.le, v, (has_cons hf' x v).2 (Or.inr ⟨ha, hb⟩), hvy⟩
      have hcons : ((i, f) :: p).foldlM (ltStep y) st = p.foldlM (ltStep y) st' := by
        rw [List.foldlM_cons, hst']
        rfl
      rw [hcons]
      cases hu : i.upper with
      | ninf => rw [hu] at h2; exact absurd h2 (by simp [lt_iff_not_ge])
      | pinf =>
        rw [hu] at h5
        have hpn : p = [] := by
          cases p with
          | nil => rfl
          | cons t q =>
            obtain ⟨-, h7, -⟩ := h5
            exact absurd h7 (by simp [lt_iff_not_ge])
        subst hpn
        refine ⟨st', rfl, fun x => ?_⟩
        rw [hrw x]
        have h8 := hin x
        rw [hu] at h8 ⊢
        have h9 : In (finish st') x ↔ In st'.1 x ∨ ∃ c, st'.2 = some c ∧ RIMem c (.fin x) := by
          unfold finish
          cases h10 : st'.2 with
          | none => simp
          | some c => simp only [In_append, In_single, Option.some.injEq, exists_eq_left']
        rw [h9]
        simp only [XQ.fin_lt_pinf, true_and] at h8 ⊢
        rw [h8]
        have : ¬ (XQ.pinf ≤ XQ.fin x) := by
          rw [not_le]
          exact XQ.fin_lt_pinf x
        simp [this]
      | fin u =>
        rw [hu] at h5
        obtain ⟨t, q, hpq, hv, hne⟩ := next_value hf' hj hy hu
        obtain ⟨r, hr, hx⟩ := ih u st' h5 hj.2 (fun s hs => hl s (List.mem_cons_of_mem _ hs))
          (fun s hs => hy s (List.mem_cons_of_mem _ hs)) (by
            intro s hs v hsv
            rw [hpq] at hs
            simp only [List.head?_cons, Option.mem_def, Option.some.injEq] at hs
            subst hs
            simp only at hv hne
            rw [hv] at hsv
            exact hpend u v hu hsv (by rintro rfl; exact hne hsv))
        refine ⟨r, hr, fun x => ?_⟩
        rw [hx x, hrw x]
        have h8 := hin x
        rw [hu] at h8 ⊢
        simp only [XQ.fin_lt, XQ.fin_le] at h8 ⊢
        constructor
        · rintro (ha | ha | ha)
          · rcases h8.1 (Or.inl ha) with h | h | h
            · exact Or.inl h
            · exact Or.inr (Or.inl h)
            · exact Or.inr (Or.inr (Or.inl h))
          · rcases h8.1 (Or.inr ha) with h | h | h
            · exact Or.inl h
            · exact Or.inr (Or.inl h)
            · exact Or.inr (Or.inr (Or.inl h))
          · exact Or.inr (Or.inr (Or.inr ha))
        · rintro (h | h | h | h)
          · rcases h8.2 (Or.inl h) with h | h
            · exact Or.inl h
            · exact Or.inr (Or.inl h)
          · rcases h8.2 (Or.inr (Or.inl h)) with h | h
            · exact Or.inl h
            · exact Or.inr (Or.inl h)
          · rcases h8.2 (Or.inr (Or.inr h)) with h | h
            · exact Or.inl h
            · exact Or.inr (Or.inl h)
          · exact Or.inr (Or.inr h)
    have hpd := hp (i, f) (by simp)
    have hby := hy (i, f) (by simp) b h1
    -- the state does not change, and neither does the side on which the function is
    have same : ltStep y st (i, f) = .ok st → (∀ x w v, b ≤ x → (XQ.fin x < i.upper ∨ XQ.fin x = i.upper ∧ w ≠ y) →
        f.eval x = some w → f.eval b = some v → (w < y ↔ v < y)) →
        ∃ r, ((i, f) :: p).foldlM (ltStep y) st = .ok r ∧
          ∀ x, In (finish r) x ↔ In st.1 x ∨ (x < b ∧ ∃ c, st.2 = some c ∧ RIMem c (.fin x)) ∨
            (b ≤ x ∧ ∃ v, Has ((i, f) :: p) x v ∧ v < y) := by
      intro hst hside
      obtain ⟨vb, hvb⟩ : ∃ vb, f.eval b = some vb := by
        rcases hl (i, f) (by simp) with ⟨v, hv⟩ | ⟨m, c, -, hv⟩ <;> simp only at hv <;> subst hv <;> exact ⟨_, rfl⟩
      have hpb := hpd vb hvb
      refine rest st hst ?_ ?_
      · intro u v hu hv hvy
        have hbu : b < u := by rw [hu] at h2; simpa using h2
        have hiff := hside u v vb hbu.le (Or.inr ⟨hu.symm, hvy⟩) hv hvb
        rcases hpb with ⟨h6, a, l, h7, h8, h9⟩ | ⟨h6, h7⟩
        · exact Or.inl ⟨hiff.2 h6, a, l, h7, h8.trans (by simpa using hbu), h9⟩
        · exact Or.inr ⟨fun h => h6 (hiff.1 h), h7⟩
      · intro x
        rcases hpb with ⟨h6, a, l, h7, h8, h9⟩ | ⟨h6, h7⟩
        · have hc : ∀ x, (∃ c, st.2 = some c ∧ RIMem c (.fin x)) ↔ a < .fin x := by
            intro x
            rw [h7]
            simp only [Option.some.injEq, exists_eq_left', RIMem, XQ.fin_lt_pinf, true_or, and_true]
            constructor
            · rintro (h | ⟨h, hl⟩)
              · exact h
              · rw [h9 hl] at h
                cases h
            · exact Or.inl
          rw [hc x]
          by_cases hbx : b ≤ x
          · have hax : a < .fin x := lt_of_lt_of_le h8 (by simpa using hbx)
            constructor
            · rintro (h | ⟨h, -⟩)
              · exact Or.inl h
              · refine Or.inr (Or.inr ⟨hbx, h, ?_⟩)
                obtain ⟨w, hw⟩ : ∃ w, f.eval x = some w := by
                  rcases hl (i, f) (by simp) with ⟨v, hv⟩ | ⟨m, c, -, hv⟩ <;> simp only at hv <;> subst hv <;> exact ⟨_, rfl⟩
                exact ⟨w, hw, (hside x w vb hbx (Or.inl h) hw hvb).2 h6⟩
            · rintro (h | ⟨h, -⟩ | ⟨-, h, -⟩)
              · exact Or.inl h
              · exact absurd hbx (not_le.2 h)
              · exact Or.inr ⟨h, hax⟩
          · have hlt : XQ.fin x < i.upper := lt_trans (by simpa using hbx) h2
            simp only [hlt, true_and, hbx, false_and, or_false, lt_of_not_ge hbx]
        · have hc : ∀ x, ¬ (∃ c, st.2 = some c ∧ RIMem c (.fin x)) := by
            rintro x ⟨c, h, -⟩
            rw [h7] at h
            cases h
          simp only [hc x, and_false, or_false, false_or]
          constructor
          · exact Or.inl
          · rintro (h | ⟨hbx, hlt, w, hw, hwy⟩)
            · exact h
            · exact absurd ((hside x w vb hbx (Or.inl hlt) hw hvb).1 hwy) h6
    rcases hl (i, f) (by simp) with ⟨v, hv⟩ | ⟨m, c, hm, hv⟩
    · simp only at hv
      subst hv
      have hvy : v ≠ y := fun h => hby (by rw [h]; rfl)
      refine same ?_ ?_
      · have hpb := hpd v rfl
        simp only [ltStep, Fn.crossing, if_neg hvy, bind, Except.bind, pure, Except.pure, Fn.valueAt, Fn.below, Fn.above,
          XQ.fin_lt, Option.some.injEq, XQ.fin.injEq]
        rcases hpb with ⟨h6, a, l, h7, h8, h9⟩ | ⟨h6, h7⟩
        · rw [h7]
          simp [hvy, not_lt.2 h6.le]
        · rw [h7]
          simp only [decide_eq_true_eq, if_neg h6]
      · intro x w v' _ _ hw hv'
        simp only [Fn.eval, Option.some.injEq] at hw hv'
        rw [← hw, ← hv']
    · simp only at hv
      subst hv
      simp only [Fn.eval, ne_eq, Option.some.injEq] at hby
      set x0 := (c - y) / (-m) with hx0
      have hroot : m * x0 + c = y := by
        rw [hx0]
        field_simp
        ring
      have hcross : (Fn.lin m c).crossing y = .ok (.one x0) := by
        simp only [Fn.crossing, if_neg hm]
        rfl
      have hx0b : x0 ≠ b := fun h => hby (by rw [← h]; exact hroot)
      by_cases hin : RIMem i (.fin x0)
      · obtain ⟨hin1, hin2⟩ := (hmem x0).1 hin
        have hlt : b < x0 := lt_of_le_of_ne hin1 (Ne.symm hx0b)
        rcases lt_or_gt_of_ne hm with hneg | hpos
        · -- downwards
          have hb6 : ¬ (m * b + c < y) := by nlinarith
          have hcur : st.2 = none := by
            rcases hpd _ rfl with ⟨h6, -⟩ | ⟨-, h7⟩
            · exact absurd h6 hb6
            · exact h7
          refine rest (st.1, some ⟨.fin x0, .pinf, .exc, .exc⟩) ?_ ?_ ?_
          · simp only [ltStep, hcross, bind, Except.bind, pure, Except.pure, if_pos hin, if_neg (not_lt.2 hneg.le), if_pos hneg]
          · intro u v hu hv _
            rw [hu, XQ.fin_lt] at hin2
            simp only [Fn.eval, Option.some.injEq] at hv
            exact Or.inl ⟨by nlinarith, _, _, rfl, by simpa using hin2, fun h => by cases h⟩
          · intro x
            rw [hcur]
            simp only [Option.some.injEq, exists_eq_left', RIMem, XQ.fin_lt, XQ.fin_lt_pinf, reduceCtorEq, and_false, or_false,
              false_and, exists_false, false_or, Fn.eval, and_true]
            constructor
            · rintro (h | ⟨h, h'⟩)
              · exact Or.inl h
              · exact Or.inr ⟨(hlt.trans h').le, h, by nlinarith⟩
            · rintro (h | ⟨h, h', h''⟩)
              · exact Or.inl h
              · exact Or.inr ⟨h', by nlinarith⟩
        · -- upwards
          have hb6 : m * b + c < y := by nlinarith
          obtain ⟨a, l, h7, h8, h9⟩ : ∃ a l, st.2 = some ⟨a, .pinf, l, .exc⟩ ∧ a < .fin b ∧ (l = .inc → a = .ninf) := by
            rcases hpd _ rfl with ⟨-, h⟩ | ⟨h6, -⟩
            · exact h
            · exact absurd hb6 h6
          refine rest (close st ⟨a, .pinf, l, .exc⟩ (.fin x0)) ?_ ?_ ?_
          · simp only [ltStep, hcross, bind, Except.bind, pure, Except.pure, if_pos hin, if_pos hpos, h7]
          · intro u v hu hv _
            rw [hu, XQ.fin_lt] at hin2
            simp only [Fn.eval, Option.some.injEq] at hv
            exact Or.inr ⟨by nlinarith, rfl⟩
          · intro x
            have hal : ∀ x : ℚ, (a < XQ.fin x ∨ a = XQ.fin x ∧ l = .inc) ↔ a < XQ.fin x := by
              intro x
              constructor
              · rintro (h | ⟨h, hl⟩)
                · exact h
                · rw [h9 hl] at h
                  cases h
              · exact Or.inl
            simp only [close, In_append, In_single, RIMem, h7, hal, Option.some.injEq, exists_eq_left', XQ.fin_lt, XQ.fin_lt_pinf,
              reduceCtorEq, and_false, or_false, false_and, exists_false, Fn.eval, and_true]
            constructor
            · rintro (h | ⟨h, h'⟩)
              · exact Or.inl h
              · by_cases hbx : b ≤ x
                · exact Or.inr (Or.inr ⟨hbx, lt_trans (by simpa using h') hin2, by nlinarith⟩)
                · exact Or.inr (Or.inl ⟨not_le.1 hbx, h⟩)
            · rintro (h | ⟨h, h'⟩ | ⟨h, h', h''⟩)
              · exact Or.inl h
              · exact Or.inr ⟨h', h.trans hlt⟩
              · exact Or.inr ⟨lt_of_lt_of_le h8 (by simpa using h), by nlinarith⟩
      · refine same ?_ ?_
        · simp only [ltStep, hcross, bind, Except.bind, pure, Except.pure, if_neg hin]
        · intro x w v hbx hux hw hv
          simp only [Fn.eval, Option.some.injEq] at hw hv
          have hcase : x0 < b ∨ x < x0 := by
            by_contra hcon
            push Not at hcon
            rcases hux with hux | ⟨hux, hwy⟩
            · exact hin ((hmem x0).2 ⟨hcon.1, lt_of_le_of_lt (by simpa using hcon.2) hux⟩)
            · have hne : x0 ≠ x := by
                rintro h
                apply hwy
                rw [← hw, ← h]
                exact hroot
              exact hin ((hmem x0).2 ⟨hcon.1, by rw [← hux]; simpa using lt_of_le_of_ne hcon.2 hne⟩)
          rw [← hw, ← hv]
          rcases lt_or_gt_of_ne hm with hneg | hpos <;> rcases hcase with h | h <;> constructor <;> intro _ <;> nlinarith

/-- The loop of `gt` from `b` on. -/
theorem gt_loop {y : ℚ} : ∀ (p : LF) (b : ℚ) (st : LSt), From (.fin b) p → Joined p → Lines p → Misses p y →
    (∀ s ∈ p.head?, ∀ v, s.2.eval b = some v → Pending (y < v) b st.2) → ∃ r, p.foldlM (gtStep y) st = .ok r ∧
      ∀ x, In (finish r) x ↔ In st.1 x ∨ (x < b ∧ ∃ c, st.2 = some c ∧ RIMem c (.fin x)) ∨
        (b ≤ x ∧ ∃ v, Has p x v ∧ y < v) := by
  intro p
  induction p with
  | nil => intro b st h; cases h
  | cons s p ih =>
    intro b st hf hj hl hy hp
    obtain ⟨i, f⟩ := s
    have hf' := hf
    obtain ⟨h1, h2, h3, h4, h5⟩ := hf
    rw [if_neg (by simp)] at h3
    simp only at h1 h2 h3 h4 h5
    have hmem := mem_piece h1 h3 h4
    -- what the rest of the loop does, if the state is as it should be
    have rest : ∀ st' : LSt, gtStep y st (i, f) = .ok st' →
        (∀ u v, i.upper = .fin u → f.eval u = some v → v ≠ y → Pending (y < v) u st'.2) →
        (∀ x, (In st'.1 x ∨ (XQ.fin x < i.upper ∧ ∃ c, st'.2 = some c ∧ RIMem c (.fin x))) ↔
          (In st.1 x ∨ (x < b ∧ ∃ c, st.2 = some c ∧ RIMem c (.fin x)) ∨
            (b ≤ x ∧ XQ.fin x < i.upper ∧ ∃ v, f.eval x = some v ∧ y < v))) →
        ∃ r, ((i, f) :: p).foldlM (gtStep y) st = .ok r ∧
          ∀ x, In (finish r) x ↔ In st.1 x ∨ (x < b ∧ ∃ c, st.2 = some c ∧ RIMem c (.fin x)) ∨
            (b ≤ x ∧ ∃ v, Has ((i, f) :: p) x v ∧ y < v) := by
      intro st' hst' hpend hin
      have hrw : ∀ x, (b ≤ x ∧ ∃ v, Has ((i, f) :: p) x v ∧ y < v) ↔
          ((b ≤ x ∧ XQ.fin x < i.upper ∧ ∃ v, f.eval x = some v ∧ y < v) ∨
            (i.upper ≤ .fin x ∧ ∃ v, Has p x v ∧ y < v)) := by
        intro x
        constructor
        · rintro ⟨hbx, v, hv, hvy⟩
          rcases (has_cons hf' x v).1 hv with ⟨ha, hb, hc⟩ | ⟨ha, hb⟩
          · exact Or.inl ⟨ha, hb, v, hc, hvy⟩
          · exact Or.inr ⟨ha, v, hb, hvy⟩
        · rintro (⟨ha, hb, v, hc, hvy⟩ | ⟨ha, v, hb, hvy⟩)
          · exact ⟨ha, v, (has_cons hf' x v).2 (Or.inl ⟨ha, hb, hc⟩), hvy⟩
          · have : b < x := by
              have := lt_of_lt_of_le h2 ha
              simpa using this
            exact ⟨this.le, v, (has_cons hf' x v).2 (Or.inr ⟨ha, hb⟩), hvy⟩
      have hcons : ((i, f) :: p).foldlM (gtStep y) st = p.foldlM (gtStep y) st' := by
        rw [List.foldlM_cons, hst']
        rfl
      rw [hcons]
      cases hu : i.upper with
      | ninf => rw [hu] at h2; exact absurd h2 (by simp [lt_iff_not_ge])
      | pinf =>
        rw [hu] at h5
        have hpn : p = [] := by
          cases p with
          | nil => rfl
          | cons t q =>
            obtain ⟨-, h7, -⟩ := h5
            exact absurd h7 (by simp [lt_iff_not_ge])
        subst hpn
        refine ⟨st', rfl, fun x => ?_⟩
        rw [hrw x]
        have h8 := hin x
        rw [hu] at h8 ⊢
        have h9 : In (finish st') x ↔ In st'.1 x ∨ ∃ c, st'.2 = some c ∧ RIMem c (.fin x) := by
          unfold finish
          cases h10 : st'.2 with
          | none => simp
          | some c => simp only [In_append, In_single, Option.some.injEq, exists_eq_left']
        rw [h9]
        simp only [XQ.fin_lt_pinf, true_and] at h8 ⊢
        rw [h8]
        have : ¬ (XQ.pinf ≤ XQ.fin x) := by
          rw [not_le]
          exact XQ.fin_lt_pinf x
        simp [this]
      | fin u =>
        rw [hu] at h5
        obtain ⟨t, q, hpq, hv, hne⟩ := next_value hf' hj hy hu
        obtain ⟨r, hr, hx⟩ := ih u st' h5 hj.2 (fun s hs => hl s (List.mem_cons_of_mem _ hs))
          (fun s hs => hy s (List.mem_cons_of_mem _ hs)) (by
            intro s hs v hsv
            rw [hpq] at hs
            simp only [List.head?_cons, Option.mem_def, Option.some.injEq] at hs
            subst hs
            simp only at hv hne
            rw [hv] at hsv
            exact hpend u v hu hsv (by rintro rfl; exact hne hsv))
        refine ⟨r, hr, fun x => ?_⟩
        rw [hx x, hrw x]
        have h8 := hin x
        rw [hu] at h8 ⊢
        simp only [XQ.fin_lt, XQ.fin_le] at h8 ⊢
        constructor
        · rintro (ha | ha | ha)
          · rcases h8.1 (Or.inl ha) with h | h | h
            · exact Or.inl h
            · exact Or.inr (Or.inl h)
            · exact Or.inr (Or.inr (Or.inl h))
          · rcases h8.1 (Or.inr ha) with h | h | h
            · exact Or.inl h
            · exact Or.inr (Or.inl h)
            · exact Or.inr (Or.inr (Or.inl h))
          · exact Or.inr (Or.inr (Or.inr ha))
        · rintro (h | h | h | h)
          · rcases h8.2 (Or.inl h) with h | h
            · exact Or.inl h
            · exact Or.inr (Or.inl h)
          · rcases h8.2 (Or.inr (Or.inl h)) with h | h
            · exact Or.inl h
            · exact Or.inr (Or.inl h)
          · rcases h8.2 (Or.inr (Or.inr h)) with h | h
            · exact Or.inl h
            · exact Or.inr (Or.inl h)
          · exact Or.inr (Or.inr h)
    have hpd := hp (i, f) (by simp)
    have hby := hy (i, f) (by simp) b h1
    -- the state does not change, and neither does the side on which the function is
    have same : gtStep y st (i, f) = .ok st → (∀ x w v, b ≤ x → (XQ.fin x < i.upper ∨ XQ.fin x = i.upper ∧ w ≠ y) →
        f.eval x = some w → f.eval b = some v → (y < w ↔ y < v)) →
        ∃ r, ((i, f) :: p).foldlM (gtStep y) st = .ok r ∧
          ∀ x, In (finish r) x ↔ In st.1 x ∨ (x < b ∧ ∃ c, st.2 = some c ∧ RIMem c (.fin x)) ∨
            (b ≤ x ∧ ∃ v, Has ((i, f) :: p) x v ∧ y < v) := by
      intro hst hside
      obtain ⟨vb, hvb⟩ : ∃ vb, f.eval b = some vb := by
        rcases hl (i, f) (by simp) with ⟨v, hv⟩ | ⟨m, c, -, hv⟩ <;> simp only at hv <;> subst hv <;> exact ⟨_, rfl⟩
      have hpb := hpd vb hvb
      refine rest st hst ?_ ?_
      · intro u v hu hv hvy
        have hbu : b < u := by rw [hu] at h2; simpa using h2
        have hiff := hside u v vb hbu.le (Or.inr ⟨hu.symm, hvy⟩) hv hvb
        rcases hpb with ⟨h6, a, l, h7, h8, h9⟩ | ⟨h6, h7⟩
        · exact Or.inl ⟨hiff.2 h6, a, l, h7, h8.trans (by simpa using hbu), h9⟩
        · exact Or.inr ⟨fun h => h6 (hiff.1 h), h7⟩
      · intro x
        rcases hpb with ⟨h6, a, l, h7, h8, h9⟩ | ⟨h6, h7⟩
        · have hc : ∀ x, (∃ c, st.2 = some c ∧ RIMem c (.fin x)) ↔ a < .fin x := by
            intro x
            rw [h7]
            simp only [Option.some.injEq, exists_eq_left', RIMem, XQ.fin_lt_pinf, true_or, and_true]
            constructor
            · rintro (h | ⟨h, hl⟩)
              · exact h
              · rw [h9 hl] at h
                cases h
            · exact Or.inl
          rw [hc x]
          by_cases hbx : b ≤ x
          · have hax : a < .fin x := lt_of_lt_of_le h8 (by simpa using hbx)
            constructor
            · rintro (h | ⟨h, -⟩)
              · exact Or.inl h
              · refine Or.inr (Or.inr ⟨hbx, h, ?_⟩)
                obtain ⟨w, hw⟩ : ∃ w, f.eval x = some w := by
                  rcases hl (i, f) (by simp) with ⟨v, hv⟩ | ⟨m, c, -, hv⟩ <;> simp only at hv <;> subst hv <;> exact ⟨_, rfl⟩
                exact ⟨w, hw, (hside x w vb hbx (Or.inl h) hw hvb).2 h6⟩
            · rintro (h | ⟨h, -⟩ | ⟨-, h, -⟩)
              · exact Or.inl h
              · exact absurd hbx (not_le.2 h)
              · exact Or.inr ⟨h, hax⟩
          · have hlt : XQ.fin x < i.upper := lt_trans (by simpa using hbx) h2
            simp only [hlt, true_and, hbx, false_and, or_false, lt_of_not_ge hbx]
        · have hc : ∀ x, ¬ (∃ c, st.2 = some c ∧ RIMem c (.fin x)) := by
            rintro x ⟨c, h, -⟩
            rw [h7] at h
            cases h
          simp only [hc x, and_false, or_false, false_or]
          constructor
          · exact Or.inl
          · rintro (h | ⟨hbx, hlt, w, hw, hwy⟩)
            · exact h
            · exact absurd ((hside x w vb hbx (Or.inl hlt) hw hvb).1 hwy) h6
    rcases hl (i, f) (by simp) with ⟨v, hv⟩ | ⟨m, c, hm, hv⟩
    · simp only at hv
      subst hv
      have hvy : v ≠ y := fun h => hby (by rw [h]; rfl)
      refine same ?_ ?_
      · have hpb := hpd v rfl
        simp only [gtStep, Fn.crossing, if_neg hvy, bind, Except.bind, pure, Except.pure, Fn.valueAt, Fn.below, Fn.above,
          XQ.fin_lt]
        rcases hpb with ⟨h6, a, l, h7, h8, h9⟩ | ⟨h6, h7⟩
        · rw [h7]
          simp [not_lt.2 h6.le]
        · rw [h7]
          simp only [decide_eq_true_eq, if_neg h6]
      · intro x w v' _ _ hw hv'
        simp only [Fn.eval, Option.some.injEq] at hw hv'
        rw [← hw, ← hv']
    · simp only at hv
      subst hv
      simp only [Fn.eval, ne_eq, Option.some.injEq] at hby
      set x0 := (c - y) / (-m) with hx0
      have hroot : m * x0 + c = y := by
        rw [hx0]
        field_simp
        ring
      have hcross : (Fn.lin m c).crossing y = .ok (.one x0) := by
        simp only [Fn.crossing, if_neg hm]
        rfl
      have hx0b : x0 ≠ b := fun h => hby (by rw [← h]; exact hroot)
      by_cases hin : RIMem i (.fin x0)
      · obtain ⟨hin1, hin2⟩ := (hmem x0).1 hin
        have hlt : b < x0 := lt_of_le_of_ne hin1 (Ne.symm hx0b)
        rcases lt_or_gt_of_ne (Ne.symm hm) with hneg | hpos
        · -- upwards
          have hb6 : ¬ (y < m * b + c) := by nlinarith
          have hcur : st.2 = none := by
            rcases hpd _ rfl with ⟨h6, -⟩ | ⟨-, h7⟩
            · exact absurd h6 hb6
            · exact h7
          refine rest (st.1, some ⟨.fin x0, .pinf, .exc, .exc⟩) ?_ ?_ ?_
          · simp only [gtStep, hcross, bind, Except.bind, pure, Except.pure, if_pos hin, if_neg (not_lt.2 hneg.le), if_pos hneg]
          · intro u v hu hv _
            rw [hu, XQ.fin_lt] at hin2
            simp only [Fn.eval, Option.some.injEq] at hv
            exact Or.inl ⟨by nlinarith, _, _, rfl, by simpa using hin2, fun h => by cases h⟩
          · intro x
            rw [hcur]
            simp only [Option.some.injEq, exists_eq_left', RIMem, XQ.fin_lt, XQ.fin_lt_pinf, reduceCtorEq, and_false, or_false,
              false_and, exists_false, false_or, Fn.eval, and_true]
            constructor
            · rintro (h | ⟨h, h'⟩)
              · exact Or.inl h
              · exact Or.inr ⟨(hlt.trans h').le, h, by nlinarith⟩
            · rintro (h | ⟨h, h', h''⟩)
              · exact Or.inl h
              · exact Or.inr ⟨h', by nlinarith⟩
        · -- downwards
          have hb6 : y < m * b + c := by nlinarith
          obtain ⟨a, l, h7, h8, h9⟩ : ∃ a l, st.2 = some ⟨a, .pinf, l, .exc⟩ ∧ a < .fin b ∧ (l = .inc → a = .ninf) := by
            rcases hpd _ rfl with ⟨-, h⟩ | ⟨h6, -⟩
            · exact h
            · exact absurd hb6 h6
          refine rest (close st ⟨a, .pinf, l, .exc⟩ (.fin x0)) ?_ ?_ ?_
          · simp only [gtStep, hcross, bind, Except.bind, pure, Except.pure, if_pos hin, if_pos hpos, h7]
          · intro u v hu hv _
            rw [hu, XQ.fin_lt] at hin2
            simp only [Fn.eval, Option.some.injEq] at hv
            exact Or.inr ⟨by nlinarith, rfl⟩
          · intro x
            have hal : ∀ x : ℚ, (a < XQ.fin x ∨ a = XQ.fin x ∧ l = .inc) ↔ a < XQ.fin x := by
              intro x
              constructor
              · rintro (h | ⟨h, hl⟩)
                · exact h
                · rw [h9 hl] at h
                  cases h
              · exact Or.inl
            simp only [close, In_append, In_single, RIMem, h7, hal, Option.some.injEq, exists_eq_left', XQ.fin_lt, XQ.fin_lt_pinf,
              reduceCtorEq, and_false, or_false, false_and, exists_false, Fn.eval, and_true]
            constructor
            · rintro (h | ⟨h, h'⟩)
              · exact Or.inl h
              · by_cases hbx : b ≤ x
                · exact Or.inr (Or.inr ⟨hbx, lt_trans (by simpa using h') hin2, by nlinarith⟩)
                · exact Or.inr (Or.inl ⟨not_le.1 hbx, h⟩)
            · rintro (h | ⟨h, h'⟩ | ⟨h, h', h''⟩)
              · exact Or.inl h
              · exact Or.inr ⟨h', h.trans hlt⟩
              · exact Or.inr ⟨lt_of_lt_of_le h8 (by simpa using h), by nlinarith⟩
      · refine same ?_ ?_
        · simp only [gtStep, hcross, bind, Except.bind, pure, Except.pure, if_neg hin]
        · intro x w v hbx hux hw hv
          simp only [Fn.eval, Option.some.injEq] at hw hv
          have hcase : x0 < b ∨ x < x0 := by
            by_contra hcon
            push Not at hcon
            rcases hux with hux | ⟨hux, hwy⟩
            · exact hin ((hmem x0).2 ⟨hcon.1, lt_of_le_of_lt (by simpa using hcon.2) hux⟩)
            · have hne : x0 ≠ x := by
                rintro h
                apply hwy
                rw [← hw, ← h]
                exact hroot
              exact hin ((hmem x0).2 ⟨hcon.1, by rw [← hux]; simpa using lt_of_le_of_ne hcon.2 hne⟩)
          rw [← hw, ← hv]
          rcases lt_or_gt_of_ne hm with hneg | hpos <;> rcases hcase with h | h <;> constructor <;> intro _ <;> nlinarith

/-- The value of the first piece without lower bound, or the rest. -/
theorem has_first {s : RI × Fn} {p : LF} (h : From .ninf (s :: p)) (x v : ℚ) :
    Has (s :: p) x v ↔ (XQ.fin x < s.1.upper ∧ s.2.eval x = some v) ∨ (s.1.upper ≤ .fin x ∧ Has p x v) := by
  obtain ⟨h1, h2, h3, h4, h5⟩ := h
  have hm : RIMem s.1 (.fin x) ↔ XQ.fin x < s.1.upper := by
    unfold RIMem
    rw [h1, h4]
    simp
  constructor
  · rintro ⟨t, ht, hx, hv⟩
    rcases List.mem_cons.1 ht with rfl | ht
    · exact Or.inl ⟨hm.1 hx, hv⟩
    · exact Or.inr ⟨ge_of_mem h5 ht hx, t, ht, hx, hv⟩
  · rintro (⟨hx, hv⟩ | ⟨-, t, ht, hx, hv⟩)
    · exact ⟨s, List.mem_cons_self, hm.2 hx, hv⟩
    · exact ⟨t, List.mem_cons_of_mem _ ht, hx, hv⟩

/-- Nothing follows a piece without end. -/
theorem from_pinf {p : LF} (h : From .pinf p) : p = [] := by
  cases p with
  | nil => rfl
  | cons t q =>
    obtain ⟨-, h7, -⟩ := h
    exact absurd h7 (by simp [lt_iff_not_ge])

/-- The loop of `gt` over constants, from `b` on. -/
theorem gt_steps {y : ℚ} : ∀ (p : LF) (b : XQ) (st : LSt), b ≠ .ninf → From b p → (∀ s ∈ p, ∃ v, s.2 = .const v) →
    (∀ c, st.2 = some c → ∃ a, c = ⟨a, .pinf, .inc, .exc⟩ ∧ a < b) → ∃ r, p.foldlM (gtStep y) st = .ok r ∧
      ∀ x, In (finish r) x ↔ In st.1 x ∨ (XQ.fin x < b ∧ ∃ c, st.2 = some c ∧ RIMem c (.fin x)) ∨
        (b ≤ .fin x ∧ ∃ v, Has p x v ∧ y < v) := by
  intro p
  induction p with
  | nil =>
    intro b st _ h _ _
    have hb : b = .pinf := h
    subst hb
    refine ⟨st, rfl, fun x => ?_⟩
    have : ¬ (XQ.pinf ≤ XQ.fin x) := by
      rw [not_le]
      exact XQ.fin_lt_pinf x
    unfold finish
    cases st.2 with
    | none => simp [this]
    | some c => simp only [In_append, In_single, Option.some.injEq, exists_eq_left', XQ.fin_lt_pinf, true_and, this, false_and,
        or_false]
  | cons s p ih =>
    intro b st hb hf hl hp
    obtain ⟨i, f⟩ := s
    have hf' := hf
    obtain ⟨h1, h2, h3, h4, h5⟩ := hf
    simp only at h1 h2 h3 h4 h5
    obtain ⟨b, rfl⟩ : ∃ q, b = .fin q := by
      cases b with
      | ninf => exact absurd rfl hb
      | fin q => exact ⟨q, rfl⟩
      | pinf => exact absurd h2 (by simp [lt_iff_not_ge])
    obtain ⟨v, hv⟩ := hl (i, f) (by simp)
    simp only at hv
    subst hv
    have hun : i.upper ≠ .ninf := by
      intro h
      rw [h] at h2
      exact absurd h2 (by simp [lt_iff_not_ge])
    have hrw : ∀ x, (b ≤ x ∧ ∃ w, Has ((i, .const v) :: p) x w ∧ y < w) ↔
        ((b ≤ x ∧ XQ.fin x < i.upper ∧ y < v) ∨ (i.upper ≤ .fin x ∧ ∃ w, Has p x w ∧ y < w)) := by
      intro x
      constructor
      · rintro ⟨hbx, w, hw, hwy⟩
        rcases (has_cons hf' x w).1 hw with ⟨ha, hb, hc⟩ | ⟨ha, hb⟩
        · simp only [Fn.eval, Option.some.injEq] at hc
          exact Or.inl ⟨ha, hb, by rw [hc]; exact hwy⟩
        · exact Or.inr ⟨ha, w, hb, hwy⟩
      · rintro (⟨ha, hb, hvy⟩ | ⟨ha, w, hb, hwy⟩)
        · exact ⟨ha, v, (has_cons hf' x v).2 (Or.inl ⟨ha, hb, rfl⟩), hvy⟩
        · have : b < x := by
            have := lt_of_lt_of_le h2 ha
            simpa using this
          exact ⟨this.le, w, (has_cons hf' x w).2 (Or.inr ⟨ha, hb⟩), hwy⟩
    have rest : ∀ st' : LSt, gtStep y st (i, .const v) = .ok st' →
        (∀ c, st'.2 = some c → ∃ a, c = ⟨a, .pinf, .inc, .exc⟩ ∧ a < i.upper) →
        (∀ x, (In st'.1 x ∨ (XQ.fin x < i.upper ∧ ∃ c, st'.2 = some c ∧ RIMem c (.fin x))) ↔
          (In st.1 x ∨ (x < b ∧ ∃ c, st.2 = some c ∧ RIMem c (.fin x)) ∨ (b ≤ x ∧ XQ.fin x < i.upper ∧ y < v))) →
        ∃ r, ((i, .const v) :: p).foldlM (gtStep y) st = .ok r ∧
          ∀ x, In (finish r) x ↔ In st.1 x ∨ (XQ.fin x < .fin b ∧ ∃ c, st.2 = some c ∧ RIMem c (.fin x)) ∨
            (XQ.fin b ≤ .fin x ∧ ∃ v', Has ((i, .const v) :: p) x v' ∧ y < v') := by
      intro st' hst' hpend hin
      have hcons : ((i, Fn.const v) :: p).foldlM (gtStep y) st = p.foldlM (gtStep y) st' := by
        rw [List.foldlM_cons, hst']
        rfl
      obtain ⟨r, hr, hx⟩ := ih i.upper st' hun h5 (fun s hs => hl s (List.mem_cons_of_mem _ hs)) hpend
      refine ⟨r, by rw [hcons]; exact hr, fun x => ?_⟩
      simp only [XQ.fin_lt, XQ.fin_le]
      rw [hx x, hrw x, ← or_assoc, hin x]
      constructor
      · rintro ((h | h | h) | h)
        · exact Or.inl h
        · exact Or.inr (Or.inl h)
        · exact Or.inr (Or.inr (Or.inl h))
        · exact Or.inr (Or.inr (Or.inr h))
      · rintro (h | h | h | h)
        · exact Or.inl (Or.inl h)
        · exact Or.inl (Or.inr (Or.inl h))
        · exact Or.inl (Or.inr (Or.inr h))
        · exact Or.inr h
    have hclose : ∀ a, st.2 = some ⟨a, .pinf, .inc, .exc⟩ → a < .fin b → ¬ y < v → ∀ x,
        (In (close st ⟨a, .pinf, .inc, .exc⟩ i.lower).1 x ∨
          (XQ.fin x < i.upper ∧ ∃ c, (close st ⟨a, .pinf, .inc, .exc⟩ i.lower).2 = some c ∧ RIMem c (.fin x))) ↔
        (In st.1 x ∨ (x < b ∧ ∃ c, st.2 = some c ∧ RIMem c (.fin x)) ∨ (b ≤ x ∧ XQ.fin x < i.upper ∧ y < v)) := by
      intro a ha hab hvy x
      simp only [close, In_append, In_single, RIMem, ha, h1, Option.some.injEq, exists_eq_left', XQ.fin_lt, XQ.fin_lt_pinf,
        reduceCtorEq, and_false, or_false, false_and, exists_false, and_true, hvy]
      tauto
    have hcur : st.2 = none ∨ ∃ c, st.2 = some c := by cases st.2 <;> simp
    by_cases hvy : v = y
    · subst hvy
      rcases hcur with hc | ⟨c, hc⟩
      · refine rest st ?_ (by rw [hc]; simp) ?_
        · simp only [gtStep, Fn.crossing, if_true, bind, Except.bind, pure, Except.pure, hc]
        · intro x
          simp [hc]
      · obtain ⟨a, rfl, hab⟩ := hp c hc
        refine rest (close st ⟨a, .pinf, .inc, .exc⟩ i.lower) ?_ (by simp [close]) (hclose a hc hab (lt_irrefl _))
        simp only [gtStep, Fn.crossing, if_true, bind, Except.bind, pure, Except.pure, hc, Fn.valueAt]
    · rcases hcur with hc | ⟨c, hc⟩
      · by_cases hgt : y < v
        · refine rest (st.1, some ⟨i.lower, .pinf, .inc, .exc⟩) ?_ ?_ ?_
          · simp only [gtStep, Fn.crossing, if_neg hvy, bind, Except.bind, pure, Except.pure, hc, Fn.valueAt, Fn.above, XQ.fin_lt,
              hgt, decide_true, if_true]
          · exact fun c hc' => ⟨i.lower, (Option.some.inj hc').symm, by rw [h1]; exact h2⟩
          · intro x
            simp only [hc, Option.some.injEq, exists_eq_left', RIMem, h1, XQ.fin_lt, XQ.fin.injEq, XQ.fin_lt_pinf, reduceCtorEq,
              and_false, or_false, false_and, exists_false, false_or, and_true, hgt, le_iff_lt_or_eq]
            tauto
        · refine rest st ?_ (by rw [hc]; simp) ?_
          · simp only [gtStep, Fn.crossing, if_neg hvy, bind, Except.bind, pure, Except.pure, hc, Fn.valueAt, Fn.above, XQ.fin_lt,
              hgt, decide_false, Bool.false_eq_true, if_false]
          · intro x
            simp [hc, hgt]
      · obtain ⟨a, rfl, hab⟩ := hp c hc
        by_cases hgt : y < v
        · refine rest st ?_ ?_ ?_
          · simp only [gtStep, Fn.crossing, if_neg hvy, bind, Except.bind, pure, Except.pure, hc, Fn.valueAt, Fn.below, XQ.fin_lt,
              not_lt.2 hgt.le, decide_false, Bool.false_eq_true, if_false]
          · rw [hc]
            rintro c ⟨⟩
            exact ⟨a, rfl, hab.trans h2⟩
          · intro x
            simp only [hc, Option.some.injEq, exists_eq_left', RIMem, XQ.fin_lt_pinf, reduceCtorEq,
              and_false, or_false, and_true, hgt]
            have e1 : x < b → XQ.fin x < i.upper := fun h => lt_trans (by simpa using h) h2
            have e2 : b ≤ x → a < XQ.fin x := fun h => lt_of_lt_of_le hab (by simpa using h)
            have e3 : x < b ∨ b ≤ x := lt_or_ge x b
            tauto
        · refine rest (close st ⟨a, .pinf, .inc, .exc⟩ i.lower) ?_ (by simp [close]) (hclose a hc hab hgt)
          have hlt : v < y := lt_of_le_of_ne (not_lt.1 hgt) hvy
          simp only [gtStep, Fn.crossing, if_neg hvy, bind, Except.bind, pure, Except.pure, hc, Fn.valueAt, Fn.below, XQ.fin_lt,
            hlt, decide_true, if_true]

/-- The value of a constant or line at a bound. -/
theorem below_iff {f : Fn} (hf : (∃ v, f = .const v) ∨ ∃ m c, m ≠ 0 ∧ f = .lin m c) (x y : ℚ) :
    (Fn.below (f.valueAt (.fin x)) y = true ↔ ∃ v, f.eval x = some v ∧ v < y) ∧
    (Fn.above (f.valueAt (.fin x)) y = true ↔ ∃ v, f.eval x = some v ∧ y < v) := by
  rcases hf with ⟨v, rfl⟩ | ⟨m, c, -, rfl⟩ <;> simp [Fn.valueAt, Fn.below, Fn.above, Fn.eval]

/-- What one round of `eq` adds. -/
theorem eqStep_spec {y : ℚ} {prev : Option Fn} {s : RI × Fn}
    (hprev : ∀ g ∈ prev, (∃ v, g = .const v) ∨ ∃ m c, m ≠ 0 ∧ g = .lin m c)
    (hs : (∃ v, v ≠ y ∧ s.2 = .const v) ∨ ∃ m c, m ≠ 0 ∧ s.2 = .lin m c) :
    ∃ r, eqStep y prev s = .ok r ∧ ∀ x, In r x ↔
      (RIMem s.1 (.fin x) ∧ s.2.eval x = some y) ∨ ∃ g ∈ prev, JumpAt g s y x := by
  have hs' : (∃ v, s.2 = .const v) ∨ ∃ m c, m ≠ 0 ∧ s.2 = .lin m c := by
    rcases hs with ⟨v, -, h⟩ | h
    · exact Or.inl ⟨v, h⟩
    · exact Or.inr h
  have hj : (∀ z, RIMem s.1 (.fin z) → s.2.eval z ≠ some y) → ∀ x, In (jumpOf y prev s) x ↔ ∃ g ∈ prev, JumpAt g s y x := by
    intro hno x
    cases prev with
    | none => simp [jumpOf, In]
    | some g =>
      simp only [jumpOf, Option.mem_def, Option.some.injEq, exists_eq_left', JumpAt]
      have hg := hprev g rfl
      by_cases hlow : s.1.lower = .fin x
      · rw [hlow]
        obtain ⟨e1, e2⟩ := below_iff hg x y
        obtain ⟨e3, e4⟩ := below_iff hs' x y
        split
        · rename_i h
          simp only [Bool.or_eq_true, Bool.and_eq_true, e1, e2, e3, e4] at h
          constructor
          · intro _
            refine ⟨rfl, ?_, hno⟩
            rcases h with ⟨⟨u, hu, hu'⟩, v, hv, hv'⟩ | ⟨⟨u, hu, hu'⟩, v, hv, hv'⟩
            · exact ⟨u, v, hu, hv, Or.inl ⟨hu', hv'⟩⟩
            · exact ⟨u, v, hu, hv, Or.inr ⟨hv', hu'⟩⟩
          · intro _
            rw [In_single]
            simp [RIMem]
        · rename_i h
          simp only [Bool.or_eq_true, Bool.and_eq_true, e1, e2, e3, e4] at h
          constructor
          · rintro ⟨i, hi, -⟩
            cases hi
          · rintro ⟨-, ⟨u, v, hu, hv, h' | h'⟩, -⟩
            · exact absurd (Or.inl ⟨⟨u, hu, h'.1⟩, v, hv, h'.2⟩) h
            · exact absurd (Or.inr ⟨⟨u, hu, h'.2⟩, v, hv, h'.1⟩) h
      · constructor
        · rintro ⟨i, hi, hx⟩
          split at hi
          · rw [List.mem_singleton] at hi
            subst hi
            exfalso
            rcases hx with ⟨h1 | h1, h2 | h2⟩
            · exact absurd (h1.trans h2) (lt_irrefl _)
            · exact hlow h2.1.symm
            · exact hlow h1.1
            · exact hlow h1.1
          · cases hi
        · rintro ⟨h, -⟩
          exact absurd h hlow
  rcases hs with ⟨v, hv, hc⟩ | ⟨m, c, hm, hc⟩
  · have hcr : s.2.crossing y = .ok .no := by
      rw [hc]
      simp [Fn.crossing, hv]
    refine ⟨jumpOf y prev s, ?_, fun x => ?_⟩
    · simp only [eqStep, hcr, bind, Except.bind, pure, Except.pure]
    · rw [hj (by
        intro z _
        rw [hc]
        simpa [Fn.eval] using hv) x, hc]
      simp [Fn.eval, hv]
  · have hcr : s.2.crossing y = .ok (.one ((c - y) / (-m))) := by
      rw [hc]
      simp [Fn.crossing, hm]
    have hroot : ∀ x, s.2.eval x = some y ↔ x = (c - y) / (-m) := by
      intro x
      rw [hc]
      simp only [Fn.eval, Option.some.injEq]
      rw [eq_div_iff (by simpa using hm)]
      constructor <;> intro h <;> linarith
    by_cases hin : RIMem s.1 (.fin ((c - y) / (-m)))
    · refine ⟨[⟨.fin ((c - y) / (-m)), .fin ((c - y) / (-m)), .inc, .inc⟩], ?_, fun x => ?_⟩
      · simp only [eqStep, hcr, bind, Except.bind, pure, Except.pure, if_pos hin]
      · rw [In_single, hroot x]
        constructor
        · intro hx
          have : x = (c - y) / (-m) := by
            rcases hx with ⟨h1 | h1, h2 | h2⟩
            · exact absurd (h1.trans h2) (lt_irrefl _)
            · simpa using h2.1
            · simpa using h1.1.symm
            · simpa using h2.1
          exact Or.inl ⟨by rw [this]; exact hin, this⟩
        · rintro (⟨-, rfl⟩ | ⟨g, -, hg⟩)
          · simp [RIMem]
          · exact absurd ((hroot _).2 rfl) (hg.2.2 _ hin)
    · refine ⟨jumpOf y prev s, ?_, fun x => ?_⟩
      · simp only [eqStep, hcr, bind, Except.bind, pure, Except.pure, if_neg hin]
      · rw [hj (by
          intro z hz h
          rw [hroot z] at h
          rw [h] at hz
          exact hin hz) x, hroot x]
        constructor
        · exact Or.inr
        · rintro (⟨h, rfl⟩ | h)
          · exact absurd h hin
          · exact h

/-- The loop of `eq`. -/
theorem eqLoop_spec {y : ℚ} : ∀ (p : LF) (prev : Option Fn),
    (∀ g ∈ prev, (∃ v, g = .const v) ∨ ∃ m c, m ≠ 0 ∧ g = .lin m c) →
    (∀ s ∈ p, (∃ v, v ≠ y ∧ s.2 = .const v) ∨ ∃ m c, m ≠ 0 ∧ s.2 = .lin m c) →
    ∃ r, eqLoop y prev p = .ok r ∧ ∀ x, In r x ↔ Has p x y ∨
      ∃ l t r', p = l ++ t :: r' ∧ ∃ g, (prev.toList ++ l.map Prod.snd).getLast? = some g ∧ JumpAt g t y x := by
  intro p
  induction p with
  | nil =>
    intro prev _ _
    refine ⟨[], rfl, fun x => ?_⟩
    constructor
    · rintro ⟨i, hi, -⟩
      cases hi
    · rintro (⟨s, hs, -⟩ | ⟨l, t, r, h, -⟩)
      · cases hs
      · simp at h
  | cons s p ih =>
    intro prev hprev hp
    have hs := hp s (by simp)
    obtain ⟨a, ha, ha'⟩ := eqStep_spec hprev hs
    obtain ⟨r, hr, hr'⟩ := ih (some s.2) (by
      intro g hg
      simp only [Option.mem_def, Option.some.injEq] at hg
      subst hg
      rcases hs with ⟨v, -, h⟩ | h
      · exact Or.inl ⟨v, h⟩
      · exact Or.inr h) (fun t ht => hp t (List.mem_cons_of_mem _ ht))
    refine ⟨a ++ r, ?_, fun x => ?_⟩
    · simp only [eqLoop, ha, hr, bind, Except.bind, pure, Except.pure]
    · rw [In_append, ha' x, hr' x]
      have e1 : Has (s :: p) x y ↔ (RIMem s.1 (.fin x) ∧ s.2.eval x = some y) ∨ Has p x y := by
        unfold Has
        simp only [List.mem_cons, or_and_right, exists_or, exists_eq_left]
      have e2 : (∃ l t r', s :: p = l ++ t :: r' ∧ ∃ g, (prev.toList ++ l.map Prod.snd).getLast? = some g ∧ JumpAt g t y x) ↔
          (∃ g ∈ prev, JumpAt g s y x) ∨ ∃ l t r', p = l ++ t :: r' ∧
            ∃ g, ((some s.2).toList ++ l.map Prod.snd).getLast? = some g ∧ JumpAt g t y x := by
        constructor
        · rintro ⟨l, t, r', hl, g, hg, hgj⟩
          cases l with
          | nil =>
            simp only [List.nil_append, List.cons.injEq] at hl
            obtain ⟨rfl, -⟩ := hl
            left
            refine ⟨g, ?_, hgj⟩
            cases prev with
            | none => simp at hg
            | some g' => simpa using hg
          | cons s' l =>
            simp only [List.cons_append, List.cons.injEq] at hl
            obtain ⟨rfl, rfl⟩ := hl
            right
            refine ⟨l, t, r', rfl, g, ?_, hgj⟩
            rw [← hg]
            simp only [List.map_cons, Option.toList_some, List.getLast?_append, List.getLast?_cons, List.singleton_append]
            simp
        · rintro (⟨g, hg, hgj⟩ | ⟨l, t, r', rfl, g, hg, hgj⟩)
          · refine ⟨[], s, p, rfl, g, ?_, hgj⟩
            simp only [Option.mem_def] at hg
            simp [hg]
          · refine ⟨s :: l, t, r', rfl, g, ?_, hgj⟩
            rw [← hg]
            simp only [List.map_cons, Option.toList_some, List.getLast?_append, List.getLast?_cons, List.singleton_append]
            simp
      rw [e1, e2]
      exact or_or_or_comm

end Verif.Fun.LF
