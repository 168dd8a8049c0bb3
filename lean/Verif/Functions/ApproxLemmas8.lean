import Verif.Functions.ApproxLemmas7
import Verif.Functions.ApproxLemmas6

/-!
# The mean absolute error of a replacement, part 2
-/

namespace Verif.Fun

open Iv Iv.FP MeasureTheory

namespace PF

variable {val : ℤ → ℚ} {rnd : ℚ → ℤ} {p : PF}

theorem real_of_piece (hv : StrictMono val) : ∀ {p : PF}, (∀ t ∈ p, Norm t.1) → p.Disj → ∀ {s : CS × Fn}, s ∈ p →
    ∀ {x : ℝ}, x ∈ span val s.1 → PF.real val p x = s.2.real x := by
  intro p
  induction p with
  | nil => intro _ _ s hs; simp at hs
  | cons t p ih =>
    intro hn hd s hs x hx
    rw [PF.real]
    by_cases ht : x ∈ span val t.1
    · rw [if_pos ht]
      rcases List.mem_cons.1 hs with rfl | hs
      · rfl
      · have := span_disjoint hv (hn t (by simp)) (hn s (by simp [hs])) ((List.pairwise_cons.1 hd).1 s hs)
        exact absurd (this ▸ (⟨ht, hx⟩ : x ∈ span val t.1 ∩ span val s.1)) (Set.notMem_empty x)
    · rw [if_neg ht]
      rcases List.mem_cons.1 hs with rfl | hs
      · exact absurd hx ht
      · exact ih (fun t ht => hn t (List.mem_cons_of_mem _ ht)) hd.tail hs hx

/-- The float below a number. -/
theorem cell {x : ℝ} {a : ℤ} (h : (val a : ℝ) ≤ x) : ∀ {k : ℕ}, x < (val (a + k) : ℝ) →
    ∃ n, a ≤ n ∧ n < a + k ∧ (val n : ℝ) ≤ x ∧ x < (val (n + 1) : ℝ) := by
  intro k
  induction k with
  | zero => intro hk; simp at hk; exact absurd h (not_le.2 hk)
  | succ k ih =>
    intro hk
    by_cases hx : x < (val (a + k) : ℝ)
    · obtain ⟨n, h1, h2, h3, h4⟩ := ih hx
      exact ⟨n, h1, by push_cast; omega, h3, h4⟩
    · refine ⟨a + k, by omega, by push_cast; omega, not_lt.1 hx, ?_⟩
      have : a + k + 1 = a + ((k + 1 : ℕ) : ℤ) := by push_cast; ring
      rw [this]; exact hk

/-- A number between a float of a piece and the next float is in the piece. -/
theorem cell_span (hv : StrictMono val) {i : CS} (hi : i.HalfOpen) {n : ℤ} (hn : i.Mem (fin n)) {x : ℝ}
    (h1 : (val n : ℝ) ≤ x) (h2 : x < (val (n + 1) : ℝ)) : x ∈ span val i := by
  rw [hi.mem_iff] at hn
  refine ⟨fun m hm => ?_, fun m hm => ?_, ?_, ?_⟩
  · rw [hm] at hn
    have := hn.1
    simp [FP.le_def, leb] at this
    refine le_trans ?_ h1
    exact_mod_cast hv.monotone this
  · rw [hm] at hn
    have := hn.2
    simp [FP.lt_def, leb] at this
    refine lt_of_lt_of_le h2 ?_
    exact_mod_cast hv.monotone (by omega)
  · intro h
    rw [h] at hn
    have := hn.1
    simp [FP.le_def, leb] at this
  · intro h
    rw [h] at hn
    have := hn.2
    simp [FP.lt_def, leb] at this

/-- A half-open interval all floats of which are between `a` and `c`. -/
theorem halfOpen_within {i : CS} (hi : i.HalfOpen) {a c : ℤ} (h : ∀ n : ℤ, i.Mem (fin n) → a ≤ n ∧ n < c) :
    ∃ x y, i.lower = fin x ∧ i.upper = fin y ∧ a ≤ x ∧ x < y ∧ y ≤ c := by
  obtain ⟨n, hn⟩ := ho_mem hi
  have hm := hi.mem_iff
  have hn' := (hm n).1 hn
  have hb := h n hn
  cases hl : i.lower with
  | pinf => rw [hl] at hn'; have := hn'.1; simp [FP.le_def, leb] at this
  | ninf =>
    exfalso
    have : i.Mem (fin (a - 1)) := by
      rw [hm, hl]
      exact ⟨ninf_le _, lt_of_le_of_lt (by simp [FP.le_def, leb]; omega) hn'.2⟩
    have := h _ this
    omega
  | fin x =>
    cases hu : i.upper with
    | ninf => rw [hu] at hn'; have := hn'.2; simp [FP.lt_def, leb] at this
    | pinf =>
      exfalso
      have : i.Mem (fin c) := by
        rw [hm, hu]
        exact ⟨le_trans hn'.1 (by simp [FP.le_def, leb]; omega), by simp [FP.lt_def, leb]⟩
      have := h _ this
      omega
    | fin y =>
      rw [hl, hu] at hn'
      simp [FP.le_def, FP.lt_def, leb] at hn'
      have h1 : i.Mem (fin x) := by rw [hm, hl, hu]; simp [FP.lt_def, leb]; omega
      have h2 : i.Mem (fin (y - 1)) := by rw [hm, hl, hu]; simp [FP.le_def, FP.lt_def, leb]; omega
      have := h _ h1
      have := h _ h2
      exact ⟨x, y, rfl, rfl, by omega, by omega, by omega⟩

theorem Fn.straight_or {f : Fn} (h : f.isStraight = true) : ∃ m c, f = .lin m c ∨ f = .const c := by
  cases f with
  | undef => cases h
  | quad a b c => cases h
  | const v => exact ⟨0, v, .inr rfl⟩
  | lin m c => exact ⟨m, c, .inl rfl⟩

/-- The mean error of a function over an interval.  For step functions it is the area between the function and the constant
over the width of the interval. -/
theorem meanError_spec (hv : StrictMono val) (hr : Nearest val rnd) (hp : p.Lines) {a c : ℤ} (hac : a + 1 < c)
    (hcov : ∀ n, a ≤ n → n < c → p.Covers n) {f : Fn} (hf : f.isStraight = true) :
    ∃ e : ℚ, meanError val rnd p (co a c) f = .ok (some (.fin e)) ∧ (p.Steps → ∀ v, f = .const v →
      ((e * (val (c - 1) - val a) : ℚ) : ℝ) = ∫ x in Set.Ico (val a : ℝ) (val c), |PF.real val p x - v|) := by
  have hco : (co a c).HalfOpen := co_halfOpen (by omega)
  obtain ⟨r, r1, r2⟩ := crop_value (val := val) (p := p) (fun s hs => (hp.halfOpen s hs).wf) hco.wf
  obtain ⟨rd, rp⟩ := crop_pieces (by omega) hp.halfOpen hp.disj r1
  have rs : ∀ s ∈ r, s.2.isStraight = true := by
    intro s hs
    obtain ⟨-, ⟨t, ht, e⟩, -⟩ := rp s hs
    rw [e]; exact hp.isStraight t ht
  obtain ⟨g, g1, g2, g3, g4⟩ := minus_one hf
  obtain ⟨e, e1, e2⟩ := addFn_straight g2 rs
  have eint : e.map (·.1) = r.map (·.1) := forall₂_fst e2 (fun s t h => h.1)
  have eh : ∀ s ∈ e, s.1.HalfOpen ∧ ∃ x y, s.1.lower = fin x ∧ s.1.upper = fin y ∧ a ≤ x ∧ x < y ∧ y ≤ c := by
    intro s hs
    obtain ⟨t, ht, k1, -⟩ := forall₂_mem_right e2 hs
    obtain ⟨l1, -, l2⟩ := rp t ht
    rw [k1]
    exact ⟨l1, halfOpen_within l1 l2⟩
  have ed : e.Disj := by rw [disj_map_fst, eint, ← disj_map_fst]; exact rd
  have rval : ∀ n, a ≤ n → n < c → ∃ s ∈ p, s.1.Mem (fin n) ∧ ∃ t ∈ e, t.1.Mem (fin n) ∧
      ∃ x y, s.2.eval (val n) = some x ∧ f.eval (val n) = some y ∧ t.2.eval (val n) = some (x - y) := by
    intro n h1 h2
    obtain ⟨s, hs, hm⟩ := hcov n h1 h2
    have hV : Value val r n (s.2.eval (val n)) := (r2 n _).2 ⟨⟨s, hs, hm, rfl⟩, co_mem.2 ⟨h1, h2⟩⟩
    obtain ⟨u, hu, hum, hue⟩ := hV
    have : ∃ t ∈ e, t.1 = u.1 ∧ ∀ q, ∃ x y, u.2.eval q = some x ∧ g.eval q = some y ∧ t.2.eval q = some (x + y) := by
      clear eint eh ed e1 r1 r2 rd rp rs
      induction e2 with
      | nil => simp at hu
      | @cons s' t' r' e' hst hh ih =>
        rcases List.mem_cons.1 hu with rfl | hu
        · exact ⟨t', by simp, hst.1, hst.2.2.1⟩
        · obtain ⟨t, ht, k⟩ := ih hu
          exact ⟨t, List.mem_cons_of_mem _ ht, k⟩
    obtain ⟨t, ht, k1, k2⟩ := this
    obtain ⟨x, y, l1, l2, l3⟩ := k2 (val n)
    obtain ⟨z, m1, m2⟩ := g3 (val n)
    rw [m2] at l2
    cases l2
    exact ⟨s, hs, hm, t, ht, by rw [k1]; exact hum, x, z, by rw [← hue]; exact l1, m1, by rw [l3, sub_eq_add_neg]⟩
  have en : e ≠ [] := by
    obtain ⟨-, -, -, t, ht, -⟩ := rval a (le_refl _) (by omega)
    intro h; rw [h] at ht; simp at ht
  have eL : e.Lines := by
    refine ⟨en, fun s hs => (eh s hs).1, ed, fun s hs => ?_⟩
    obtain ⟨t, ht, -, k2, -⟩ := forall₂_mem_right e2 hs
    obtain ⟨m, c, h | h⟩ := Fn.straight_or k2
    · exact .inr ⟨m, c, h⟩
    · exact .inl ⟨c, h⟩
  have eE : e.ConstEnds := by
    intro s hs h
    obtain ⟨-, x, y, k1, k2, -⟩ := eh s hs
    rw [k1, k2] at h
    rcases h with h | h <;> cases h
  have eB : e.Bounded := by
    obtain ⟨s, hs⟩ := List.exists_mem_of_ne_nil e en
    obtain ⟨-, x, y, k1, k2, -⟩ := eh s hs
    exact ⟨s, hs, .inl (by rw [k1]; simp)⟩
  obtain ⟨A, A1, A2, A3⟩ := absolute_value hv hr eL eE eB
  obtain ⟨Ad, Ah, As, Ast⟩ := absolute_pieces hv hr eL eE eB A1
  have Ab : ∀ s ∈ A, ∃ x y, s.1.lower = fin x ∧ s.1.upper = fin y ∧ a ≤ x ∧ x < y ∧ y ≤ c := by
    intro s hs
    refine halfOpen_within (Ah s hs) (fun n hn => ?_)
    obtain ⟨v, hv'⟩ := (A3 n).1 ⟨_, (eval_ok_iff Ad).2 ⟨s, hs, hn, rfl⟩⟩
    obtain ⟨t, ht, htm, -⟩ := (eval_ok_iff ed).1 hv'
    obtain ⟨k0, x, y, k1, k2, k3, k4, k5⟩ := eh t ht
    rw [k0.mem_iff, k1, k2] at htm
    simp [FP.le_def, FP.lt_def, leb] at htm
    omega
  have hall : Norm CS.allnumbers := ⟨by simp [CS.allnumbers, FP.lt_def, leb], rfl, .inl ⟨rfl, rfl⟩⟩
  obtain ⟨q, q1, q2⟩ := C17_area_partial (val := val) hv (p := A) (I := CS.allnumbers) Ah Ad
    (fun s hs => Fn.straight_or (As s hs)) hall (fun s hs h => by
      obtain ⟨x, y, k1, k2, -⟩ := Ab s hs
      rw [k1, k2] at h
      rcases h with ⟨-, h⟩ | ⟨-, h⟩ <;> cases h)
  have hw : widthOf val (co a c) = .ok (val (c - 1) - val a) := by
    simp [widthOf, co, CS.lowermost, CS.uppermost, FP.dn]
  have hwp : val a < val (c - 1) := hv (by omega)
  refine ⟨1 / (val (c - 1) - val a) * q, ?_, ?_⟩
  · simp only [meanError, r1, g1, e1, A1, q1, hw, bind, Except.bind]
    rw [if_neg (by linarith)]
    rfl
  · rintro hps v rfl
    have hq : 1 / (val (c - 1) - val a) * q * (val (c - 1) - val a) = q := by
      have : val (c - 1) - val a ≠ 0 := by linarith
      field_simp
    rw [hq, q2]
    have hspan : span val CS.allnumbers = Set.univ := by
      ext x
      simp [span, CS.allnumbers]
    have est : e.Steps := by
      intro s hs
      obtain ⟨t, ht, -, -, -, k⟩ := forall₂_mem_right e2 hs
      refine k ?_ (g4 ⟨v, rfl⟩)
      obtain ⟨-, ⟨u, hu, e'⟩, -⟩ := rp t ht
      rw [e']; exact hps u hu
    have key : PF.real val A = (Set.Ico (val a : ℝ) (val c)).indicator (fun x => |PF.real val p x - v|) := by
      funext x
      by_cases hx : x ∈ Set.Ico (val a : ℝ) (val c)
      · rw [Set.indicator_of_mem hx]
        have hk : a + ((c - a).toNat : ℤ) = c := by omega
        obtain ⟨n, n1, n2, n3, n4⟩ := cell hx.1 (k := (c - a).toNat) (by rw [hk]; exact hx.2)
        rw [hk] at n2
        obtain ⟨s, hs, hsm, t, ht, htm, y, z, w1, w2, w3⟩ := rval n n1 n2
        have ht' : e.eval val n = .ok (some (y - z)) := (eval_ok_iff ed).2 ⟨t, ht, htm, w3⟩
        have hA : A.eval val n = .ok (some |y - z|) := by
          rcases A2 n _ ht' with h | ⟨h, -⟩
          · exact h
          · exact absurd est h
        obtain ⟨u, hu, hum, hue⟩ := (eval_ok_iff Ad).1 hA
        rw [real_of_piece hv Ah Ad hu (cell_span hv (Ah u hu) hum n3 n4),
          real_of_piece hv hp.halfOpen hp.disj hs (cell_span hv (hp.halfOpen s hs) hsm n3 n4)]
        obtain ⟨v1, e3⟩ := Ast est u hu
        obtain ⟨v2, e4⟩ := hps s hs
        rw [e3] at hue
        rw [e4] at w1
        simp only [Fn.eval, Option.some.injEq] at hue w1 w2
        rw [e3, e4]
        simp only [Fn.real]
        rw [hue, w1, w2]
        push_cast
        rfl
      · rw [Set.indicator_of_notMem hx]
        refine real_zero (fun s hs h => hx ?_)
        obtain ⟨x', y', k1, k2, k3, k4, k5⟩ := Ab s hs
        rw [span_fin k1 k2] at h
        refine ⟨le_trans ?_ h.1, lt_of_lt_of_le h.2 ?_⟩
        · exact_mod_cast hv.monotone k3
        · exact_mod_cast hv.monotone k5
    rw [hspan, key, Measure.restrict_univ, integral_indicator measurableSet_Ico]

end PF

end Verif.Fun
