import Verif.Numeric.ConvolutionLemmas3

/-!
# The polygon of a convolution
-/

namespace Verif.Fun.PF

open Iv Iv.FP Iv.CS

variable {val : ℤ → ℚ} {u : ℚ}

/-! ### `from_points` and `overwrite_at` -/

/-- A constant or a line that rises or falls. -/
def Plain (f : Fn) : Prop := (∃ c, f = .const c) ∨ ∃ m c, f = .lin m c ∧ m ≠ 0

theorem Plain.ne {f : Fn} (h : Plain f) : f ≠ .undef := by
  rcases h with ⟨c, rfl⟩ | ⟨m, c, rfl, -⟩ <;> simp

theorem fromPoints_plain {p q : ℚ × ℚ} {f : Fn} (h : Fn.fromPoints p q = .ok f) : Plain f := by
  unfold Fn.fromPoints at h
  simp only at h
  split at h
  · cases h
  · split at h
    · cases h; exact .inl ⟨_, rfl⟩
    · cases h
      exact .inr ⟨_, _, rfl, div_ne_zero (sub_ne_zero.2 (by assumption)) (sub_ne_zero.2 (fun e => by
        exact absurd e.symm (by assumption)))⟩

theorem fromPointsLoop_pieces : ∀ {pts : List (ℤ × ℚ)} {r : PF}, pts.Pairwise (fun a b => a.1 < b.1) →
    fromPointsLoop val pts = .ok r → ∀ s ∈ r, s.1.HalfOpen ∧ Plain s.2
  | [], r, _, h => by simp only [fromPointsLoop] at h; cases h; simp
  | [a], r, _, h => by obtain ⟨x, y⟩ := a; simp only [fromPointsLoop] at h; cases h; simp
  | (x1, y1) :: (x2, y2) :: t, r, hp, h => by
    obtain ⟨h1, h2⟩ := List.pairwise_cons.1 hp
    have hlt : x1 < x2 := h1 (x2, y2) (by simp)
    have hwf : ¬ fin x1 > fin x2 := by simp [FP.lt_def, leb]; omega
    have hho : CS.HalfOpen ⟨fin x1, fin x2, .inc, .exc⟩ :=
      ⟨by simp [FP.lt_def, leb]; omega, rfl, .inr ⟨by simp, rfl⟩⟩
    simp only [fromPointsLoop, CS.mk?, if_neg hwf, bind, Except.bind, hho.nonempty, Bool.false_eq_true, if_false] at h
    cases hf : Fn.fromPoints (val x1, y1) (val x2, y2) with
    | error e => simp [hf] at h
    | ok f =>
      simp only [hf] at h
      cases hr : fromPointsLoop val ((x2, y2) :: t) with
      | error e => simp [hr] at h
      | ok r' =>
        simp only [hr] at h
        cases h
        intro s hs
        rcases List.mem_cons.1 hs with rfl | hs
        · exact ⟨hho, fromPoints_plain hf⟩
        · exact fromPointsLoop_pieces h2 hr s hs

theorem closeLast_pieces : ∀ {p r : PF}, (∀ s ∈ p, s.1.HalfOpen ∧ Plain s.2) → closeLast p = .ok r →
    ∀ s ∈ r, s.1.HalfOpen ∧ Plain s.2
  | [], r, _, h => by simp [closeLast] at h
  | [(i, f)], r, hp, h => by
    obtain ⟨hi, hf⟩ := hp (i, f) (by simp)
    simp only [closeLast, bind, Except.bind] at h
    have : ∃ i', CS.ends { i with right := if i.upper.isInf then .exc else .inc } none (some .exc) = .ok i' ∧
        i'.HalfOpen := by
      obtain ⟨l, r, a, b⟩ := i
      obtain ⟨h1, h2, h3⟩ := hi
      simp only at h1 h2 h3
      subst h2
      have hwf : ¬ l > r := not_lt.2 (le_of_lt h1)
      simp only [CS.ends, CS.mk?, if_neg hwf, bind, Except.bind]
      refine ⟨_, rfl, ?_⟩
      cases l <;> cases r <;> simp_all [CS.HalfOpen, isInf, FP.lt_def, leb, FP.up]
    obtain ⟨i', e, hi'⟩ := this
    rw [e] at h
    cases h
    simpa using ⟨hi', hf⟩
  | s :: t :: p, r, hp, h => by
    rw [closeLast_cons2] at h
    cases hr : closeLast (t :: p) with
    | error e => simp [hr, Except.map] at h
    | ok r' =>
      simp only [hr, Except.map, Except.ok.injEq] at h
      subst h
      intro x hx
      rcases List.mem_cons.1 hx with rfl | hx
      · exact hp _ (by simp)
      · exact closeLast_pieces (fun y hy => hp y (by simp [List.mem_cons.1 hy])) hr x hx

/-- Overwriting a function with the pieces of another one. -/
theorem overwrite_fold : ∀ {q r0 : PF}, (∀ s ∈ q, s.1.HalfOpen ∧ Plain s.2) → q.Disj →
    (∀ s ∈ r0, s.1.HalfOpen ∧ Plain s.2) → r0.Disj →
    ∃ r, q.foldlM (fun r s => overwriteAt r s.1 s.2) r0 = .ok r ∧ (∀ s ∈ r, s.1.HalfOpen ∧ Plain s.2) ∧ r.Disj ∧
      ∀ (val : ℤ → ℚ) n v, Value val r n v ↔ Value val q n v ∨ (¬ q.Covers n ∧ Value val r0 n v)
  | [], r0, _, _, h3, h4 => ⟨r0, rfl, h3, h4, fun val n v => by simp [Value, Covers]⟩
  | s :: q, r0, h1, h2, h3, h4 => by
    obtain ⟨d1, d2⟩ := List.pairwise_cons.1 h2
    obtain ⟨r1, e1, e2, e3, e4, e5⟩ := overwriteAt_spec (f := s.2) (fun t ht => .inl (h3 t ht).1) (h1 s (by simp)).1
    obtain ⟨r, f1, f2, f3, f4⟩ := overwrite_fold (q := q) (r0 := r1) (fun t ht => h1 t (by simp [ht])) d2
      (fun t ht => ⟨e2 t ht, by
        rcases e5 t ht with h | ⟨w, hw, h, -⟩
        · rw [h]; exact (h1 s (by simp)).2
        · rw [h]; exact (h3 w hw).2⟩) (e3 h4)
    refine ⟨r, ?_, f2, f3, fun val n v => ?_⟩
    · rw [List.foldlM_cons]
      simp only [bind, Except.bind, e1]
      exact f1
    · rw [f4, e4]
      simp only [Value, Covers, List.mem_cons, exists_eq_or_imp]
      have : s.1.Mem (fin n) → ¬ ∃ t ∈ q, t.1.Mem (fin n) := by
        rintro hs ⟨t, ht, h⟩
        exact d1 t ht _ ⟨hs, h⟩
      constructor
      · rintro (h | ⟨h, ⟨h5, h6⟩ | ⟨h5, h6⟩⟩)
        · exact .inl (.inr h)
        · exact .inl (.inl ⟨h5, h6⟩)
        · exact .inr ⟨fun h7 => h7.elim h5 h, h6⟩
      · rintro ((⟨h5, h6⟩ | h) | ⟨h5, h6⟩)
        · exact .inr ⟨this h5, .inl ⟨h5, h6⟩⟩
        · exact .inl h
        · exact .inr ⟨fun h => h5 (.inr h), .inr ⟨fun h => h5 (.inl h), h6⟩⟩

/-! ### The domain of a total function -/

theorem IsStep.domain {p : PF} {F : ℤ → ℚ} (h : IsStep p F) : p.domain = .ok (.cs CS.allnumbers) := by
  obtain ⟨D, h1, h2, h3⟩ := domain_spec h.ho
  have hall : ∀ n : ℤ, D.Mem (fin n) := fun n => (h2 n).2 (by
    obtain ⟨s, hs, hm, -⟩ := h.val n
    exact ⟨s, hs, hm⟩)
  have hR : CS.allnumbers.HalfOpen := by decide +kernel
  cases D with
  | rs l =>
    exfalso
    refine domain_shape (p := [(CS.allnumbers, .const 0)]) (q := p) (a := CS.allnumbers) (by simpa using hR) h.ho
      (fun n => ⟨fun _ => (h2 n).1 (hall n), fun _ => ⟨(CS.allnumbers, .const 0), by simp, ?_⟩⟩) (by decide +kernel) h1
    rw [hR.mem_iff]
    simp [CS.allnumbers, FP.le_def, FP.lt_def, leb]
  | cs c =>
    have hc : c.HalfOpen := (h3.2.2 ⟨0, hall 0⟩)
    have hall' : ∀ n : ℤ, c.lower ≤ fin n ∧ fin n < c.upper := fun n => (hc.mem_iff n).1 (hall n)
    rw [h1]
    obtain ⟨l, r, a, b⟩ := c
    obtain ⟨g1, g2, g3⟩ := hc
    simp only at g1 g2 g3 hall'
    have e1 : l = ninf := by
      cases l with
      | ninf => rfl
      | fin k => have := (hall' (k - 1)).1; rw [fin_le] at this; omega
      | pinf => have := (hall' 0).1; simp [FP.le_def, leb] at this
    have e2 : r = pinf := by
      cases r with
      | ninf => have := (hall' 0).2; simp [FP.lt_def, leb] at this
      | fin k => have := (hall' k).2; exact absurd this (lt_irrefl _)
      | pinf => rfl
    subst e1 e2 g2
    simp only [ne_eq, not_true_eq_false, false_and, or_false, true_and] at g3
    rw [g3]; rfl

/-! ### The discrete convolution -/

/-- The change of the sum from `n - 1` to `n`, in units of the grid. -/
def growth (F : ℤ → ℚ) (J : List (ℤ × ℚ)) (n : ℤ) : ℚ := (J.map (fun s => s.2 * F (n - s.1))).sum

theorem discrete_diff {F G : ℤ → ℚ} {J : List (ℤ × ℚ)} {A B : ℤ} (hF : ∀ k, ¬ (A ≤ k ∧ k < B) → F k = 0)
    (hJ : ∀ n, G n - G (n - 1) = (J.map (fun s => if n = s.1 then s.2 else 0)).sum) (n : ℤ) :
    discrete u F G A B n - discrete u F G A B (n - 1) = u * growth F J n := by
  unfold discrete growth
  rw [← mul_sub, ← Finset.sum_sub_distrib]
  congr 1
  have : ∀ k, F k * G (n - k) - F k * G (n - 1 - k) = F k * (J.map (fun s => if n - k = s.1 then s.2 else 0)).sum := by
    intro k
    rw [← hJ, mul_sub]
    congr 3; ring
  rw [Finset.sum_congr rfl (fun k _ => this k)]
  clear this hJ
  induction J with
  | nil => simp
  | cons a J ih =>
    simp only [List.map_cons, List.sum_cons, mul_add, Finset.sum_add_distrib, ih]
    congr 1
    have e : ∀ k, F k * (if n - k = a.1 then a.2 else 0) = if k = n - a.1 then a.2 * F (n - a.1) else 0 := by
      intro k
      by_cases h : n - k = a.1
      · have hk : k = n - a.1 := by omega
        rw [if_pos h, if_pos hk, hk, mul_comm]
      · rw [if_neg h, if_neg (by omega), mul_zero]
    rw [Finset.sum_congr rfl (fun k _ => e k), Finset.sum_ite_eq']
    split
    · rfl
    · rename_i h
      rw [hF _ (by simpa using h), mul_zero]

theorem growth_bound {F : ℤ → ℚ} {J : List (ℤ × ℚ)} {M : ℚ} (hM : ∀ n, |F n| ≤ M) (n : ℤ) :
    |growth F J n| ≤ M * (J.map (fun s => |s.2|)).sum := by
  unfold growth
  induction J with
  | nil => simp
  | cons a J ih =>
    simp only [List.map_cons, List.sum_cons, mul_add]
    refine le_trans (abs_add_le _ _) (add_le_add ?_ ih)
    rw [abs_mul, mul_comm]
    exact mul_le_mul_of_nonneg_right (hM _) (abs_nonneg _)

theorem growth_const {F : ℤ → ℚ} {J : List (ℤ × ℚ)} {n : ℤ} (h : ∀ s ∈ J, F (n - s.1) = F (n - 1 - s.1)) :
    growth F J n = growth F J (n - 1) := by
  unfold growth
  congr 1
  exact List.map_congr_left (fun s hs => by rw [h s hs])

/-- The error of the polygon between two neighbouring support points. -/
theorem between {F G : ℤ → ℚ} {J : List (ℤ × ℚ)} {A B : ℤ} (hu : 0 < u) (hval : ∀ n, val n = u * n)
    (hF : ∀ k, ¬ (A ≤ k ∧ k < B) → F k = 0)
    (hJ : ∀ n, G n - G (n - 1) = (J.map (fun s => if n = s.1 then s.2 else 0)).sum) {s t n : ℤ} (hst : s < t)
    (hn1 : s ≤ n) (hn2 : n ≤ t) (hc : ∀ m, s < m → m < t → growth F J m = growth F J (m - 1)) {K w : ℚ}
    (hK : ∀ n, |growth F J n| ≤ K)
    (hw : (w - discrete u F G A B s) * (val t - val s) =
      (discrete u F G A B t - discrete u F G A B s) * (val n - val s)) :
    |w - discrete u F G A B (n - 1)| ≤ u * K := by
  set D := discrete u F G A B with hD
  have hd : ∀ m, D m = D (m - 1) + u * growth F J m := fun m => by
    have := discrete_diff (u := u) (A := A) (B := B) hF hJ m
    rw [← hD] at this; linarith
  have hsl : ∀ i : ℕ, s + i < t → growth F J (s + i) = growth F J s := by
    intro i
    induction i with
    | zero => intro _; simp
    | succ i ih =>
      intro h
      have h' : s + ((i : ℤ) + 1) < t := by push_cast at h; omega
      push_cast
      rw [hc (s + ((i : ℤ) + 1)) (by omega) h', ← ih (by omega)]
      congr 1; ring
  have hlin : ∀ i : ℕ, s + i ≤ t → D (s + i - 1) = D (s - 1) + i * (u * growth F J s) := by
    intro i
    induction i with
    | zero => intro _; simp
    | succ i ih =>
      intro h
      have h' : s + ((i : ℤ) + 1) ≤ t := by push_cast at h; omega
      have e := ih (by omega)
      push_cast
      rw [show s + ((i : ℤ) + 1) - 1 = s + i by ring, hd, e, hsl i (by omega)]
      ring
  obtain ⟨i, rfl⟩ : ∃ i : ℕ, n = s + i := ⟨(n - s).toNat, by omega⟩
  obtain ⟨j, rfl⟩ : ∃ j : ℕ, t = s + j := ⟨(t - s).toNat, by omega⟩
  have hj : 0 < j := by omega
  have hij : i ≤ j := by omega
  have e1 := hlin i (by omega)
  have e2 := hlin j (by omega)
  have e3 := hd (s + j)
  have e4 := hd s
  set a := growth F J s
  set b := growth F J (s + j)
  have hj' : (0 : ℚ) < j := by exact_mod_cast hj
  have hij' : (i : ℚ) ≤ j := by exact_mod_cast hij
  have hi' : (0 : ℚ) ≤ i := by positivity
  simp only [hval] at hw
  push_cast at hw
  have key : (w - D (s + i - 1)) * j = u * ((j - i) * a + i * b) := by
    have h5 : (w - D s) * j = (D (s + j) - D s) * i := by
      have : u * ((w - D s) * j) = u * ((D (s + j) - D s) * i) := by linear_combination hw
      exact mul_left_cancel₀ (ne_of_gt hu) this
    rw [e1]
    linear_combination h5 + (i : ℚ) * e3 + (i : ℚ) * e2 + ((j : ℚ) - i) * e4
  have ha := hK s
  have hb := hK (s + j)
  have h6 : |(w - D (s + i - 1)) * j| ≤ u * K * j := by
    rw [key, abs_mul, abs_of_pos hu]
    have : |((j : ℚ) - i) * a + i * b| ≤ K * j := by
      refine le_trans (abs_add_le _ _) ?_
      rw [abs_mul, abs_mul, abs_of_nonneg (by linarith : (0 : ℚ) ≤ j - i), abs_of_nonneg hi']
      nlinarith [mul_le_mul_of_nonneg_left ha (by linarith : (0 : ℚ) ≤ j - i), mul_le_mul_of_nonneg_left hb hi']
    have := mul_le_mul_of_nonneg_left this hu.le
    linarith
  rw [abs_mul, abs_of_pos hj'] at h6
  exact le_of_mul_le_mul_right h6 hj'

end Verif.Fun.PF
