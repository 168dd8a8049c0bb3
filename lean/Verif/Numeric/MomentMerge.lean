import Verif.Numeric.MomentLemmas
import Verif.Numeric.MergeLemmas6
import Mathlib.Algebra.BigOperators.Intervals
import Mathlib.Algebra.BigOperators.Group.Finset.Basic
import Mathlib.Order.Interval.Finset.Basic
import Mathlib.Data.Int.Interval

/-! # Moments of merged cdfs -/

namespace Verif.Num

open Iv Iv.FP Fun

/-- The slope of a piece times the increase of `G` over it. -/
def rise (G : ℤ → ℚ) (s : CS × Fn) : ℚ := match s.2, s.1.lower, s.1.upper with
  | .lin m _, fin a, fin b => m * (G b - G a)
  | _, _, _ => 0

theorem Cdf.pl {s : ℤ × Fn} (h : (∃ v, s.2 = .const v) ∨ ∃ m c, s.2 = .lin m c ∧ 0 < m) : IsPl s.2 := by
  rcases h with ⟨v, h⟩ | ⟨m, c, h, hm⟩
  · rw [h]; trivial
  · rw [h]; exact hm

theorem Cdf.of_pl {s : ℤ × Fn} (h : IsPl s.2) : (∃ v, s.2 = .const v) ∨ ∃ m c, s.2 = .lin m c ∧ 0 < m := by
  obtain ⟨k, f⟩ := s
  cases f with
  | const v => exact .inl ⟨v, rfl⟩
  | lin m c => exact .inr ⟨m, c, rfl, h⟩
  | undef => cases h
  | quad a b c => cases h

theorem telescope (G : ℤ → ℚ) (m : ℚ) {a b : ℤ} (h : a ≤ b) :
    ∑ n ∈ Finset.Ico a b, m * (G (n + 1) - G n) = m * (G b - G a) := by
  induction b, h using Int.leInduction with
  | base => simp
  | succ b hb ih =>
    have : Finset.Ico a (b + 1) = insert b (Finset.Ico a b) := by
      ext x; simp only [Finset.mem_Ico, Finset.mem_insert]; omega
    rw [this, Finset.sum_insert (by simp), ih]
    ring

theorem sum_split (f : ℤ → ℚ) {a b c : ℤ} (h : a ≤ b) (h' : b ≤ c) :
    ∑ n ∈ Finset.Ico a c, f n = ∑ n ∈ Finset.Ico a b, f n + ∑ n ∈ Finset.Ico b c, f n := by
  rw [← Finset.Ico_union_Ico_eq_Ico h h', Finset.sum_union (Finset.Ico_disjoint_Ico_consecutive a b c)]

theorem rise_lin (G : ℤ → ℚ) (f : Fn) (a b : ℤ) (l r : Br) : rise G (⟨fin a, fin b, l, r⟩, f) = sl f * (G b - G a) := by
  cases f <;> simp [rise, sl]

theorem tile_rise (G : ℤ → ℚ) {z : ℤ} : ∀ {r : List (ℤ × Fn)} {a : ℤ} {g : Fn}, Knots ((a, g) :: r) →
    (∀ s ∈ (a, g) :: r, s.1 < z) →
    ((tile (fin a) g r (fin z)).map (rise G)).sum = ∑ n ∈ Finset.Ico a z, sl (tileAt g r n) * (G (n + 1) - G n)
  | [], a, g, _, hz => by
    have := hz (a, g) (by simp)
    simp only [tile, List.map_cons, List.map_nil, List.sum_cons, List.sum_nil, add_zero, rise_lin, tileAt]
    rw [telescope G _ (by simpa using this.le)]
  | (b, g') :: r, a, g, hk, hz => by
    have hk' := List.pairwise_cons.1 hk
    have hab : a < b := hk'.1 (b, g') (by simp)
    have hbz : b < z := hz (b, g') (by simp)
    simp only [tile, List.map_cons, List.sum_cons, rise_lin]
    rw [tile_rise G hk'.2 (fun s hs => hz s (List.mem_cons_of_mem _ hs)), sum_split _ hab.le hbz.le]
    congr 1
    · rw [← telescope G _ hab.le]
      refine Finset.sum_congr rfl fun n hn => ?_
      rw [Finset.mem_Ico] at hn
      simp only [tileAt]
      rw [if_pos hn.2]
    · refine Finset.sum_congr rfl fun n hn => ?_
      rw [Finset.mem_Ico] at hn
      simp only [tileAt]
      rw [if_neg (by omega)]

/-- All of a cdf, as a sum over floats. -/
theorem cdf_rise (G : ℤ → ℚ) {L : List (ℤ × Fn)} {z : ℤ} {v : ℚ} (hk : Knots (L ++ [(z, .const v)])) {lo hi : ℤ}
    (hlo : ∀ s ∈ L ++ [(z, Fn.const v)], lo ≤ s.1) (hhi : z ≤ hi) :
    ((tile ninf (.const 0) (L ++ [(z, .const v)]) pinf).map (rise G)).sum =
      ∑ n ∈ Finset.Ico lo hi, sl (tileAt (.const 0) (L ++ [(z, .const v)]) n) * (G (n + 1) - G n) := by
  have hLz : ∀ s ∈ L, s.1 < z := fun s hs => (List.pairwise_append.1 hk).2.2 s hs (z, .const v) (by simp)
  have hzlo : lo ≤ z := hlo (z, .const v) (by simp)
  have hafter : ∑ n ∈ Finset.Ico z hi, sl (tileAt (.const 0) (L ++ [(z, .const v)]) n) * (G (n + 1) - G n) = 0 := by
    refine Finset.sum_eq_zero fun n hn => ?_
    rw [Finset.mem_Ico] at hn
    rw [tileAt_append hk, if_neg (not_lt.2 hn.1)]
    simp [sl]
  rw [sum_split _ hzlo hhi, hafter, add_zero]
  have hc : ∑ n ∈ Finset.Ico lo z, sl (tileAt (.const 0) (L ++ [(z, .const v)]) n) * (G (n + 1) - G n) =
      ∑ n ∈ Finset.Ico lo z, sl (tileAt (.const 0) L n) * (G (n + 1) - G n) := by
    refine Finset.sum_congr rfl fun n hn => ?_
    rw [Finset.mem_Ico] at hn
    rw [tileAt_append hk, if_pos hn.2]
  rw [hc, ← tile_append, List.map_append, List.sum_append]
  have hl : ((([(⟨fin z, pinf, .inc, .exc⟩, .const v)] : PF)).map (rise G)).sum = 0 := by simp [rise]
  rw [hl, add_zero]
  cases L with
  | nil =>
    simp only [tile, tileAt, sl]
    simp [rise]
  | cons s r =>
    obtain ⟨a, g⟩ := s
    have haz : a < z := hLz (a, g) (by simp)
    have hla : lo ≤ a := hlo (a, g) (by simp)
    simp only [tile, List.map_cons, List.sum_cons]
    rw [tile_rise G (List.pairwise_append.1 hk).1 hLz, sum_split _ hla haz.le]
    congr 1
    · rw [Finset.sum_eq_zero]
      · simp [rise]
      · intro n hn
        rw [Finset.mem_Ico] at hn
        simp only [tileAt]
        rw [if_pos hn.2]
        simp [sl]
    · refine Finset.sum_congr rfl fun n hn => ?_
      rw [Finset.mem_Ico] at hn
      simp only [tileAt]
      rw [if_neg (by omega)]

theorem slopes_rise (G : ℤ → ℚ) : ∀ {dw : List (PF × ℚ)}, (∀ d ∈ dw, 0 ≤ d.2) →
    ((slopes dw).map (fun s => s.2.2 * rise G (s.1, s.2.1))).sum =
      (dw.map (fun d => d.2 * (d.1.map (rise G)).sum)).sum
  | [], _ => by simp [slopes]
  | d :: dw, h => by
    rw [slopes_cons, List.map_append, List.sum_append, slopes_rise G (dw := dw) (fun x hx => h x (by simp [hx])),
      List.map_cons, List.sum_cons]
    congr 1
    obtain ⟨p, w⟩ := d
    rcases (h (p, w) (by simp)).lt_or_eq with hw | hw
    · simp only at hw
      induction p with
      | nil => simp [slopes]
      | cons s r ih =>
        have ih := ih (by
          intro x hx
          rcases List.mem_cons.1 hx with rfl | hx
          · exact hw.le
          · exact h x (by simp [hx]))
        simp only [slopes, List.flatMap_cons, List.flatMap_nil, List.append_nil] at ih ⊢
        obtain ⟨i, f⟩ := s
        rw [List.map_cons, List.sum_cons, mul_add, ← ih]
        cases f with
        | const v => simp [rise]
        | _ => simp [hw]
    · simp only at hw
      subst hw
      have : slopes [(p, 0)] = [] := by
        rw [List.eq_nil_iff_forall_not_mem]
        intro s hs
        obtain ⟨d, hd, hw, -⟩ := mem_slopes.1 hs
        simp at hd; subst hd; exact lt_irrefl _ hw
      simp [this]

theorem active_rise (G : ℤ → ℚ) {lo hi : ℤ} : ∀ {l : List (CS × Fn × ℚ)}, (∀ s ∈ l, IsPiece s) →
    (∀ s ∈ l, lo ≤ (loE s).at' ∧ (upE s).at' ≤ hi) →
    ∑ n ∈ Finset.Ico lo hi, (l.map (fun s => (loE s).act n - (upE s).act n)).sum * (G (n + 1) - G n) =
      (l.map (fun s => s.2.2 * rise G (s.1, s.2.1))).sum
  | [], _, _ => by simp
  | s :: l, hp, hb => by
    have ih := active_rise G (l := l) (fun x hx => hp x (List.mem_cons_of_mem _ hx))
      (fun x hx => hb x (List.mem_cons_of_mem _ hx))
    have hs := hp s (by simp)
    obtain ⟨h1, h2⟩ := hb s (by simp)
    have ho := hs.ord
    simp only [List.map_cons, List.sum_cons, add_mul]
    rw [Finset.sum_add_distrib, ih]
    congr 1
    rw [sum_split _ h1 (ho.le.trans h2), sum_split _ ho.le h2]
    have z1 : ∑ n ∈ Finset.Ico lo (loE s).at', ((loE s).act n - (upE s).act n) * (G (n + 1) - G n) = 0 := by
      refine Finset.sum_eq_zero fun n hn => ?_
      rw [Finset.mem_Ico] at hn
      rw [act_term hs, if_neg (by omega), zero_mul]
    have z2 : ∑ n ∈ Finset.Ico (upE s).at' hi, ((loE s).act n - (upE s).act n) * (G (n + 1) - G n) = 0 := by
      refine Finset.sum_eq_zero fun n hn => ?_
      rw [Finset.mem_Ico] at hn
      rw [act_term hs, if_neg (by omega), zero_mul]
    have z3 : ∑ n ∈ Finset.Ico (loE s).at' (upE s).at', ((loE s).act n - (upE s).act n) * (G (n + 1) - G n) =
        (loE s).slope * (G (upE s).at' - G (loE s).at') := by
      rw [← telescope G _ ho.le]
      refine Finset.sum_congr rfl fun n hn => ?_
      rw [Finset.mem_Ico] at hn
      rw [act_term hs, if_pos hn]
    rw [z1, z2, z3, zero_add, add_zero]
    obtain ⟨m, c, a, b, e1, e2, e3, e4, e5, e6, e7⟩ := hs
    simp only [loE, upE, Entry.slope, Entry.at', e1, e3, e4, rise]
    ring

theorem coeffs_sl (f : Fn) : (coeffs f).1 = sl f := by cases f <;> rfl

theorem exists_bounds (l : List ℤ) : ∃ lo hi : ℤ, ∀ x ∈ l, lo ≤ x ∧ x ≤ hi := by
  induction l with
  | nil => exact ⟨0, 0, by simp⟩
  | cons a r ih =>
    obtain ⟨lo, hi, h⟩ := ih
    refine ⟨min a lo, max a hi, fun x hx => ?_⟩
    rcases List.mem_cons.1 hx with rfl | hx
    · exact ⟨min_le_left _ _, le_max_left _ _⟩
    · have := h x hx
      exact ⟨(min_le_right _ _).trans this.1, this.2.trans (le_max_right _ _)⟩

theorem Cdf.mergeable {p : PF} (h : Cdf p) : Mergeable p := by
  obtain ⟨L, z, v, rfl, hk, hpl⟩ := h
  refine mergeable_tile hk ?_ ⟨v, lastOf_append _ _ _ _⟩
  intro s hs
  rcases List.mem_append.1 hs with hs | hs
  · exact Cdf.pl (hpl s hs)
  · simp only [List.mem_singleton] at hs; subst hs; trivial

/-- What the pieces contribute is additive. -/
theorem merge_rise {val : ℤ → ℚ} (hval : StrictMono val) {rnd : ℚ → ℤ} {dw : List (PF × ℚ)}
    (hm : ∀ d ∈ dw, Mergeable d.1 ∧ 0 ≤ d.2)
    (hsl : ∀ d ∈ dw, 0 < d.2 → ∀ s ∈ d.1, ∀ m c, s.2 = .lin m c → tol < d.2 * m)
    (hpos : ∃ n, 0 < mixture val dw n) :
    ∃ p, mergeWeighted val rnd dw = .ok p ∧ Cdf p ∧
      ∀ G, (p.map (rise G)).sum = (dw.map (fun d => d.2 * (d.1.map (rise G)).sum)).sum := by
  obtain ⟨l, z, h1, hk, hpl, -, -, h2, h3⟩ := mergeWeighted_slope hval (rnd := rnd) hm hsl hpos
  refine ⟨_, h1, ⟨l, z, 1, rfl, hk, fun s hs => Cdf.of_pl (hpl s hs)⟩, fun G => ?_⟩
  have hp := slopes_piece (fun d hd => (hm d hd).1) hsl
  obtain ⟨lo, hi, hb⟩ := exists_bounds ((l ++ [(z, Fn.const 1)]).map Prod.fst ++
    (slopes dw).map (fun s => (loE s).at') ++ (slopes dw).map (fun s => (upE s).at'))
  rw [cdf_rise G hk (lo := lo) (hi := hi)
      (fun s hs => (hb s.1 (by simp only [List.mem_append, List.mem_map]; exact .inl (.inl ⟨s, by simpa using hs, rfl⟩))).1)
      (hb z (by simp)).2,
    ← slopes_rise G (fun d hd => (hm d hd).2), ← active_rise G (lo := lo) (hi := hi) hp (fun s hs =>
      ⟨(hb _ (by simp only [List.mem_append, List.mem_map]; exact .inl (.inr ⟨s, hs, rfl⟩))).1,
       (hb _ (by simp only [List.mem_append, List.mem_map]; exact .inr ⟨s, hs, rfl⟩)).2⟩)]
  refine Finset.sum_congr rfl fun n _ => ?_
  rw [← active_eq]
  congr 1
  rcases lt_or_ge n z with hn | hn
  · rw [tileAt_append hk, if_pos hn, ← coeffs_sl, h2 n hn]
  · rw [h3 n hn, tileAt_append hk, if_neg (not_lt.2 hn)]
    rfl

/-- The antiderivative of the power. -/
def anti (val : ℤ → ℚ) (lab : ℚ → ℚ) (s : ℚ) (order : ℕ) (c : ℚ) (n : ℤ) : ℚ :=
  (lab (val n) - c) ^ (order + 1) / (order + 1) / s

section

variable {val : ℤ → ℚ} (hval : StrictMono val) {lab prev : ℚ → ℚ} {s μ : ℚ} (hs : 0 < s)
  (hlab : ∀ x, lab x = s * x + μ) (hprev : ∀ n, prev (lab (val n)) = lab (val (n - 1))) {c : ℚ} {r : ℕ}

include hval hs hlab hprev

theorem piece_rise {f : Fn} {a b : ℤ} (hab : a < b) :
    ∃ q, momentPiece val lab prev r c (⟨fin a, fin b, .inc, .exc⟩, .fin (sl f)) = .ok q ∧
      q + lostPiece val lab r c (⟨fin a, fin b, .inc, .exc⟩, f) = sl f * (anti val lab s r c b - anti val lab s r c a) := by
  have h3 : prev (lab (val b)) - lab (val a) = s * (val (b - 1) - val a) := by rw [hprev, hlab, hlab]; ring
  have hl : lostPiece val lab r c (⟨fin a, fin b, .inc, .exc⟩, f) = if b = a + 1 then sl f * (val b - val a) /
      (lab (val b) - lab (val a)) * (((lab (val b) - c) ^ (r + 1) - (lab (val a) - c) ^ (r + 1)) / (r + 1)) else 0 := by
    cases f <;> simp [lostPiece, sl]
  rw [hl]
  simp only [momentPiece, anti]
  have hr : ((r : ℚ) + 1) ≠ 0 := by positivity
  have h2 := (sub_pos.2 (hval hab)).ne'
  have n3 := hs.ne'
  have h4 : lab (val b) - lab (val a) = s * (val b - val a) := by rw [hlab, hlab]; ring
  by_cases h : b = a + 1
  · have h0 : prev (lab (val b)) - lab (val a) = 0 := by rw [h3, h]; simp
    rw [if_pos h0, if_pos h]
    refine ⟨0, rfl, ?_⟩
    rw [h4]
    field_simp
    ring
  · have h1 : val (b - 1) - val a ≠ 0 := (sub_pos.2 (hval (by omega))).ne'
    rw [if_neg (by rw [h3]; exact mul_ne_zero n3 h1), if_neg h, h3]
    refine ⟨_, rfl, ?_⟩
    field_simp
    ring

theorem pieces_rise {z : ℤ} : ∀ {r' : List (ℤ × Fn)} {a : ℤ} {g : Fn}, Knots ((a, g) :: r') →
    (∀ s ∈ (a, g) :: r', s.1 < z) →
    ∃ q, (densOf (tile (fin a) g r' (fin z))).mapM (momentPiece val lab prev r c) = .ok q ∧
      q.sum + lost val lab r c (tile (fin a) g r' (fin z)) =
        ((tile (fin a) g r' (fin z)).map (rise (anti val lab s r c))).sum
  | [], a, g, _, hz => by
    obtain ⟨q, h1, h2⟩ := piece_rise hval hs hlab hprev (c := c) (r := r) (f := g) (a := a) (b := z)
      (by simpa using hz (a, g) (by simp))
    refine ⟨[q], ?_, ?_⟩
    · simp only [tile, densOf, List.map, List.mapM_cons, List.mapM_nil, brOf, h1, bind, Except.bind, pure, Except.pure]
    · simp only [tile, lost, List.map, List.sum_cons, List.sum_nil, add_zero, brOf, h2, rise_lin]
  | (b, g') :: r', a, g, hk, hz => by
    have hk' := List.pairwise_cons.1 hk
    have hab : a < b := hk'.1 (b, g') (by simp)
    obtain ⟨q, h1, h2⟩ := piece_rise hval hs hlab hprev (c := c) (r := r) (f := g) (a := a) (b := b) hab
    obtain ⟨qs, h3, h4⟩ := pieces_rise hk'.2 (fun s hs => hz s (List.mem_cons_of_mem _ hs))
    refine ⟨q :: qs, ?_, ?_⟩
    · simp only [densOf] at h3
      simp only [tile, densOf, List.map, List.mapM_cons, brOf, h1, h3, bind, Except.bind, pure, Except.pure]
    · simp only [lost] at h4
      simp only [tile, lost, List.map, List.sum_cons, brOf, rise_lin, ← h4, ← h2]
      ring

/-- The moment of a cdf with more than two pieces. -/
theorem moment_rise {p : PF} (hp : Cdf p) (hlen : p.length ≠ 2) :
    ∃ q, moment val lab prev p r c = .ok q ∧ q + lost val lab r c p = (p.map (rise (anti val lab s r c))).sum := by
  obtain ⟨L, z, v, rfl, hk, hpl⟩ := hp
  have hsimple : ∀ t ∈ tile ninf (.const 0) (L ++ [(z, .const v)]) pinf, Simple t.2 := by
    refine tile_simple rfl fun t ht => ?_
    rcases List.mem_append.1 ht with ht | ht
    · have := Cdf.pl (hpl t ht)
      obtain ⟨k, f⟩ := t
      cases f with
      | const v => rfl
      | lin m c => rfl
      | undef => cases this
      | quad a b c => cases this
    · simp only [List.mem_singleton] at ht; subst ht; rfl
  have hpdf := pdf_eq hsimple hlen
  have hd : isDirac (tile ninf (.const 0) (L ++ [(z, .const v)]) pinf) = false := by
    simp only [isDirac, beq_eq_false_iff_ne]; exact hlen
  cases L with
  | nil => simp [tile] at hlen
  | cons t r' =>
    obtain ⟨a, g⟩ := t
    obtain ⟨q, h1, h2⟩ := pieces_rise hval hs hlab hprev (c := c) (r := r) (z := z) (List.pairwise_append.1 hk).1
      (fun t ht => (List.pairwise_append.1 hk).2.2 t ht (z, .const v) (by simp))
    have hin : ((densOf (tile ninf (.const 0) ((a, g) :: r' ++ [(z, .const v)]) pinf)).drop 1).dropLast =
        densOf (tile (fin a) g r' (fin z)) := by
      simp only [List.cons_append, tile, densOf, List.map_cons, List.drop_succ_cons, List.drop_zero, ← List.map_dropLast,
        tile_inner]
    refine ⟨q.sum, ?_, ?_⟩
    · simp only [moment, hpdf, bind, Except.bind, hd, hin, h1]
      simp
    · have e : tile ninf (.const 0) ((a, g) :: r' ++ [(z, .const v)]) pinf =
          (⟨ninf, fin a, .exc, .exc⟩, Fn.const 0) :: (tile (fin a) g r' (fin z) ++ [(⟨fin z, pinf, .inc, .exc⟩, .const v)]) := by
        rw [tile_append]; rfl
      rw [e]
      simp only [lost, List.map_cons, List.map_append, List.sum_cons, List.sum_append, List.map_nil, List.sum_nil] at h2 ⊢
      rw [← h2]
      simp [lostPiece, rise]

end

theorem dirac_rise {p : PF} (hp : Cdf p) (hlen : p.length = 2) (G : ℤ → ℚ) : (p.map (rise G)).sum = 0 := by
  obtain ⟨L, z, v, rfl, hk, hpl⟩ := hp
  rw [tile_length] at hlen
  simp only [List.length_append, List.length_singleton] at hlen
  obtain rfl : L = [] := List.eq_nil_of_length_eq_zero (by omega)
  simp [tile, rise]

theorem dirac_lost {val : ℤ → ℚ} {lab : ℚ → ℚ} {r : ℕ} {c : ℚ} {p : PF} (hp : Cdf p) (hlen : p.length = 2) :
    lost val lab r c p = 0 := by
  obtain ⟨L, z, v, rfl, hk, hpl⟩ := hp
  rw [tile_length] at hlen
  simp only [List.length_append, List.length_singleton] at hlen
  obtain rfl : L = [] := List.eq_nil_of_length_eq_zero (by omega)
  simp [tile, lost, lostPiece]

end Verif.Num
