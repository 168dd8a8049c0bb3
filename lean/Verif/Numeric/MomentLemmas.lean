import Verif.Numeric.QueryLemmas3
import Verif.Numeric.MomentSpec

/-! # Moments of fitted cdfs -/

namespace Verif.Num

open Iv Iv.FP Fun

theorem tile_inner {z : ℤ} {h : Fn} {v : FP} : ∀ {r : List (ℤ × Fn)} {a : FP} {g : Fn},
    (tile a g (r ++ [(z, h)]) v).dropLast = tile a g r (fin z)
  | [], a, g => by simp [tile]
  | (k, g') :: r, a, g => by
    have := tile_inner (z := z) (h := h) (v := v) (r := r) (a := fin k) (g := g')
    simp only [List.cons_append, tile]
    rw [List.dropLast_cons_of_ne_nil (by intro h'; have := congrArg List.length h'; rw [tile_length] at this; simp at this), this]

/-- The integral over one piece. -/
def power (X : ℤ → ℚ) (c : ℚ) (r : ℕ) (a b : ℤ) : ℚ := ((X b - c) ^ (r + 1) - (X a - c) ^ (r + 1)) / (r + 1)

/-- The moment of the pieces; the last ends at `e`. -/
def pieceSum (X : ℤ → ℚ) (c : ℚ) (r : ℕ) : List (ℤ × ℚ) → ℤ → ℚ
  | [a, b], e => (b.2 - a.2) / (X b.1 - X a.1) * power X c r a.1 e
  | a :: b :: d :: l, e => (b.2 - a.2) / (X b.1 - X a.1) * power X c r a.1 b.1 + pieceSum X c r (b :: d :: l) e
  | _, _ => 0

theorem momentPiece_eq {val : ℤ → ℚ} (hval : StrictMono val) {lab prev : ℚ → ℚ} {s μ : ℚ} (hs : 0 < s)
    (hlab : ∀ x, lab x = s * x + μ) (hprev : ∀ n, prev (lab (val n)) = lab (val (n - 1))) {c : ℚ} {r : ℕ}
    {a b : ℤ × ℚ} (hab : a.1 < b.1) {e : ℤ} (he : a.1 + 1 < e) :
    momentPiece val lab prev r c (⟨fin a.1, fin e, .inc, .exc⟩, .fin (sl (lineOf val a b))) =
      .ok ((b.2 - a.2) / (lab (val b.1) - lab (val a.1)) * power (fun n => lab (val n)) c r a.1 e) := by
  have h1 : val a.1 < val (e - 1) := hval (by omega)
  have h2 : val a.1 < val b.1 := hval hab
  have h3 : prev (lab (val e)) - lab (val a.1) = s * (val (e - 1) - val a.1) := by
    rw [hprev, hlab, hlab]; ring
  simp only [momentPiece]
  rw [if_neg (by rw [h3]; exact (mul_pos hs (sub_pos.2 h1)).ne'), h3]
  simp only [sl, lineOf, power, Except.ok.injEq]
  have h4 : lab (val b.1) - lab (val a.1) = s * (val b.1 - val a.1) := by rw [hlab, hlab]; ring
  rw [h4]
  have n1 := (sub_pos.2 h1).ne'
  have n2 := (sub_pos.2 h2).ne'
  have n3 := hs.ne'
  field_simp

theorem moment_pieces {val : ℤ → ℚ} (hval : StrictMono val) {lab prev : ℚ → ℚ} {s μ : ℚ} (hs : 0 < s)
    (hlab : ∀ x, lab x = s * x + μ) (hprev : ∀ n, prev (lab (val n)) = lab (val (n - 1))) {c : ℚ} {r : ℕ} {hi : ℤ} :
    ∀ {l : List (ℤ × ℚ)} {a b : ℤ × ℚ}, Rising (a :: b :: l) → ((a :: b :: l).getLast?).map Prod.fst = some hi →
      (∀ x ∈ a :: b :: l, ∀ y ∈ a :: b :: l, x.1 + 1 = y.1 → y.1 = hi) →
      ∃ q, (densOf (tile (fin a.1) (lineOf val a b) (segs val (b :: l)) (fin (hi + 1)))).mapM
          (momentPiece val lab prev r c) = .ok q ∧
        q.sum = pieceSum (fun n => lab (val n)) c r (a :: b :: l) (hi + 1)
  | [], a, b, hr, hz, _ => by
    have hab := (List.pairwise_cons.1 hr).1 b (by simp)
    simp only [List.getLast?_cons_cons, List.getLast?_singleton, Option.map_some, Option.some.injEq] at hz
    have := momentPiece_eq hval hs hlab hprev (c := c) (r := r) hab.1 (e := hi + 1) (by omega)
    refine ⟨[(b.2 - a.2) / (lab (val b.1) - lab (val a.1)) * power (fun n => lab (val n)) c r a.1 (hi + 1)], ?_, ?_⟩
    · simp only [segs, tile, densOf, List.map, List.mapM_cons, List.mapM_nil, brOf, this, bind, Except.bind, pure,
        Except.pure]
    · simp [pieceSum]
  | d :: l, a, b, hr, hz, hg => by
    have hr' := List.pairwise_cons.1 hr
    have hab := hr'.1 b (by simp)
    rw [List.getLast?_cons_cons] at hz
    have hb : b.1 < hi := by
      have hbd := (List.pairwise_cons.1 hr'.2).1
      rw [List.getLast?_cons_cons] at hz
      obtain ⟨z, hz1, hz2⟩ := Option.map_eq_some_iff.1 hz
      have := (hbd z (List.mem_of_getLast? hz1)).1
      omega
    have hne : a.1 + 1 ≠ b.1 := fun h => by
      have := hg a (by simp) b (by simp) h
      omega
    obtain ⟨q, hq1, hq2⟩ := moment_pieces hval hs hlab hprev (c := c) (r := r) (l := l) (a := b) (b := d) hr'.2 hz
      (fun x hx y hy => hg x (List.mem_cons_of_mem _ hx) y (List.mem_cons_of_mem _ hy))
    have := momentPiece_eq hval hs hlab hprev (c := c) (r := r) hab.1 (e := b.1) (by omega)
    refine ⟨((b.2 - a.2) / (lab (val b.1) - lab (val a.1)) * power (fun n => lab (val n)) c r a.1 b.1) :: q, ?_, ?_⟩
    · simp only [densOf] at hq1
      simp only [segs, tile, densOf, List.map, List.mapM_cons, brOf, this, hq1, bind, Except.bind, pure, Except.pure]
    · simp [pieceSum, hq2]

/-- The part of the last piece behind the greatest sample. -/
theorem pieceSum_tail {X : ℤ → ℚ} {c : ℚ} {r : ℕ} {e : ℤ} : ∀ {l : List (ℤ × ℚ)} {k z : ℤ × ℚ},
    pieceSum X c r (l ++ [k, z]) e = pieceSum X c r (l ++ [k, z]) z.1 + (z.2 - k.2) / (X z.1 - X k.1) * power X c r z.1 e
  | [], k, z => by simp only [List.nil_append, pieceSum, power]; ring
  | [a], k, z => by simp only [List.cons_append, List.nil_append, pieceSum, power]; ring
  | a :: b :: l, k, z => by
    have := pieceSum_tail (X := X) (c := c) (r := r) (e := e) (l := b :: l) (k := k) (z := z)
    cases l with
    | nil => simp only [List.cons_append, List.nil_append, pieceSum] at this ⊢; rw [this]; ring
    | cons d l => simp only [List.cons_append, pieceSum] at this ⊢; rw [this]; ring

theorem integral_power (X : ℤ → ℚ) (c : ℚ) (r : ℕ) (a b : ℤ) :
    ∫ t in (X a : ℝ)..(X b : ℝ), (t - (c : ℝ)) ^ r = ((power X c r a b : ℚ) : ℝ) := by
  rw [intervalIntegral.integral_comp_sub_right (fun t => t ^ r), integral_pow]
  simp [power]

theorem gapMoments_eq {X : ℤ → ℚ} {F : ℤ → ℚ} {c : ℚ} {r : ℕ} : ∀ {l : List (ℤ × ℚ)} {a b : ℤ × ℚ} {z : ℤ × ℚ},
    (a :: b :: l).getLast? = some z → (∀ q ∈ a :: b :: l, F q.1 = q.2) →
    gapMoments (fun n => (X n : ℝ)) (fun n => (F n : ℝ)) c r ((a :: b :: l).map Prod.fst) =
      ((pieceSum X c r (a :: b :: l) z.1 : ℚ) : ℝ)
  | [], a, b, z, hz, hF => by
    simp only [List.getLast?_cons_cons, List.getLast?_singleton, Option.some.injEq] at hz
    subst hz
    simp only [List.map, gapMoments, pieceSum, integral_power, hF a (by simp), hF b (by simp)]
    push_cast
    ring
  | d :: l, a, b, z, hz, hF => by
    rw [List.getLast?_cons_cons] at hz
    have := gapMoments_eq (X := X) (F := F) (c := c) (r := r) hz (fun q hq => hF q (List.mem_cons_of_mem _ hq))
    simp only [List.map] at this
    simp only [List.map, gapMoments, pieceSum, integral_power, hF a (by simp), hF b (by simp)] at this ⊢
    rw [this]
    push_cast
    ring

end Verif.Num
