import Verif.Numeric.ApproxDist
import Verif.Numeric.SumLemmas5
import Verif.Functions.Props7

/-!
# The approximation of the density of a numeric distribution
-/

namespace Verif.Num

open Iv Iv.FP Fun Fun.PF

variable {val : ℤ → ℚ} {u : ℚ}

/-! ### Framed functions and step functions -/

/-- The step function with the value `g a b` between two neighbouring knots `a` and `b`. -/
def stepsOf (g : ℤ → ℤ → ℚ) : List ℤ → List (ℤ × ℚ)
  | a :: b :: r => (a, g a b) :: stepsOf g (b :: r)
  | [z] => [(z, 0)]
  | [] => []

theorem stepsOf_fst (g : ℤ → ℤ → ℚ) : ∀ ks : List ℤ, (stepsOf g ks).map Prod.fst = ks
  | [] => rfl
  | [z] => rfl
  | a :: b :: r => by simp [stepsOf, stepsOf_fst g (b :: r)]

theorem stepsOf_last (g : ℤ → ℤ → ℚ) {z : ℤ} : ∀ ks : List ℤ, ks.getLast? = some z → (stepsOf g ks).getLast? = some (z, 0)
  | [], h => by simp at h
  | [x], h => by simp only [List.getLast?_singleton, Option.some.injEq] at h; subst h; rfl
  | a :: b :: r, h => by
    rw [List.getLast?_cons_cons] at h
    have ih := stepsOf_last g (b :: r) h
    rw [stepsOf]
    cases he : stepsOf g (b :: r) with
    | nil => rw [he] at ih; simp at ih
    | cons x t => rw [List.getLast?_cons_cons, ← he, ih]

/-- The pieces from the knot `a` on. -/
theorem blocks_tile {g : ℤ → ℤ → ℚ} {z : ℤ} : ∀ {ks : List ℤ} {a : ℤ} {bs : PF},
    Blocks (fun a b f => f = .const (g a b)) (a :: ks) bs → (a :: ks).getLast? = some z →
    ∃ v r, stepsOf g (a :: ks) = (a, v) :: r ∧
      bs ++ [(lastI z, .const 0)] = tile (fin a) (.const v) (r.map (fun s => (s.1, .const s.2))) pinf
  | [], a, bs, h, hz => by
    simp only [List.getLast?_singleton, Option.some.injEq] at hz
    subst hz
    cases h
    exact ⟨0, [], rfl, rfl⟩
  | b :: ks, a, bs, h, hz => by
    cases h with
    | cons h1 h2 =>
      rw [List.getLast?_cons_cons] at hz
      obtain ⟨v, r, e1, e2⟩ := blocks_tile h2 hz
      refine ⟨g a b, (b, v) :: r, by rw [stepsOf, e1], ?_⟩
      rw [List.cons_append, e2, h1]
      rfl

theorem framed_steps {g : ℤ → ℤ → ℚ} {ks : List ℤ} {p : PF}
    (h : Framed (fun a b f => f = .const (g a b)) (.const 0) (.const 0) ks p) : p = stepFn (stepsOf g ks) := by
  obtain ⟨a, z, bs, h1, h2, h3, rfl⟩ := h
  cases ks with
  | nil => simp at h1
  | cons a' ks =>
    simp only [List.head?_cons, Option.some.injEq] at h1
    subst h1
    obtain ⟨v, r, e1, e2⟩ := blocks_tile h3 h2
    rw [List.cons_append, e2, e1]
    rfl

theorem steps_blocks {z : ℤ} : ∀ {r : List (ℤ × ℚ)} {a : ℤ} {v : ℚ}, ((a, v) :: r).getLast? = some (z, 0) →
    ∃ bs, Blocks (fun _ _ f => ∃ v, f = .const v) (a :: r.map Prod.fst) bs ∧
      tile (fin a) (.const v) (r.map (fun s => (s.1, .const s.2))) pinf = bs ++ [(lastI z, .const 0)]
  | [], a, v, h => by
    simp only [List.getLast?_singleton, Option.some.injEq, Prod.mk.injEq] at h
    obtain ⟨rfl, rfl⟩ := h
    exact ⟨[], .one a, rfl⟩
  | (b, w) :: r, a, v, h => by
    rw [List.getLast?_cons_cons] at h
    obtain ⟨bs, h1, h2⟩ := steps_blocks h
    exact ⟨(co a b, .const v) :: bs, .cons ⟨v, rfl⟩ h1, by rw [List.cons_append, ← h2]; rfl⟩

theorem bump_last {K : List (ℤ × ℚ)} (h : IsBump K) : ∃ z, K.getLast? = some (z, 0) := by
  have := h.2
  cases hl : K.getLast? with
  | none => simp [hl] at this
  | some z => rw [hl] at this; simp only [Option.map_some, Option.some.injEq] at this; exact ⟨z.1, by rw [← this]⟩

theorem stepFn_framed {K : List (ℤ × ℚ)} (h : IsBump K) :
    Framed (fun _ _ f => ∃ v, f = .const v) (.const 0) (.const 0) (K.map Prod.fst) (stepFn K) := by
  obtain ⟨z, hz⟩ := bump_last h
  cases K with
  | nil => simp at hz
  | cons s r =>
    obtain ⟨a, v⟩ := s
    obtain ⟨bs, h1, h2⟩ := steps_blocks hz
    refine ⟨a, z, bs, rfl, by rw [List.getLast?_map, hz]; rfl, h1, ?_⟩
    rw [List.cons_append, ← h2]
    rfl

/-! ### Areas -/

/-- The sum of the values of the knots from `a` up to `b`. -/
def valueSum (a b : ℤ) (K : List (ℤ × ℚ)) : ℚ := (K.map (fun s => if a ≤ s.1 ∧ s.1 < b then s.2 else 0)).sum

theorem valueSum_nonneg {a b : ℤ} {K : List (ℤ × ℚ)} (h : ∀ s ∈ K, 0 ≤ s.2) : 0 ≤ valueSum a b K := by
  refine List.sum_nonneg (fun x hx => ?_)
  obtain ⟨s, hs, rfl⟩ := List.mem_map.1 hx
  split
  · exact h s hs
  · exact le_rfl

theorem valueSum_add {a b c : ℤ} (h1 : a ≤ b) (h2 : b ≤ c) (K : List (ℤ × ℚ)) :
    valueSum a b K + valueSum b c K = valueSum a c K := by
  unfold valueSum
  induction K with
  | nil => simp
  | cons s K ih =>
    simp only [List.map_cons, List.sum_cons]
    rw [← ih]
    split_ifs <;> first | omega | ring

theorem valueSum_le {a b : ℤ} {K : List (ℤ × ℚ)} (h : ∀ s ∈ K, 0 ≤ s.2) : valueSum a b K ≤ (K.map Prod.snd).sum := by
  unfold valueSum
  refine List.sum_le_sum (fun s hs => ?_)
  split
  · exact le_rfl
  · exact h s hs

/-- The weights of the pieces between two knots. -/
theorem run_list (hval : ∀ n, val n = u * n) (hu : 0 < u) {a b : ℤ} (hab : a ≤ b) : ∀ (r : List (ℤ × ℚ)) (x : ℤ) (v : ℚ),
    ((x, v) :: r).Pairwise (fun s t => s.1 < t.1) → (∃ z, ((x, v) :: r).getLast? = some (z, 0)) →
    (∀ s ∈ (x, v) :: r, 0 ≤ s.2) → (a ≤ x ∨ a ∈ r.map Prod.fst) → (b ≤ x ∨ b ∈ r.map Prod.fst) →
    ((tile (fin x) (.const v) (r.map (fun s => (s.1, .const s.2))) pinf).map (weight val a b)).sum =
      area val b ((x, v) :: r) - area val a ((x, v) :: r) - u * valueSum a b ((x, v) :: r) ∧
    area val b ((x, v) :: r) - area val a ((x, v) :: r) ≤ valueSum a b ((x, v) :: r) * (val b - val a)
  | [], x, v, _, ⟨z, hz⟩, _, _, _ => by
    simp only [List.getLast?_singleton, Option.some.injEq, Prod.mk.injEq] at hz
    obtain ⟨-, rfl⟩ := hz
    simp [tile, weight, area, valueSum]
  | (y, w) :: r, x, v, hp, ⟨z, hz⟩, h0, ha, hb => by
    have hxy : x < y := (List.pairwise_cons.1 hp).1 (y, w) (by simp)
    have hp' := (List.pairwise_cons.1 hp).2
    rw [List.getLast?_cons_cons] at hz
    have hge : ∀ n, n ∈ r.map Prod.fst → y < n := fun n hn => by
      obtain ⟨s, hs, rfl⟩ := List.mem_map.1 hn
      exact (List.pairwise_cons.1 hp').1 s hs
    have ha' : a ≤ x ∨ y ≤ a := by
      rcases ha with h | h
      · exact .inl h
      · rcases List.mem_cons.1 h with h | h
        · exact .inr (le_of_eq h.symm)
        · exact .inr (hge a h).le
    have hb' : b ≤ x ∨ y ≤ b := by
      rcases hb with h | h
      · exact .inl h
      · rcases List.mem_cons.1 h with h | h
        · exact .inr (le_of_eq h.symm)
        · exact .inr (hge b h).le
    obtain ⟨i1, i2⟩ := run_list hval hu hab r y w hp' ⟨z, hz⟩ (fun s hs => h0 s (List.mem_cons_of_mem _ hs))
      (by
        rcases ha with h | h
        · exact .inl (by omega)
        · rcases List.mem_cons.1 h with h | h
          · exact .inl (le_of_eq h)
          · exact .inr h)
      (by
        rcases hb with h | h
        · exact .inl (by omega)
        · rcases List.mem_cons.1 h with h | h
          · exact .inl (le_of_eq h)
          · exact .inr h)
    have hv : 0 ≤ v := h0 (x, v) (by simp)
    have hvs : valueSum a b ((x, v) :: (y, w) :: r) = (if a ≤ x ∧ x < b then v else 0) + valueSum a b ((y, w) :: r) := by
      simp [valueSum]
    have hw : weight val a b (⟨fin x, fin y, brOf (fin x), .exc⟩, .const v) = if a ≤ x ∧ y ≤ b then v * (val (y - 1) - val x) else 0 := rfl
    have hvab : val b - val a = u * (b - a) := by rw [hval, hval]; ring
    rw [List.map_cons, tile, List.map_cons, List.sum_cons, i1, hw, hvs]
    simp only [area]
    have hpos := valueSum_nonneg (a := a) (b := b) (K := (y, w) :: r) (fun s hs => h0 s (List.mem_cons_of_mem _ hs))
    rcases ha' with h1 | h1
    · rcases hb' with h2 | h2
      · rw [if_neg (by omega), if_neg (by omega), show max x (min b y) = x by omega, show max x (min a y) = x by omega]
        constructor
        · ring
        · linarith
      · rw [if_pos ⟨h1, h2⟩, if_pos (by omega), show max x (min b y) = y by omega, show max x (min a y) = x by omega]
        constructor
        · simp only [hval]; push_cast; ring
        · have k1 : (a : ℚ) ≤ x := by exact_mod_cast h1
          have k2 : (y : ℚ) ≤ b := by exact_mod_cast h2
          have k3 : v * (val y - val x) ≤ v * (val b - val a) := by
            refine mul_le_mul_of_nonneg_left ?_ hv
            rw [hvab, hval, hval]
            nlinarith
          rw [add_mul]
          linarith
    · have h2 : ¬ (a ≤ x ∧ y ≤ b) := by omega
      have h3 : ¬ (a ≤ x ∧ x < b) := by omega
      rw [if_neg h2, if_neg h3, show max x (min b y) = y by omega, show max x (min a y) = y by omega]
      constructor
      · ring
      · linarith

theorem cumul_area (hval : ∀ n, val n = u * n) {K : List (ℤ × ℚ)} (hK : IsBump K) {a b : ℤ} (hab : a ≤ b) :
    area val b K - area val a K = u * cumul (PF.stepAt 0 K) a b := by
  obtain ⟨lo, hi, -, -, -, h0⟩ := bump_range hK
  have h1 : ∀ j, j < min lo a → PF.stepAt 0 K j = 0 := fun j hj => h0 j (by omega)
  rw [area_step hval hK h1, area_step hval hK h1, cumul_split (by omega : min lo a ≤ a) hab]
  ring

/-- The area of a mean is almost that of the pieces it replaces. -/
theorem mean_area (hval : ∀ n, val n = u * n) (hu : 0 < u) {K : List (ℤ × ℚ)} (hK : IsBump K) (h0 : ∀ s ∈ K, 0 ≤ s.2) {a b : ℤ}
    (ha : a ∈ K.map Prod.fst) (hb : b ∈ K.map Prod.fst) (hab : a < b) :
    0 ≤ meanOf val (stepFn K) a b ∧
      meanOf val (stepFn K) a b * (val b - val a) ≤ area val b K - area val a K ∧
      area val b K - area val a K - u * valueSum a b K ≤ meanOf val (stepFn K) a b * (val b - val a) := by
  have hF0 : ∀ n, 0 ≤ PF.stepAt 0 K n := fun n => stepAt_nonneg le_rfl h0
  have hVs : 0 ≤ u * valueSum a b K := mul_nonneg hu.le (valueSum_nonneg h0)
  have hab' : (a : ℚ) + 1 ≤ b := by exact_mod_cast hab
  unfold meanOf
  cases hpv : pieceValue (stepFn K) a b with
  | some v =>
    obtain ⟨s, hs, hv⟩ := List.exists_of_findSome?_eq_some hpv
    unfold constOn at hv
    split at hv
    · rename_i w hw
      split at hv
      · rename_i hc
        simp only [Option.some.injEq] at hv
        subst hv
        have hval' : ∀ j, a ≤ j → j < b → PF.stepAt 0 K j = w := fun j h1 h2 => by
          have := (stepFn_isStep hK.1).eq hs (n := j) (by rw [hc]; exact co_mem.2 ⟨h1, h2⟩)
          rw [hw] at this
          simpa using this.symm
        have e : area val b K - area val a K = w * (val b - val a) := by
          rw [cumul_area hval hK hab.le, cumul_const hab.le hval', hval, hval]
          ring
        simp only
        rw [e]
        exact ⟨by rw [← hval' a le_rfl hab]; exact hF0 a, le_rfl, by linarith⟩
      · simp at hv
    · simp at hv
  | none =>
    have hrun : runSum val (stepFn K) a b = area val b K - area val a K - u * valueSum a b K ∧
        area val b K - area val a K ≤ valueSum a b K * (val b - val a) := by
      obtain ⟨z, hz⟩ := bump_last hK
      cases K with
      | nil => simp at hz
      | cons s r =>
        obtain ⟨x, v⟩ := s
        have hm : ∀ n, n ∈ ((x, v) :: r).map Prod.fst → n ≤ x ∨ n ∈ r.map Prod.fst := fun n hn => by
          rcases List.mem_cons.1 hn with h | h
          · exact .inl (le_of_eq h)
          · exact .inr h
        have := run_list hval hu hab.le r x v hK.1 ⟨z, hz⟩ h0 (hm a ha) (hm b hb)
        rw [← this.1]
        refine ⟨?_, this.2⟩
        unfold runSum stepFn
        rw [List.map_cons, tile, List.map_cons, List.sum_cons, show weight val a b (⟨ninf, fin x, brOf ninf, .exc⟩, .const 0) = 0 from rfl,
          zero_add]
    obtain ⟨r1, r2⟩ := hrun
    have hR0 : 0 ≤ runSum val (stepFn K) a b := by
      refine List.sum_nonneg (fun x hx => ?_)
      obtain ⟨s, hs, rfl⟩ := List.mem_map.1 hx
      obtain ⟨c, hc⟩ := (stepFn_isStep hK.1).fns s hs
      unfold weight
      split
      · rename_i x y v e1 e2 e3
        split
        · have hho := (stepFn_isStep hK.1).ho s hs
          have hxy : x < y := by
            have := hho.1
            rw [e1, e2] at this
            simpa [FP.lt_def, leb] using this
          have hv : 0 ≤ v := by
            have := (stepFn_isStep hK.1).eq hs (n := x) (by
              rw [hho.mem_iff, e1, e2]
              exact ⟨le_rfl, by simpa [FP.lt_def, leb] using hxy⟩)
            rw [e3] at this
            simp only [Fn.const.injEq] at this
            rw [this]
            exact hF0 x
          refine mul_nonneg hv ?_
          rw [hval, hval, ← mul_sub]
          refine mul_nonneg hu.le ?_
          have : (x : ℚ) ≤ ((y - 1 : ℤ) : ℚ) := by exact_mod_cast (by omega : x ≤ y - 1)
          linarith
        · exact le_rfl
      · exact le_rfl
    have hd : 0 ≤ val (b - 1) - val a := by
      rw [hval, hval, ← mul_sub]
      refine mul_nonneg hu.le ?_
      push_cast
      linarith
    have hw : val b - val a = (val (b - 1) - val a) + u := by rw [hval, hval, hval]; push_cast; ring
    simp only
    rcases eq_or_lt_of_le hd with hz | hz
    · -- a block of a single float
      rw [← hz, div_zero, zero_mul]
      rw [← hz, zero_add] at hw
      rw [hw] at r2
      refine ⟨le_rfl, by linarith, ?_⟩
      linarith
    · refine ⟨div_nonneg hR0 hd, ?_, ?_⟩
      · rw [div_mul_eq_mul_div, div_le_iff₀ hz, r1, hw]
        rw [hw] at r2
        nlinarith
      · rw [← r1, div_mul_eq_mul_div, le_div_iff₀ hz]
        refine mul_le_mul_of_nonneg_left ?_ hR0
        rw [hw]; linarith

/-- The area up to a knot of the approximation. -/
theorem steps_area {V S : ℤ → ℤ → ℚ} {g : ℤ → ℤ → ℚ} (hV : ∀ a b c, a ≤ b → b ≤ c → V a b + V b c = V a c)
    (hS : ∀ a b c, S a b + S b c = S a c) {k : ℤ → Prop}
    (hg : ∀ a b, k a → k b → a < b → g a b * (val b - val a) ≤ S a b ∧ S a b - V a b ≤ g a b * (val b - val a)) :
    ∀ (ks : List ℤ) (a : ℤ), (a :: ks).Pairwise (· < ·) → (∀ x ∈ a :: ks, k x) → ∀ n ∈ a :: ks,
      area val n (stepsOf g (a :: ks)) ≤ S a n ∧ S a n - V a n ≤ area val n (stepsOf g (a :: ks))
  | [], a, _, _, n, hn => by
    rw [List.mem_singleton] at hn
    subst hn
    have h1 := hS n n n
    have h2 := hV n n n le_rfl le_rfl
    simp only [stepsOf, area]
    constructor <;> linarith
  | b :: ks, a, hp, hk, n, hn => by
    have hab : a < b := (List.pairwise_cons.1 hp).1 b (by simp)
    have hp' := (List.pairwise_cons.1 hp).2
    obtain ⟨g1, g2⟩ := hg a b (hk a (by simp)) (hk b (by simp)) hab
    have ih := steps_area hV hS hg ks b hp' (fun x hx => hk x (List.mem_cons_of_mem _ hx))
    obtain ⟨v, r, hr⟩ : ∃ v r, stepsOf g (b :: ks) = (b, v) :: r := by
      cases ks with
      | nil => exact ⟨_, _, rfl⟩
      | cons c ks => exact ⟨_, _, rfl⟩
    have hpr : ((b, v) :: r).Pairwise (fun s t => s.1 < t.1) := by
      have := stepsOf_fst g (b :: ks)
      rw [← List.pairwise_map (R := (· < ·)), ← hr, this]
      exact hp'
    have hbn : ∀ x ∈ b :: ks, b ≤ x := fun x hx => by
      rcases List.mem_cons.1 hx with rfl | hx
      · exact le_rfl
      · exact ((List.pairwise_cons.1 hp').1 x hx).le
    rcases List.mem_cons.1 hn with rfl | hn
    · have h1 := hS n n n
      have h2 := hV n n n le_rfl le_rfl
      rw [stepsOf, hr, area, area_before r b v hab.le hpr, show max n (min n b) = n by omega, sub_self, mul_zero, add_zero]
      constructor <;> linarith
    · obtain ⟨i1, i2⟩ := ih n hn
      have hb := hbn n hn
      rw [hr] at i1 i2
      rw [stepsOf, hr, area, show max a (min n b) = b by omega]
      have h1 := hS a b n
      have h2 := hV a b n hab.le hb
      constructor <;> linarith

end Verif.Num
