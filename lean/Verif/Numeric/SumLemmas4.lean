import Verif.Numeric.SumLemmas3

/-!
# The distribution with a rectified density
-/

namespace Verif.Num

open Iv Iv.FP Fun Fun.PF

variable {val : ℤ → ℚ} {u : ℚ}

/-! ### Step functions -/

theorem int_below (L : List ℤ) (a : ℤ) : ∃ n, n ≤ a ∧ ∀ s ∈ L, n < s := by
  induction L with
  | nil => exact ⟨a, le_rfl, by simp⟩
  | cons b L ih =>
    obtain ⟨n, h1, h2⟩ := ih
    refine ⟨min n (b - 1), by omega, fun s hs => ?_⟩
    rcases List.mem_cons.1 hs with rfl | hs
    · omega
    · have := h2 s hs; omega

theorem int_above (L : List ℤ) (a : ℤ) : ∃ n, a ≤ n ∧ ∀ s ∈ L, s ≤ n := by
  induction L with
  | nil => exact ⟨a, le_rfl, by simp⟩
  | cons b L ih =>
    obtain ⟨n, h1, h2⟩ := ih
    refine ⟨max n b, by omega, fun s hs => ?_⟩
    rcases List.mem_cons.1 hs with rfl | hs
    · omega
    · have := h2 s hs; omega

theorem tileAt_first {f : Fn} {L : List (ℤ × Fn)} {n : ℤ} (h : ∀ s ∈ L, n < s.1) : tileAt f L n = f := by
  cases L with
  | nil => rfl
  | cons a r => obtain ⟨k, v⟩ := a; simp [tileAt, h (k, v) (by simp)]

theorem tileAt_end {n : ℤ} : ∀ {L : List (ℤ × Fn)} {f : Fn}, (∀ s ∈ L, s.1 ≤ n) →
    tileAt f L n = ((L.getLast?).map Prod.snd).getD f
  | [], f, _ => rfl
  | [(k, v)], f, h => by
    have := h (k, v) (by simp)
    simp only at this
    simp [tileAt, not_lt.2 this]
  | (k, v) :: b :: r, f, h => by
    have h1 := h (k, v) (by simp)
    simp only at h1
    rw [tileAt, if_neg (not_lt.2 h1), tileAt_end (L := b :: r) (fun s hs => h s (List.mem_cons_of_mem _ hs))]
    rw [List.getLast?_cons_cons]
    cases e : (b :: r).getLast? with
    | none => simp at e
    | some x => rfl

theorem tile_fns {P : Fn → Prop} {hi : FP} : ∀ {L : List (ℤ × Fn)} {lo : FP} {f : Fn},
    (∀ s ∈ tile lo f L hi, P s.2) → P f ∧ ∀ s ∈ L, P s.2
  | [], lo, f, h => ⟨h (_, f) (List.mem_singleton.2 rfl), by simp⟩
  | (k, g) :: L, lo, f, h => by
    obtain ⟨h1, h2⟩ := tile_fns (L := L) (lo := fin k) (f := g) (P := P) (hi := hi)
      (fun s hs => h s (by simp [tile, hs]))
    refine ⟨h (_, f) (by simp [tile]; exact .inl rfl), fun s hs => ?_⟩
    rcases List.mem_cons.1 hs with rfl | hs
    · exact h1
    · exact h2 s hs

theorem const_list : ∀ {L : List (ℤ × Fn)}, (∀ s ∈ L, ∃ c, s.2 = .const c) →
    ∃ K : List (ℤ × ℚ), L = K.map (fun s => (s.1, .const s.2))
  | [], _ => ⟨[], rfl⟩
  | (k, g) :: L, h => by
    obtain ⟨K, rfl⟩ := const_list (L := L) (fun s hs => h s (List.mem_cons_of_mem _ hs))
    obtain ⟨c, hc⟩ := h (k, g) (by simp)
    simp only at hc
    exact ⟨(k, c) :: K, by rw [hc]; rfl⟩

/-- A simplified step function is a step function with the same values. -/
theorem simplify_step {K : List (ℤ × ℚ)} (hK : K.Pairwise (fun s t => s.1 < t.1)) :
    ∃ K' : List (ℤ × ℚ), simplify (stepFn K) = .ok (stepFn K') ∧ K'.Pairwise (fun s t => s.1 < t.1) ∧
      ∀ n, PF.stepAt 0 K' n = PF.stepAt 0 K n := by
  have hs := stepFn_isStep hK
  obtain ⟨r, hr⟩ := simplify_ok (p := stepFn K) (fun s h => norm_ne (hs.ho s h)) hs.disj (fun s h t h' => by
    obtain ⟨c, e⟩ := hs.fns s h
    obtain ⟨c', e'⟩ := hs.fns t h'
    exact ⟨_, by rw [e, e']; rfl⟩)
  obtain ⟨h1, h2, h3⟩ := simplify_spec (val := fun _ => 0) (fun s h => norm_ne (hs.ho s h)) hr
  have h4 := simplify_halfOpen hs.ho hr
  have h5 := simplify_fns (P := fun f => ∃ c, f = .const c) hs.fns hr
  have hval : ∀ n, r.Value (fun _ => 0) n (some (PF.stepAt 0 K n)) := fun n => by
    obtain ⟨s, g1, g2, g3⟩ := hs.val n
    exact (h1 n _).2 ⟨s, g1, g2, by rw [g3]; rfl⟩
  obtain ⟨f, L, rfl, g1, -⟩ := tile_of_sorted (p := r) (lo := ninf) (by simp) h4 h3 (fun s _ => by simp [FP.le_def, leb])
    (fun n _ => by
      obtain ⟨s, a1, a2, -⟩ := hval n
      exact ⟨s, a1, a2⟩)
  obtain ⟨⟨c, rfl⟩, g3⟩ := tile_fns (P := fun f => ∃ c, f = .const c) h5
  obtain ⟨K', rfl⟩ := const_list g3
  have hev : ∀ n, PF.stepAt c K' n = PF.stepAt 0 K n := fun n => by
    have e1 := (eval_ok_iff (sorted_disj h3)).2 (hval n)
    rw [tile_eval, tileAt_step] at e1
    simpa [Fn.eval] using e1
  have hc : c = 0 := by
    obtain ⟨n, -, hn⟩ := int_below (K'.map Prod.fst ++ K.map Prod.fst) 0
    have := hev n
    rw [stepAt_before (fun s hs => hn _ (List.mem_append_left _ (List.mem_map_of_mem hs))),
      stepAt_before (fun s hs => hn _ (List.mem_append_right _ (List.mem_map_of_mem hs)))] at this
    exact this
  subst hc
  refine ⟨K', hr, ?_, hev⟩
  unfold Knots at g1
  rw [List.pairwise_map] at g1
  exact g1

theorem toDens_step : ∀ {K : List (ℤ × ℚ)} {lo : FP} {v : ℚ},
    toDens (tile lo (.const v) (K.map (fun s => (s.1, .const s.2))) pinf) = .ok (stepDens lo v K)
  | [], lo, v => rfl
  | (k, w) :: K, lo, v => by
    have := toDens_step (K := K) (lo := fin k) (v := w)
    unfold toDens at this ⊢
    simp only [List.map_cons, tile, List.mapM_cons, this, bind, Except.bind, pure, Except.pure, stepDens]

theorem toPF_step : ∀ {K : List (ℤ × ℚ)} {lo : FP} {v : ℚ},
    toPF (stepDens lo v K) = some (tile lo (.const v) (K.map (fun s => (s.1, .const s.2))) pinf)
  | [], lo, v => rfl
  | (k, w) :: K, lo, v => by
    have := toPF_step (K := K) (lo := fin k) (v := w)
    unfold toPF at this ⊢
    simp only [List.map_cons, tile, List.mapM_cons, this, bind, Option.bind, pure, stepDens]

theorem stepDens_finite : ∀ {K : List (ℤ × ℚ)} {lo : FP} {v : ℚ}, ∀ s ∈ stepDens lo v K, ∃ w : ℚ, s.2 = .fin w
  | [], lo, v, s, hs => by simp only [stepDens, List.mem_singleton] at hs; exact ⟨v, by rw [hs]⟩
  | (k, w) :: K, lo, v, s, hs => by
    rcases List.mem_cons.1 hs with rfl | hs
    · exact ⟨v, rfl⟩
    · exact stepDens_finite s hs

theorem impulse_step {K : List (ℤ × ℚ)} {lo : FP} {v : ℚ} : impulseDens (stepDens lo v K) = false := by
  by_contra h
  rw [Bool.not_eq_false] at h
  have hf := stepDens_finite (K := K) (lo := lo) (v := v)
  revert h hf
  generalize stepDens lo v K = d
  intro h hf
  match d, h, hf with
  | [s, t, w], h, hf =>
    obtain ⟨x, hx⟩ := hf t (by simp)
    simp [impulseDens, hx] at h

/-! ### Rectifying, simplifying and integrating -/

theorem plain_const {f : Fn} (hf : Plain f) (hval : ∀ n, val n = u * n) (hu : u ≠ 0) {n : ℤ}
    (h1 : f.eval (val n) = some 0) (h2 : f.eval (val (n + 1)) = some 0) : f = .const 0 := by
  rcases hf with ⟨c, rfl⟩ | ⟨m, c, rfl, hm⟩
  · simp only [Fn.eval, Option.some.injEq] at h1
    rw [h1]
  · exfalso
    simp only [Fn.eval, Option.some.injEq] at h1 h2
    rw [hval] at h1 h2
    push_cast at h2
    exact mul_ne_zero hm hu (by linarith)

/-- The cdf that belongs to a piecewise linear function with the values `W`. -/
theorem fromRectified_spec (hval : ∀ n, val n = u * n) (hu : 0 < u) {pick : CS → ℤ}
    (hpick : ∀ z, z ≤ pick ⟨fin z, pinf, .inc, .exc⟩) {r : PF} {W : ℤ → ℚ}
    (hr : r.Pairwise (fun s t => RS.Before s.1 t.1)) (hh : ∀ s ∈ r, s.1.HalfOpen ∧ Plain s.2)
    (hW : ∀ n, r.eval val n = .ok (some (W n))) {lo hi : ℤ} (h0 : ∀ n, ¬ (lo ≤ n ∧ n < hi) → W n = 0)
    (hpos : ∀ n, 0 ≤ W n) (hT0 : 0 < u * cumul W lo hi) (hT : u * cumul W lo hi ≤ 1 + tol) :
    ∃ (c : PF) (Q : ℤ → ℚ) (S : List ℤ), fromRectified val pick r = .ok c ∧ (∀ n, 0 ≤ Q n) ∧
      (∀ n, n < lo - 1 ∨ hi < n → Q n = 0) ∧ (∀ n, n ∉ S → Q n = Q (n - 1)) ∧
      (∀ n ∈ S, cumul Q (lo - 1) n = cumul W (lo - 1) n) ∧ cumul Q (lo - 1) (hi + 1) = cumul W lo hi ∧
      ∀ n, c.eval val n = .ok (some (u * cumul Q (lo - 1) n / (u * cumul W lo hi))) := by
  have hu0 : u ≠ 0 := ne_of_gt hu
  have hcover : ∀ n, ∃ s ∈ r, s.1.Mem (fin n) := fun n => by
    obtain ⟨s, a1, a2, -⟩ := (eval_ok_iff (sorted_disj hr)).1 (hW n)
    exact ⟨s, a1, a2⟩
  obtain ⟨f, L, rfl, hL, -⟩ := tile_of_sorted (p := r) (lo := ninf) (by simp) (fun s hs => (hh s hs).1) hr
    (fun s _ => by simp [FP.le_def, leb]) (fun n _ => hcover n)
  obtain ⟨pf, pL⟩ := tile_fns (P := Plain) (fun s hs => (hh s hs).2)
  have hev : ∀ n, (tileAt f L n).eval (val n) = some (W n) := fun n => by
    have := hW n
    rw [tile_eval] at this
    simpa using this
  -- the first piece
  obtain rfl : f = .const 0 := by
    obtain ⟨n, h1, h2⟩ := int_below (L.map Prod.fst) (lo - 2)
    have h2' : ∀ s ∈ L, n < s.1 := fun s hs => h2 _ (List.mem_map_of_mem hs)
    have e1 := hev (n - 1)
    have e2 := hev (n - 1 + 1)
    rw [tileAt_first (fun s hs => by have := h2' s hs; omega), h0 _ (by omega)] at e1
    rw [tileAt_first (fun s hs => by have := h2' s hs; omega), h0 _ (by omega)] at e2
    exact plain_const pf hval hu0 e1 e2
  cases L with
  | nil =>
    exfalso
    have : cumul W lo hi = 0 := Finset.sum_eq_zero (fun n _ => by
      have := hev n
      simpa [tileAt, Fn.eval] using this.symm)
    rw [this, mul_zero] at hT0
    exact lt_irrefl _ hT0
  | cons s L =>
    obtain ⟨k, g⟩ := s
    -- the last piece
    have hlast : ∃ z c, ((k, g) :: L).getLast? = some (z, .const c) := by
      cases hl : ((k, g) :: L).getLast? with
      | none => simp at hl
      | some z =>
        obtain ⟨n, h1, h2⟩ := int_above (((k, g) :: L).map Prod.fst) hi
        have h2' : ∀ s ∈ (k, g) :: L, s.1 ≤ n := fun s hs => h2 _ (List.mem_map_of_mem hs)
        have e1 := hev n
        have e2 := hev (n + 1)
        rw [tileAt_end h2', hl, h0 _ (by omega)] at e1
        rw [tileAt_end (fun s hs => by have := h2' s hs; omega), hl, h0 _ (by omega)] at e2
        refine ⟨z.1, 0, ?_⟩
        have : z.2 = .const 0 := plain_const (pL z (List.mem_of_getLast? hl)) hval hu0 e1 e2
        rw [← this]
    have hevk : ∀ n, k ≤ n → (tileAt g L n).eval (val n) = some (W n) := fun n hn => by
      have := hev n
      simpa [tileAt, not_lt.2 hn] using this
    obtain ⟨v, K, e1, e2, e3, e4, e5, e6⟩ := rectify_from hval hu0 L k g hL pL hlast hevk
    have hWk : ∀ n, n < k → W n = 0 := fun n hn => by
      have := hev n
      simpa [tileAt, hn, Fn.eval] using this.symm
    set K₀ : List (ℤ × ℚ) := (k, v) :: K with hK₀
    have hfst : K₀.map Prod.fst = ((k, g) :: L).map Prod.fst := by simp [hK₀, e2]
    have hrect : rectify val (tile ninf (.const 0) ((k, g) :: L) pinf) = .ok (stepFn K₀) := by
      unfold rectify at e1 ⊢
      unfold stepFn
      simp only [tile, List.mapM_cons, rectifyPiece, e1, bind, Except.bind, pure, Except.pure, List.map_cons, hK₀]
    have hpw : K₀.Pairwise (fun s t => s.1 < t.1) := by
      have := List.pairwise_map.2 hL
      rw [← hfst, List.pairwise_map] at this
      exact this
    obtain ⟨K', d1, d2, d3⟩ := simplify_step hpw
    -- the values of the rectified function
    have hQk : ∀ n, k ≤ n → PF.stepAt 0 K₀ n = PF.stepAt v K n := fun n hn => by simp [hK₀, PF.stepAt, not_lt.2 hn]
    have hQb : ∀ n, n < k → PF.stepAt 0 K₀ n = 0 := fun n hn => by simp [hK₀, PF.stepAt, hn]
    have hQpos : ∀ n, 0 ≤ PF.stepAt 0 K₀ n := fun n => by
      by_cases hn : n < k
      · rw [hQb n hn]
      · rw [hQk n (by omega)]
        obtain ⟨i, j, -, -, e⟩ := e4 n
        rw [e]
        have := hpos i
        have := hpos j
        linarith
    have hQ0 : ∀ n, n < lo - 1 ∨ hi < n → PF.stepAt 0 K₀ n = 0 := fun n hn => by
      by_cases hk : n < k
      · exact hQb n hk
      · rw [hQk n (by omega)]
        exact e6 n (by omega) (h0 _ (by omega)) (fun _ => h0 _ (by omega)) (h0 _ (by omega))
    have hWlo : ∀ n, n < lo - 1 → W n = 0 := fun n hn => h0 n (by omega)
    have hS : ∀ n ∈ K₀.map Prod.fst, cumul (PF.stepAt 0 K₀) (lo - 1) n = cumul W (lo - 1) n := fun n hn => by
      rw [cumul_shift (b := k) (fun j hj => hQ0 j (.inl hj)) hQb, cumul_shift (F := W) (b := k) hWlo hWk]
      rw [hfst] at hn
      rw [← e3 n (by simpa using hn)]
      exact cumul_congr (fun j hj _ => hQk j hj)
    -- the whole
    have hbig : ∀ n, (∀ s ∈ K₀, s.1 ≤ n) → hi ≤ n → PF.stepAt 0 K₀ n = 0 := fun n h1 h2 => by
      have hk : k ≤ n := h1 (k, v) (by simp [hK₀])
      rw [hQk n hk, e5 n (fun s hs => ?_)]
      · exact h0 n (by omega)
      · have : s.1 ∈ K₀.map Prod.fst := by rw [hfst]; exact List.mem_map_of_mem hs
        obtain ⟨t, ht, e⟩ := List.mem_map.1 this
        rw [← e]
        exact h1 t ht
    have hWall : ∀ n, hi ≤ n → cumul W (lo - 1) n = cumul W lo hi := fun n hn => by
      rw [cumul_shift (b := lo) hWlo (fun j hj => h0 j (by omega))]
      rcases le_total lo hi with h | h
      · rw [cumul_split h hn, cumul_const (F := W) (v := 0) hn (fun j h1 _ => h0 j (by omega)), mul_zero, add_zero]
      · rw [cumul_empty h]
        exact Finset.sum_eq_zero (fun j _ => h0 j (by omega))
    have hQall : ∀ n, hi + 1 ≤ n → cumul (PF.stepAt 0 K₀) (lo - 1) n = cumul W lo hi := by
      -- the last knot
      obtain ⟨z, c, hz⟩ := hlast
      have hzm : z ∈ K₀.map Prod.fst := by
        rw [hfst]
        exact List.mem_map_of_mem (f := Prod.fst) (List.mem_of_getLast? hz)
      have hzl : ∀ s ∈ K₀, s.1 ≤ z := by
        intro s hs
        have hs' : s.1 ∈ ((k, g) :: L).map Prod.fst := by rw [← hfst]; exact List.mem_map_of_mem hs
        obtain ⟨t, ht, e⟩ := List.mem_map.1 hs'
        rw [← e]
        obtain ⟨l, hl⟩ := List.getLast?_eq_some_iff.1 hz
        rw [hl] at ht
        unfold Knots at hL
        rw [hl] at hL
        rcases List.mem_append.1 ht with h | h
        · exact ((List.pairwise_append.1 hL).2.2 t h (z, .const c) (by simp)).le
        · simp only [List.mem_singleton] at h; rw [h]
      have hzQ : ∀ n, z ≤ n → PF.stepAt 0 K₀ n = 0 := fun n hn => by
        obtain ⟨m, hm1, hm2⟩ := int_above [] (max hi n)
        have e := hbig m (fun s hs => by have := hzl s hs; omega) (by omega)
        rw [stepAt_after (fun s hs => by have := hzl s hs; omega)] at e ⊢
        exact e
      have hzW : ∀ n, z ≤ n → W n = 0 := fun n hn => by
        rw [← e5 n (fun s hs => ?_), ← hQk n (by have := hzl (k, v) (by simp [hK₀]); simp only at this; omega), hzQ n hn]
        have : s.1 ∈ K₀.map Prod.fst := by rw [hfst]; exact List.mem_map_of_mem hs
        obtain ⟨t, ht, e⟩ := List.mem_map.1 this
        rw [← e]
        exact le_trans (hzl t ht) hn
      intro n hn
      have hsp : ∀ {F : ℤ → ℚ}, (∀ j, z ≤ j → F j = 0) → (∀ j, hi < j → F j = 0) →
          cumul F (lo - 1) n = cumul F (lo - 1) z := fun {F} g1 g2 => by
        rcases le_total (lo - 1) z with h | h
        · rcases le_total z n with h' | h'
          · rw [cumul_split h h', cumul_const (F := F) (v := 0) h' (fun j h1 _ => g1 j h1), mul_zero, add_zero]
          · rcases le_total (lo - 1) n with h'' | h''
            · rw [cumul_split (F := F) h'' h', cumul_const (F := F) (v := 0) h' (fun j h1 _ => g2 j (by omega)), mul_zero,
                add_zero]
            · rw [cumul_empty h'']
              exact (Finset.sum_eq_zero (fun j hj => g2 j (by rw [Finset.mem_Ico] at hj; omega))).symm
        · rw [cumul_empty h]
          exact Finset.sum_eq_zero (fun j hj => g1 j (by rw [Finset.mem_Ico] at hj; omega))
      rw [hsp hzQ (fun j hj => hQ0 j (.inr hj)), hS z hzm, ← hsp hzW (fun j hj => h0 j (by omega)), hWall n (by omega)]
    -- the density
    have hbump : IsBump K' := by
      refine ⟨d2, ?_⟩
      cases hl : K'.getLast? with
      | none =>
        exfalso
        rw [List.getLast?_eq_none_iff] at hl
        subst hl
        have : cumul (PF.stepAt 0 K₀) (lo - 1) (hi + 1) = 0 := Finset.sum_eq_zero (fun n _ => (d3 n).symm)
        rw [hQall _ le_rfl] at this
        rw [this, mul_zero] at hT0
        exact lt_irrefl _ hT0
      | some z =>
        obtain ⟨n, hn1, hn2⟩ := int_above (K'.map Prod.fst) (hi + 1)
        have e := d3 n
        rw [hQ0 n (.inr (by omega)), stepAt_after (fun s hs => hn2 _ (List.mem_map_of_mem hs)), hl] at e
        simp only [Option.map_some, Option.getD_some] at e
        simp [e]
    have hfun : PF.stepAt 0 K' = PF.stepAt 0 K₀ := funext d3
    have harea : ∀ n, area val n K' = u * cumul (PF.stepAt 0 K₀) (lo - 1) n := fun n => by
      rw [area_step hval hbump (a := lo - 1) (fun j hj => by rw [hfun]; exact hQ0 j (.inl hj)), hfun]
    obtain ⟨n₁, hn1, hn2⟩ := int_above (K'.map Prod.fst) (hi + 1)
    have hall : areaAll val K' = u * cumul W lo hi := by
      rw [← area_end (n := n₁) K' d2 (fun s hs => hn2 _ (List.mem_map_of_mem hs)), harea, hQall _ hn1]
    obtain ⟨z, hz⟩ : ∃ z, K'.getLast? = some (z, 0) := by
      have := hbump.2
      cases hl : K'.getLast? with
      | none => simp [hl] at this
      | some z => rw [hl] at this; simp only [Option.map_some, Option.some.injEq] at this; exact ⟨z.1, by rw [← this]⟩
    obtain ⟨c, hc1, hc2, -⟩ := (C82_density (val := val) pick hpick K' d2 z hz).2.2 (by rw [hall]; exact hT)
      (by rw [hall]; exact ne_of_gt hT0)
    refine ⟨c, PF.stepAt 0 K₀, K₀.map Prod.fst, ?_, hQpos, hQ0, fun n hn => step_flat hpw hn, hS, hQall _ le_rfl, fun n => ?_⟩
    · have ht : toDens (stepFn K') = .ok (stepDens ninf 0 K') := toDens_step
      simp only [fromRectified, hrect, d1, ht, bind, Except.bind, hc1]
    · rw [hc2, harea, hall]

end Verif.Num
