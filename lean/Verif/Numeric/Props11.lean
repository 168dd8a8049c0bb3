import Verif.Numeric.CompareLemmas
import Verif.Numeric.Props4
import Verif.Numeric.JsonLemmas

/-!
# The similarity of numeric distributions: C80
-/

namespace Verif.Num

open Iv Iv.FP Fun

/-- What `pdf` returns for a fitted distribution: a density with steps. -/
theorem fit_density {val : ℤ → ℚ} (hval : StrictMono val) (eps : ℚ) {data s : List ℤ}
    {l r : Option ℤ} (hs : loadBuffer data l r = .ok s) {lo hi : ℤ} (hlo : lo ∈ s) (hhi : hi ∈ s)
    (hlt : lo < hi) (hmin : ∀ x ∈ s, lo ≤ x) (hmax : ∀ x ∈ s, x ≤ hi) :
    ∃ K, fit val eps data l r = .ok (tile ninf (.const 0) K pinf) ∧
      pdf (tile ninf (.const 0) K pinf) = .ok (densOf (tile ninf (.const 0) K pinf)) ∧
      K.getLast? = some (hi + 1, .const 1) ∧ (∀ n, 0 ≤ sl (tileAt (.const 0) K n)) ∧
      lo ∈ K.map Prod.fst ∧ 0 < sl (tileAt (.const 0) K lo) := by
  obtain ⟨pts, p, F, hp, hp', heval, hthr, hrise, hlen, hhead, hlast, hpts⟩ :=
    fit_spec hval (eps := eps) hs hlo hhi hlt hmin hmax
  have hslope := segs_slope hval hrise
  refine ⟨segs val pts ++ [(hi + 1, .const 1)], by rw [hp, hp'], ?_, by simp, ?_, ?_⟩
  · apply pdf_eq
    · apply tile_simple (simple_const 0)
      intro t ht
      rcases List.mem_append.1 ht with h | h
      · exact (hslope t h).2
      · rw [List.mem_singleton.1 h]; exact simple_const 1
    · rw [tile_length]
      match pts, hlen with
      | a :: b :: r, _ => simp [segs]
  · intro n
    rcases tileAt_mem (n := n) (L := segs val pts ++ [(hi + 1, Fn.const 1)]) (f := .const 0) with h | ⟨t, ht, h⟩
    · rw [h]; exact le_rfl
    · rw [h]
      rcases List.mem_append.1 ht with h | h
      · exact (hslope t h).1.le
      · rw [List.mem_singleton.1 h]; exact le_rfl
  · obtain ⟨a, b, r, rfl⟩ : ∃ a b r, pts = a :: b :: r := by
      match pts, hlen with
      | a :: b :: r, _ => exact ⟨a, b, r, rfl⟩
    simp only [List.head?_cons, Option.some.injEq] at hhead
    subst hhead
    have hab := (List.pairwise_cons.1 hrise).1 b (by simp)
    have h0 := hslope _ (by simp only [segs, List.mem_cons]; exact .inl rfl)
    refine ⟨by simp [segs], ?_⟩
    simp only [segs, List.cons_append, tileAt, lt_irrefl, if_false]
    have hk : ∀ t ∈ segs val (b :: r) ++ [(hi + 1, Fn.const 1)], lo < t.1 := by
      intro t ht
      rcases List.mem_append.1 ht with h | h
      · obtain ⟨q, hq, h1⟩ := segs_mem h
        rw [h1]
        exact ((List.pairwise_cons.1 hrise).1 q (List.mem_of_mem_dropLast hq)).1
      · rw [List.mem_singleton.1 h]
        show lo < hi + 1
        omega
    rw [tileAt_low hk]
    exact h0.1

theorem stepSum_sub (x f g : ℤ → ℚ) : ∀ P : List ℤ,
    stepSum x (fun n => f n - g n) P = stepSum x f P - stepSum x g P
  | [] => by simp [stepSum]
  | [_] => by simp [stepSum]
  | a :: b :: r => by
    have := stepSum_sub x f g (b :: r)
    simp only [stepSum, this]
    ring

/-- Every number lies before the first point, from the last point on, or between a point and the next. -/
theorem steps_where {P : List ℤ} (hP : P.Pairwise (· < ·)) (n : ℤ) : (∀ b ∈ P, n < b) ∨ (∀ b ∈ P, b ≤ n) ∨
    ∃ a ∈ P.dropLast, a ≤ n ∧ ∀ b ∈ P, b ≤ a ∨ n < b := by
  induction P with
  | nil => left; simp
  | cons a r ih =>
    have hP' := List.pairwise_cons.1 hP
    by_cases han : n < a
    · left
      intro b hb
      rcases List.mem_cons.1 hb with rfl | hb
      · exact han
      · exact han.trans (hP'.1 b hb)
    · right
      rcases ih hP'.2 with h | h | ⟨c, hc, h1, h2⟩
      · cases r with
        | nil => left; intro b hb; rw [List.mem_singleton.1 hb]; omega
        | cons c r =>
          right
          refine ⟨a, by simp, by omega, ?_⟩
          intro b hb
          rcases List.mem_cons.1 hb with rfl | hb
          · exact .inl le_rfl
          · exact .inr (h b hb)
      · left
        intro b hb
        rcases List.mem_cons.1 hb with rfl | hb
        · omega
        · exact h b hb
      · right
        cases r with
        | nil => simp at hc
        | cons d r =>
          refine ⟨c, by rw [List.dropLast_cons_cons]; exact List.mem_cons_of_mem _ hc, h1, ?_⟩
          intro b hb
          rcases List.mem_cons.1 hb with rfl | hb
          · exact .inl (hP'.1 c (List.mem_of_mem_dropLast hc)).le
          · exact h2 b hb

theorem steps_eq {f g : ℤ → ℚ} {P : List ℤ} (hf : Steps f P) (hg : Steps g P) (R : ℚ → ℚ → Prop) (h0 : R 0 0) :
    (∀ a ∈ P.dropLast, R (f a) (g a)) ↔ ∀ n, R (f n) (g n) := by
  constructor
  · intro h n
    rcases steps_where hf.incr n with h1 | h1 | ⟨a, ha, h1, h2⟩
    · rw [hf.before n h1, hg.before n h1]; exact h0
    · rw [hf.after n h1, hg.after n h1]; exact h0
    · rw [hf.const a n (List.mem_of_mem_dropLast ha) h1 h2, hg.const a n (List.mem_of_mem_dropLast ha) h1 h2]
      exact h a ha
  · intro h a _
    exact h a

/-- The similarity of two distributions that were fitted to samples with at least two different values each: their
densities are constant between the points of `P`, and the similarity is the integral of the lesser density divided by
that of the greater.  It is symmetric, lies between 0 and 1, is 0 exactly if there is no place where both densities
are positive, and 1 exactly if the densities are equal.  `rnd` is the float next to a number; the middle of two points
must not be rounded to the greater one. -/
theorem C80_jaccard_partial {val : ℤ → ℚ} (hval : StrictMono val) (eps eps' : ℚ) (data data' : List ℤ)
    (l r l' r' : Option ℤ) (hl : ∀ v ∈ l, ∀ x ∈ data, v < x) (hr : ∀ v ∈ r, ∀ x ∈ data, x < v)
    (hl' : ∀ v ∈ l', ∀ x ∈ data', v < x) (hr' : ∀ v ∈ r', ∀ x ∈ data', x < v)
    (h2 : ∃ a ∈ sample data l r, ∃ b ∈ sample data l r, a ≠ b)
    (h2' : ∃ a ∈ sample data' l' r', ∃ b ∈ sample data' l' r', a ≠ b) :
    ∃ (p q : PF) (d e : Dens) (f g : ℤ → ℚ) (P : List ℤ),
      fit val eps data l r = .ok p ∧ fit val eps' data' l' r' = .ok q ∧ pdf p = .ok d ∧ pdf q = .ok e ∧
      (∀ n, densAt d (fin n) = .ok (.fin (f n))) ∧ (∀ n, densAt e (fin n) = .ok (.fin (g n))) ∧
      (∀ n, 0 ≤ f n) ∧ (∀ n, 0 ≤ g n) ∧ Steps f P ∧ Steps g P ∧
      ∀ rnd : ℚ → ℤ,
        (∀ a ∈ P, ∀ b ∈ P, a < b → a ≤ rnd ((val a + val b) / 2) ∧ rnd ((val a + val b) / 2) < b) →
        ∃ x, x = stepSum val (fun n => min (f n) (g n)) P / stepSum val (fun n => max (f n) (g n)) P ∧
          jaccard val rnd false d e = .ok (some x) ∧ jaccard val rnd false e d = .ok (some x) ∧
          0 ≤ x ∧ x ≤ 1 ∧ (x = 0 ↔ ∀ n, f n = 0 ∨ g n = 0) ∧ (x = 1 ↔ f = g) := by
  have key : ∀ (eps : ℚ) (data : List ℤ) (l r : Option ℤ), (∀ v ∈ l, ∀ x ∈ data, v < x) →
      (∀ v ∈ r, ∀ x ∈ data, x < v) → (∃ a ∈ sample data l r, ∃ b ∈ sample data l r, a ≠ b) →
      ∃ (K : List (ℤ × Fn)) (lo : ℤ) (z : ℤ × Fn), fit val eps data l r = .ok (tile ninf (.const 0) K pinf) ∧
        pdf (tile ninf (.const 0) K pinf) = .ok (densOf (tile ninf (.const 0) K pinf)) ∧ K.getLast? = some z ∧
        sl z.2 = 0 ∧ (∀ n, 0 ≤ sl (tileAt (.const 0) K n)) ∧ lo ∈ K.map Prod.fst ∧ z.1 ∈ K.map Prod.fst ∧ lo < z.1 ∧
        0 < sl (tileAt (.const 0) K lo) := by
    rintro eps data l r hl hr ⟨a, ha, b, hb, hab⟩
    have hne : sample data l r ≠ [] := List.ne_nil_of_mem ha
    obtain ⟨lo, hlo, hmin⟩ := exists_least hne
    obtain ⟨hi, hhi, hmax⟩ := exists_greatest hne
    have hlt : lo < hi := by
      have := hmin a ha; have := hmin b hb; have := hmax a ha; have := hmax b hb
      omega
    obtain ⟨K, k1, k2, k3, k4, k5, k6⟩ := fit_density hval eps (loadBuffer_ok hl hr) hlo hhi hlt hmin hmax
    exact ⟨K, lo, _, k1, k2, k3, rfl, k4, k5, List.mem_map_of_mem (List.mem_of_getLast? k3), by show lo < hi + 1; omega, k6⟩
  obtain ⟨K, lo, z, k1, k2, k3, k4, k5, k6, k7, k8, k9⟩ := key eps data l r hl hr h2
  obtain ⟨K', lo', z', j1, j2, j3, j4, j5, j6, j7, j8, j9⟩ := key eps' data' l' r' hl' hr' h2'
  obtain ⟨hP, hPm⟩ := sortedSet_spec (K.map Prod.fst ++ K'.map Prod.fst)
  have sf := steps_of k3 k4 hP (fun s hs => (hPm s.1).2 (List.mem_append_left _ (List.mem_map_of_mem hs)))
  have sg := steps_of j3 j4 hP (fun s hs => (hPm s.1).2 (List.mem_append_right _ (List.mem_map_of_mem hs)))
  refine ⟨_, _, _, _, _, _, sortedSet (K.map Prod.fst ++ K'.map Prod.fst), k1, j1, k2, j2, densAt_tile, densAt_tile,
    k5, j5, sf, sg, ?_⟩
  intro rnd hrnd
  set f : ℤ → ℚ := fun n => sl (tileAt (.const 0) K n) with hf
  set g : ℤ → ℚ := fun n => sl (tileAt (.const 0) K' n) with hg
  set P := sortedSet (K.map Prod.fst ++ K'.map Prod.fst) with hPdef
  have hloP : lo ∈ P := (hPm lo).2 (List.mem_append_left _ k6)
  have hzP : z.1 ∈ P := (hPm z.1).2 (List.mem_append_left _ k7)
  have hlen : ¬ P.length < 2 := by
    intro hc
    match P, hc with
    | [], _ => simp at hloP
    | [a], _ => simp at hloP hzP; omega
  have hlod : lo ∈ P.dropLast := by
    have hne : P ≠ [] := List.ne_nil_of_mem hloP
    by_contra hc
    have h1 : P.dropLast ++ [P.getLast hne] = P := List.dropLast_append_getLast hne
    have h3 : lo = P.getLast hne := by
      rw [← h1] at hloP
      rcases List.mem_append.1 hloP with h | h
      · exact absurd h hc
      · exact List.mem_singleton.1 h
    have h4 : ∀ b ∈ P, b ≤ lo := by
      intro b hb
      rw [h3]
      rw [← h1] at hb hP
      rcases List.mem_append.1 hb with h | h
      · exact ((List.pairwise_append.1 hP).2.2 b h _ (by simp)).le
      · rw [List.mem_singleton.1 h]
    have := h4 _ hzP
    omega
  have hU : 0 < stepSum val (fun n => max (f n) (g n)) P := by
    refine lt_of_le_of_ne (stepSum_nonneg hval hP (fun a _ => (k5 a).trans (le_max_left _ _))) (fun hc => ?_)
    have := (stepSum_zero_iff hval hP (fun a _ => (k5 a).trans (le_max_left _ _))).1 hc.symm lo hlod
    have h1 : f lo ≤ max (f lo) (g lo) := le_max_left _ _
    have h2 : 0 < f lo := k9
    linarith
  have hI : 0 ≤ stepSum val (fun n => min (f n) (g n)) P := stepSum_nonneg hval hP (fun a _ => le_min (k5 a) (j5 a))
  have hle : stepSum val (fun n => min (f n) (g n)) P ≤ stepSum val (fun n => max (f n) (g n)) P :=
    stepSum_mono hval hP (fun a _ => min_le_max)
  have hj : ∀ {K₁ K₂ : List (ℤ × Fn)} {f₁ f₂ : ℤ → ℚ},
      (∀ n, densAt (densOf (tile ninf (.const 0) K₁ pinf)) (fin n) = .ok (.fin (f₁ n))) →
      (∀ n, densAt (densOf (tile ninf (.const 0) K₂ pinf)) (fin n) = .ok (.fin (f₂ n))) →
      Steps f₁ P → Steps f₂ P → sortedSet (K₁.map Prod.fst ++ K₂.map Prod.fst) = P →
      jaccard val rnd false (densOf (tile ninf (.const 0) K₁ pinf)) (densOf (tile ninf (.const 0) K₂ pinf)) =
        .ok (xratio (.fin (stepSum val (fun n => min (f₁ n) (f₂ n)) P))
          (.fin (stepSum val (fun n => max (f₁ n) (f₂ n)) P))) := by
    intro K₁ K₂ f₁ f₂ hd₁ hd₂ s₁ s₂ hPe
    unfold jaccard
    simp only [Bool.false_eq_true, if_false, bounds_tile, bind, Except.bind, hPe, if_neg hlen,
      areas_eq hval hd₁ hd₂ hP s₁.const s₂.const hrnd]
  refine ⟨_, rfl, ?_, ?_, div_nonneg hI hU.le, (div_le_one hU).2 hle, ?_, ?_⟩
  · rw [hj densAt_tile densAt_tile sf sg rfl]
    simp only [xratio]
    rw [if_neg hU.ne']
  · rw [hj densAt_tile densAt_tile sg sf (sortedSet_comm _ _)]
    have e1 : (fun n => min (g n) (f n)) = fun n => min (f n) (g n) := funext fun n => min_comm _ _
    have e2 : (fun n => max (g n) (f n)) = fun n => max (f n) (g n) := funext fun n => max_comm _ _
    simp only [xratio]
    rw [e1, e2, if_neg hU.ne']
  · rw [div_eq_zero_iff, or_iff_left hU.ne', stepSum_zero_iff hval hP (fun a _ => le_min (k5 a) (j5 a)),
      ← steps_eq sf sg (fun x y => x = 0 ∨ y = 0) (.inl rfl)]
    refine forall₂_congr (fun a _ => ?_)
    have h1 := k5 a
    have h2 := j5 a
    rcases le_total (f a) (g a) with h | h
    · rw [min_eq_left h]
      refine ⟨.inl, ?_⟩
      rintro (h3 | h3)
      · exact h3
      · exact le_antisymm (h3 ▸ h) h1
    · rw [min_eq_right h]
      refine ⟨.inr, ?_⟩
      rintro (h3 | h3)
      · exact le_antisymm (h3 ▸ h) h2
      · exact h3
  · rw [div_eq_one_iff_eq hU.ne', eq_comm, ← sub_eq_zero, ← stepSum_sub val (fun n => max (f n) (g n)) (fun n => min (f n) (g n)),
      stepSum_zero_iff hval hP (fun a _ => sub_nonneg.2 min_le_max), funext_iff, ← steps_eq sf sg (fun x y => x = y) rfl]
    refine forall₂_congr (fun a _ => ?_)
    rw [sub_eq_zero]
    rcases le_total (f a) (g a) with h | h
    · rw [max_eq_right h, min_eq_left h, eq_comm]
    · rw [max_eq_left h, min_eq_right h]

/-- The floor of the middle of two numbers is one that the rounding may return. -/
theorem floor_mid {a b : ℤ} (h : a < b) :
    a ≤ ⌊((ival a + ival b) / 2 : ℚ)⌋ ∧ ⌊((ival a + ival b) / 2 : ℚ)⌋ < b := by
  have : (a : ℚ) < b := by exact_mod_cast h
  constructor
  · rw [Int.le_floor]
    simp only [ival]; linarith
  · rw [Int.floor_lt]
    simp only [ival]; linarith

/-- The uniform distributions on [0, 4] and [2, 6] are neither equal nor disjoint. -/
example : ∃ (p q : PF) (d e : Dens) (f g : ℤ → ℚ), fit ival 0 [0, 4] = .ok p ∧ fit ival 0 [2, 6] = .ok q ∧ pdf p = .ok d ∧ pdf q = .ok e ∧
    (∀ n, densAt d (fin n) = .ok (.fin (f n))) ∧ (∀ n, densAt e (fin n) = .ok (.fin (g n))) ∧
    ∃ x, jaccard ival (fun q => ⌊q⌋) false d e = .ok (some x) ∧ (x = 0 ↔ ∀ n, f n = 0 ∨ g n = 0) ∧ (x = 1 ↔ f = g) := by
  obtain ⟨p, q, d, e, f, g, P, h1, h2, h3, h4, h5, h6, -, -, -, -, h⟩ :=
    C80_jaccard_partial ival_strictMono 0 0 [0, 4] [2, 6] none none none none (by simp) (by simp) (by simp) (by simp)
      (by decide) (by decide)
  obtain ⟨x, -, j1, -, -, -, j4, j5⟩ := h (fun q => ⌊q⌋) (fun a _ b _ hab => floor_mid hab)
  exact ⟨p, q, d, e, f, g, h1, h2, h3, h4, h5, h6, x, j1, j4, j5⟩

example : ((fit ival 0 [0, 4]).toOption.bind (fun p => (pdf p).toOption.bind (fun d =>
    (fit ival 0 [2, 6]).toOption.bind (fun q => (pdf q).toOption.bind (fun e =>
      (jaccard ival Rat.floor false d e).toOption))))) = some (some (3 / 7)) := by decide +kernel

/-! ## Distributions at one point -/

/-- The density of a distribution that has one value only. -/
theorem jump_dens (x : ℤ) : ∃ d, pdf (jumpCdf x) = .ok d ∧
    (∀ n, densAt d (fin n) = .ok (if n = x then .pinf else .fin 0)) ∧ bounds (d.map Prod.fst) = .ok [x, x + 1] := by
  refine ⟨_, rfl, fun n => ?_, ?_⟩
  · simp only [densAt, impulse, PF.hit_fin, FP.up]
    have hc : ∀ (a b : FP) (l r : Br), (⟨a, b, l, r⟩ : CS).containsValue (fin n) =
      decide ((⟨a, b, l, r⟩ : CS).Mem (fin n)) := fun a b l r => by
        rw [Bool.eq_iff_iff, decide_eq_true_iff, CS.containsValue_iff]
    simp only [hc, CS.Mem, FP.lt_def, leb]
    rcases lt_trichotomy n x with h | rfl | h
    · have h1 : ¬ x ≤ n := by omega
      simp [h1, h.ne]
    · simp
    · have h1 : x ≤ n := by omega
      have h2 : x + 1 ≤ n := by omega
      have h3 : x + 1 < n ∨ x + 1 = n := by omega
      simp [h1, h.ne', h2]
      rw [if_pos h3]
  · simp [impulse, bounds, joints, CS.contiguous, FP.up, CS.lowermost, Br.code]

theorem xmin_fin {a b : XQ} (ha : a ≠ .ninf) (hb : b ≠ .ninf) (h : a ≠ .pinf ∨ b ≠ .pinf) : ∃ v, xmin a b = .fin v := by
  cases a <;> cases b <;> simp_all [xmin, XQ.le]
  split <;> simp

theorem xmax_ne {a b : XQ} (ha : a ≠ .ninf) (hb : b ≠ .ninf) : xmax a b ≠ .ninf := by
  cases a <;> cases b <;> simp_all [xmax, XQ.le]
  split <;> simp

theorem xmax_inf {a b : XQ} (h : a = .pinf ∨ b = .pinf) : xmax a b = .pinf := by
  rcases h with rfl | rfl
  · cases b <;> rfl
  · cases a <;> rfl

theorem xsum_ne {w : ℚ} {a b : XQ} (ha : a ≠ .ninf) (hb : b ≠ .ninf) : xadd (xscale w a) b ≠ .ninf := by
  cases a <;> cases b <;> simp_all [xscale, XQ.map, xadd]

theorem xsum_inf {w : ℚ} {a b : XQ} (h : a = .pinf ∨ b = .pinf) : xadd (xscale w a) b = .pinf := by
  rcases h with rfl | rfl
  · cases b <;> rfl
  · cases a <;> rfl

/-- The sums of the areas when one of the densities is infinite at a place: the common area is finite and the area of
the greater density is infinite. -/
theorem areas_inf {val : ℤ → ℚ} {rnd : ℚ → ℤ} {d e : Dens} {F G : ℤ → XQ}
    (hd : ∀ n, densAt d (fin n) = .ok (F n)) (he : ∀ n, densAt e (fin n) = .ok (G n))
    (hF : ∀ n, F n ≠ .ninf) (hG : ∀ n, G n ≠ .ninf) (hfin : ∀ n, F n ≠ .pinf ∨ G n ≠ .pinf) : ∀ {P : List ℤ},
    P.Pairwise (· < ·) →
    (∀ a ∈ P, ∀ b ∈ P, a < b → a ≤ rnd ((val a + val b) / 2) ∧ rnd ((val a + val b) / 2) < b) →
    ∃ i u, areas val rnd d e P = .ok (.fin i, u) ∧ u ≠ .ninf ∧
      ∀ x, F x = .pinf ∨ G x = .pinf → x ∈ P → x + 1 ∈ P → u = .pinf
  | [], _, _ => ⟨0, .fin 0, rfl, by simp, by simp⟩
  | [a], _, _ => ⟨0, .fin 0, rfl, by simp, by simp; omega⟩
  | a :: b :: r, hP, hrnd => by
    obtain ⟨i, u, h1, h2, h3⟩ := areas_inf hd he hF hG hfin (List.pairwise_cons.1 hP).2
      (fun a ha b hb => hrnd a (List.mem_cons_of_mem _ ha) b (List.mem_cons_of_mem _ hb))
    have hab := (List.pairwise_cons.1 hP).1 b (by simp)
    have hm := hrnd a (by simp) b (by simp) hab
    set m := rnd ((val a + val b) / 2) with hmdef
    simp only [areas, bind, Except.bind, ← hmdef, hd, he, h1]
    obtain ⟨v, hv⟩ := xmin_fin (hF m) (hG m) (hfin m)
    refine ⟨v * (val b - val a) + i, _, by rw [hv]; rfl, ?_, ?_⟩
    · exact xsum_ne (xmax_ne (hF m) (hG m)) h2
    · intro x hx hxP hxP'
      by_cases hxa : x = a
      · subst hxa
        have : b = x + 1 := by
          rcases List.mem_cons.1 hxP' with h | h
          · omega
          · rcases List.mem_cons.1 h with h | h
            · exact h.symm
            · have := (List.pairwise_cons.1 (List.pairwise_cons.1 hP).2).1 _ h
              omega
        have hmx : m = x := by omega
        exact xsum_inf (.inl (xmax_inf (by rwa [hmx])))
      · have hxr : x ∈ b :: r := (List.mem_cons.1 hxP).resolve_left hxa
        have hxr' : x + 1 ∈ b :: r := by
          rcases List.mem_cons.1 hxP' with h | h
          · have : a < x := (List.pairwise_cons.1 hP).1 x hxr
            omega
          · exact h
        exact xsum_inf (.inr (h3 x hx hxr hxr'))

theorem jaccard_inf {val : ℤ → ℚ} {rnd : ℚ → ℤ} {d e : Dens} {F G : ℤ → XQ} {A B : List ℤ}
    (hd : ∀ n, densAt d (fin n) = .ok (F n)) (he : ∀ n, densAt e (fin n) = .ok (G n))
    (hF : ∀ n, F n ≠ .ninf) (hG : ∀ n, G n ≠ .ninf) (hfin : ∀ n, F n ≠ .pinf ∨ G n ≠ .pinf)
    (hA : bounds (d.map Prod.fst) = .ok A) (hB : bounds (e.map Prod.fst) = .ok B) {x : ℤ}
    (hx : F x = .pinf ∨ G x = .pinf) (hx1 : x ∈ A ++ B) (hx2 : x + 1 ∈ A ++ B)
    (hrnd : ∀ a ∈ A ++ B, ∀ b ∈ A ++ B, a < b →
      a ≤ rnd ((val a + val b) / 2) ∧ rnd ((val a + val b) / 2) < b) :
    jaccard val rnd false d e = .ok (some 0) := by
  obtain ⟨hP, hPm⟩ := sortedSet_spec (A ++ B)
  obtain ⟨i, u, h1, h2, h3⟩ := areas_inf hd he hF hG hfin hP
    (fun a ha b hb => hrnd a ((hPm a).1 ha) b ((hPm b).1 hb))
  have hlen : ¬ (sortedSet (A ++ B)).length < 2 := by
    have : ∀ S : List ℤ, x ∈ S → x + 1 ∈ S → ¬ S.length < 2 := by
      intro S e1 e2 hc
      match S, hc with
      | [], _ => simp at e1
      | [a], _ => simp at e1 e2; omega
    exact this _ ((hPm x).2 hx1) ((hPm (x + 1)).2 hx2)
  simp only [jaccard, Bool.false_eq_true, if_false, hA, hB, bind, Except.bind, if_neg hlen, h1,
    h3 x hx ((hPm x).2 hx1) ((hPm (x + 1)).2 hx2), xratio]

/-- A distribution with one value only is dissimilar to every distribution fitted to at least two different values,
and to every other distribution with one value. -/
theorem C80_jaccard_dirac {val : ℤ → ℚ} (hval : StrictMono val) {rnd : ℚ → ℤ}
    (hrnd : ∀ a b : ℤ, a < b → a ≤ rnd ((val a + val b) / 2) ∧ rnd ((val a + val b) / 2) < b) (x : ℤ) :
    ∃ d, pdf (jumpCdf x) = .ok d ∧
      (∀ (eps : ℚ) (data : List ℤ) (l r : Option ℤ), (∀ v ∈ l, ∀ y ∈ data, v < y) → (∀ v ∈ r, ∀ y ∈ data, y < v) →
        (∃ a ∈ sample data l r, ∃ b ∈ sample data l r, a ≠ b) →
        ∃ q e, fit val eps data l r = .ok q ∧ pdf q = .ok e ∧ jaccard val rnd false d e = .ok (some 0) ∧
          jaccard val rnd false e d = .ok (some 0)) ∧
      ∀ y, y ≠ x → ∃ e, pdf (jumpCdf y) = .ok e ∧ jaccard val rnd false d e = .ok (some 0) := by
  obtain ⟨d, hd, hd1, hd2⟩ := jump_dens x
  have hn : ∀ z n : ℤ, (if n = z then XQ.pinf else XQ.fin 0) ≠ .ninf := by intro z n; split <;> simp
  refine ⟨d, hd, ?_, ?_⟩
  · rintro eps data l r hl hr ⟨a, ha, b, hb, hab⟩
    have hne : sample data l r ≠ [] := List.ne_nil_of_mem ha
    obtain ⟨lo, hlo, hmin⟩ := exists_least hne
    obtain ⟨hi, hhi, hmax⟩ := exists_greatest hne
    have hlt : lo < hi := by
      have := hmin a ha; have := hmin b hb; have := hmax a ha; have := hmax b hb
      omega
    obtain ⟨K, k1, k2, -⟩ := fit_density hval eps (loadBuffer_ok hl hr) hlo hhi hlt hmin hmax
    refine ⟨_, _, k1, k2, ?_, ?_⟩
    · exact jaccard_inf hd1 densAt_tile (hn x) (by simp) (fun n => .inr (by simp)) hd2 bounds_tile (x := x)
        (.inl (if_pos rfl)) (by simp) (by simp) (fun a _ b _ => hrnd a b)
    · exact jaccard_inf densAt_tile hd1 (by simp) (hn x) (fun n => .inl (by simp)) bounds_tile hd2 (x := x)
        (.inr (if_pos rfl)) (by simp) (by simp) (fun a _ b _ => hrnd a b)
  · intro y hy
    obtain ⟨e, he, he1, he2⟩ := jump_dens y
    refine ⟨e, he, ?_⟩
    refine jaccard_inf hd1 he1 (hn x) (hn y) (fun n => ?_) hd2 he2 (x := x)
        (.inl (if_pos rfl)) (by simp) (by simp) (fun a _ b _ => hrnd a b)
    by_cases h : n = x
    · right
      rw [if_neg (by omega)]
      simp
    · left
      rw [if_neg h]
      simp

example : ∃ d q e, pdf (jumpCdf 3) = .ok d ∧ fit ival 0 [0, 4] = .ok q ∧ pdf q = .ok e ∧
    jaccard ival (fun q => ⌊q⌋) false d e = .ok (some 0) := by
  obtain ⟨d, hd, h, -⟩ := C80_jaccard_dirac ival_strictMono (rnd := fun q => ⌊q⌋) (fun a b h => floor_mid h) 3
  obtain ⟨q, e, h1, h2, h3, -⟩ := h 0 [0, 4] none none (by simp) (by simp) (by decide)
  exact ⟨d, q, e, hd, h1, h2, h3⟩

/-- Rounding to the nearest float, and to the even one of two that are equally near, as IEEE 754 prescribes. -/
def roundEven (q : ℚ) : ℤ :=
  if q - ⌊q⌋ < 1 / 2 then ⌊q⌋ else if 1 / 2 < q - ⌊q⌋ then ⌊q⌋ + 1 else if ⌊q⌋ % 2 = 0 then ⌊q⌋ else ⌊q⌋ + 1

/-- The middle of two neighbouring floats is rounded to the even one of them.  If that is the upper one for both of two
distributions with one value, their densities are only read where they are zero, and the similarity is 0 divided by 0,
`nan`, instead of 0. -/
theorem C80_violated_nan : ∃ d e, pdf (jumpCdf 3) = .ok d ∧ pdf (jumpCdf 7) = .ok e ∧
    jaccard ival roundEven false d e = .ok none := by
  refine ⟨_, _, rfl, rfl, ?_⟩
  decide +kernel

end Verif.Num
