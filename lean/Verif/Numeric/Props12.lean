import Verif.Numeric.Props11

/-!
# The divergence of numeric distributions: C81
-/

namespace Verif.Num

open Iv Iv.FP Fun

/-- The sum of `p * |p - q|` over the intervals between consecutive points, where `p` and `q` are the masses that the
distribution functions `F` and `G` give to the interval. -/
def gapSum (F G : FP → ℚ) : List FP → ℚ
  | x :: y :: r => (F y - F x) * |(F y - F x) - (G y - G x)| + gapSum F G (y :: r)
  | _ => 0

theorem gap_mass {val : ℤ → ℚ} {p : PF} {lo hi : ℤ} {F : ℤ → ℚ} (h : FitCdf val p lo hi F) {x y : FP} (hxy : x < y)
    (hy : ∃ b, y = fin b) : pInterval val p ⟨x, y, .inc, .inc⟩ = .ok (below F y - below F x) := by
  obtain ⟨b, rfl⟩ := hy
  have hm : (⟨x, fin b, .inc, .inc⟩ : CS).Mem (fin b) := by
    exact ⟨.inl hxy, .inr ⟨rfl, rfl⟩⟩
  rw [h.p hm]
  split
  · rfl
  · rename_i hn
    have hd := CS.not_mem_of_not_intersects (Bool.eq_false_iff.2 hn)
    have hb : b < lo ∨ hi + 1 ≤ b := by
      by_contra hc
      refine hd (fin b) ⟨?_, hm⟩
      simp [CS.Mem, FP.lt_def, leb]
      omega
    rcases hb with hb | hb
    · have h1 : F b = 0 := h.zero b hb
      have h2 : below F x = 0 := by
        cases x with
        | ninf => rfl
        | fin a => exact h.zero a (by simp [FP.lt_def, leb] at hxy; omega)
        | pinf => simp [FP.lt_def, leb] at hxy
      rw [h2, show below F (fin b) = _ from h1]; simp
    · have h1 : F b = 1 := h.one b (by omega)
      have h2 : below F x = 1 := by
        have hlt := h.lt
        cases x with
        | ninf =>
          refine absurd ⟨?_, ?_⟩ (hd (fin lo))
          · simp [CS.Mem, FP.lt_def, leb]; omega
          · simp [CS.Mem, FP.lt_def, leb]; omega
        | fin a =>
          refine h.one a ?_
          by_contra hc
          refine absurd ⟨?_, ?_⟩ (hd (fin (max a lo)))
          · simp [CS.Mem, FP.lt_def, leb]; omega
          · simp [CS.Mem, FP.lt_def, leb]; omega
        | pinf => simp [FP.lt_def, leb] at hxy
      rw [h2, show below F (fin b) = _ from h1]; simp

theorem klLoop_eq {val : ℤ → ℚ} {p q : PF} {lo hi lo' hi' : ℤ} {F G : ℤ → ℚ} (h : FitCdf val p lo hi F)
    (h' : FitCdf val q lo' hi' G) : ∀ {X : List FP}, X.Pairwise (· < ·) → (∀ x ∈ X.drop 1, ∃ b, x = fin b) →
    klLoop val p q X = .ok (gapSum (below F) (below G) X)
  | [], _, _ => rfl
  | [_], _, _ => rfl
  | x :: y :: r, hX, hf => by
    have hxy := (List.pairwise_cons.1 hX).1 y (by simp)
    have hy := hf y (by simp)
    have ih := klLoop_eq h h' (X := y :: r) (List.pairwise_cons.1 hX).2
      (fun x hx => hf x (by simp only [List.drop_succ_cons, List.drop_zero] at hx ⊢; exact List.mem_cons_of_mem _ hx))
    simp only [klLoop, gap_mass h hxy hy, gap_mass h' hxy hy, ih, bind, Except.bind, gapSum]

theorem lowers_tile (K K' : List (ℤ × Fn)) (f g : Fn) :
    lowers (densOf (tile ninf f K pinf)) (densOf (tile ninf g K' pinf)) =
      ninf :: (sortedSet (K.map Prod.fst ++ K'.map Prod.fst)).map fin := by
  have hl : ∀ (K : List (ℤ × Fn)) (f : Fn) (lo : FP), (densOf (tile lo f K pinf)).map (fun s => s.1.lower) =
      lo :: K.map (fun s => fin s.1) := by
    intro K
    induction K with
    | nil => intro f lo; rfl
    | cons a r ih =>
      intro f lo
      obtain ⟨k, g⟩ := a
      have := ih g (fin k)
      simp only [densOf, tile, List.map_cons, List.map_map] at this ⊢
      rw [this]
  obtain ⟨h1, h2⟩ := sortedSet_spec (K.map Prod.fst ++ K'.map Prod.fst)
  apply List.Pairwise.eq_of_mem_iff (r := (· < ·))
  · have e1 := List.pairwise_insertionSort (fun a b : FP => a ≤ b) (((densOf (tile ninf f K pinf)).map (fun s => s.1.lower) ++
      (densOf (tile ninf g K' pinf)).map (fun s => s.1.lower)).dedup)
    have e2 : (lowers (densOf (tile ninf f K pinf)) (densOf (tile ninf g K' pinf))).Nodup :=
      (List.perm_insertionSort (fun a b : FP => a ≤ b) _).nodup_iff.2 (List.nodup_dedup _)
    exact (List.Pairwise.and e1 e2).imp (fun h => lt_of_le_of_ne h.1 h.2)
  · rw [List.pairwise_cons]
    refine ⟨fun x hx => ?_, ?_⟩
    · obtain ⟨n, -, rfl⟩ := List.mem_map.1 hx
      simp [FP.lt_def, leb]
    · rw [List.pairwise_map]
      exact h1.imp (fun h => by simpa [FP.lt_def, leb] using h)
  · intro x
    rw [lowers, (List.perm_insertionSort _ _).mem_iff, List.mem_dedup, hl, hl]
    simp only [List.mem_append, List.mem_cons, List.mem_map, h2]
    constructor
    · rintro ((rfl | ⟨s, hs, rfl⟩) | (rfl | ⟨s, hs, rfl⟩))
      · exact .inl rfl
      · exact .inr ⟨s.1, .inl ⟨s, hs, rfl⟩, rfl⟩
      · exact .inl rfl
      · exact .inr ⟨s.1, .inr ⟨s, hs, rfl⟩, rfl⟩
    · rintro (rfl | ⟨n, (⟨s, hs, rfl⟩ | ⟨s, hs, rfl⟩), rfl⟩)
      · exact .inl (.inl rfl)
      · exact .inl (.inr ⟨s, hs, rfl⟩)
      · exact .inr (.inr ⟨s, hs, rfl⟩)

theorem gapSum_nonneg {F G : FP → ℚ} : ∀ {X : List FP}, X.Pairwise (fun x y => F x ≤ F y) → 0 ≤ gapSum F G X
  | [], _ => le_rfl
  | [_], _ => le_rfl
  | x :: y :: r, h => by
    have h1 := (List.pairwise_cons.1 h).1 y (by simp)
    have h2 := gapSum_nonneg (G := G) (List.pairwise_cons.1 h).2
    have : 0 ≤ (F y - F x) * |(F y - F x) - (G y - G x)| := mul_nonneg (by linarith) (abs_nonneg _)
    rw [gapSum]
    linarith

theorem gapSum_le {F G : FP → ℚ} (hF : ∀ x, 0 ≤ F x ∧ F x ≤ 1) (hG : ∀ x, 0 ≤ G x ∧ G x ≤ 1) : ∀ {X : List FP} {x : FP},
    (x :: X).Pairwise (fun x y => F x ≤ F y) → (x :: X).Pairwise (fun x y => G x ≤ G y) →
    gapSum F G (x :: X) ≤ 1 - F x
  | [], x, _, _ => by have := hF x; simp only [gapSum]; linarith
  | y :: r, x, h, h' => by
    have h1 := (List.pairwise_cons.1 h).1 y (by simp)
    have h1' := (List.pairwise_cons.1 h').1 y (by simp)
    have h2 := gapSum_le hF hG (List.pairwise_cons.1 h).2 (List.pairwise_cons.1 h').2
    have h3 : |(F y - F x) - (G y - G x)| ≤ 1 := by
      have := hF x; have := hF y; have := hG x; have := hG y
      rw [abs_le]; constructor <;> linarith
    have : (F y - F x) * |(F y - F x) - (G y - G x)| ≤ (F y - F x) * 1 := mul_le_mul_of_nonneg_left h3 (by linarith)
    rw [gapSum]
    linarith

theorem gapSum_zero {F G : FP → ℚ} : ∀ {X : List FP}, X.Pairwise (fun x y => F x ≤ F y) →
    X.Pairwise (fun x y => G x ≤ G y) → gapSum F G X = 0 → X.Pairwise (fun x y => F y - G y ≤ F x - G x)
  | [], _, _, _ => .nil
  | [_], _, _, _ => by simp
  | x :: y :: r, h, h', h0 => by
    have h1 := (List.pairwise_cons.1 h).1 y (by simp)
    have h1' := (List.pairwise_cons.1 h').1 y (by simp)
    have h2 := gapSum_nonneg (G := G) (List.pairwise_cons.1 h).2
    have h3 : 0 ≤ (F y - F x) * |(F y - F x) - (G y - G x)| := mul_nonneg (by linarith) (abs_nonneg _)
    rw [gapSum] at h0
    have ih := gapSum_zero (List.pairwise_cons.1 h).2 (List.pairwise_cons.1 h').2 (by linarith)
    have hd : F y - G y ≤ F x - G x := by
      rcases mul_eq_zero.1 (show (F y - F x) * |(F y - F x) - (G y - G x)| = 0 by linarith) with h4 | h4
      · linarith
      · have := abs_eq_zero.1 h4
        linarith
    rw [List.pairwise_cons]
    refine ⟨fun z hz => ?_, ih⟩
    rcases List.mem_cons.1 hz with rfl | hz
    · exact hd
    · exact ((List.pairwise_cons.1 ih).1 z hz).trans hd

theorem gapSum_same {F G : FP → ℚ} : ∀ {X : List FP}, (∀ x ∈ X, F x = G x) → gapSum F G X = 0
  | [], _ => rfl
  | [_], _ => rfl
  | x :: y :: r, h => by
    rw [gapSum, h x (by simp), h y (by simp), gapSum_same (X := y :: r) (fun z hz => h z (List.mem_cons_of_mem _ hz))]
    simp

theorem pairwise_lt {R : ℤ → ℤ → Prop} {l : List ℤ} (h : l.Pairwise R) (hl : l.Pairwise (· < ·)) {a b : ℤ}
    (ha : a ∈ l) (hb : b ∈ l) (hab : a < b) : R a b := by
  induction l with
  | nil => simp at ha
  | cons c r ih =>
    rw [List.pairwise_cons] at h hl
    rcases List.mem_cons.1 ha with rfl | ha
    · rcases List.mem_cons.1 hb with rfl | hb
      · exact absurd hab (lt_irrefl _)
      · exact h.1 b hb
    · rcases List.mem_cons.1 hb with h3 | hb
      · have := hl.1 a (by assumption)
        omega
      · exact ih h.2 hl.2 (by assumption) hb

/-- The divergence of two fitted distributions is the sum of `p * |p - q|` over the intervals between the points at
which one of the densities changes.  It is at least 0 and at most 1, and it is 0 exactly if the distribution functions
agree at these points. -/
theorem C81_kl_partial {val : ℤ → ℚ} (hval : StrictMono val) (eps eps' : ℚ) (data data' : List ℤ)
    (l r l' r' : Option ℤ) (hl : ∀ v ∈ l, ∀ x ∈ data, v < x) (hr : ∀ v ∈ r, ∀ x ∈ data, x < v)
    (hl' : ∀ v ∈ l', ∀ x ∈ data', v < x) (hr' : ∀ v ∈ r', ∀ x ∈ data', x < v)
    (h2 : ∃ a ∈ sample data l r, ∃ b ∈ sample data l r, a ≠ b)
    (h2' : ∃ a ∈ sample data' l' r', ∃ b ∈ sample data' l' r', a ≠ b) :
    ∃ (p q : PF) (d e : Dens) (f g F G : ℤ → ℚ) (P : List ℤ),
      fit val eps data l r = .ok p ∧ fit val eps' data' l' r' = .ok q ∧ pdf p = .ok d ∧ pdf q = .ok e ∧
      (∀ n, p.eval val n = .ok (some (F n))) ∧ (∀ n, q.eval val n = .ok (some (G n))) ∧
      (∀ n, densAt d (fin n) = .ok (.fin (f n))) ∧ (∀ n, densAt e (fin n) = .ok (.fin (g n))) ∧
      Steps f P ∧ Steps g P ∧
      ∃ x, klDivergence val p q = .ok x ∧ x = gapSum (below F) (below G) (ninf :: P.map fin) ∧ 0 ≤ x ∧ x ≤ 1 ∧
        (x = 0 ↔ ∀ a ∈ P, F a = G a) := by
  have key : ∀ (eps : ℚ) (data : List ℤ) (l r : Option ℤ), (∀ v ∈ l, ∀ x ∈ data, v < x) →
      (∀ v ∈ r, ∀ x ∈ data, x < v) → (∃ a ∈ sample data l r, ∃ b ∈ sample data l r, a ≠ b) →
      ∃ (K : List (ℤ × Fn)) (lo hi : ℤ) (F : ℤ → ℚ), fit val eps data l r = .ok (tile ninf (.const 0) K pinf) ∧
        K.getLast? = some (hi + 1, .const 1) ∧
        FitCdf val (tile ninf (.const 0) K pinf) lo hi F ∧
        ∀ n, (tile ninf (.const 0) K pinf).eval val n = .ok (some (F n)) := by
    rintro eps data l r hl hr ⟨a, ha, b, hb, hab⟩
    have hne : sample data l r ≠ [] := List.ne_nil_of_mem ha
    obtain ⟨lo, hlo, hmin⟩ := exists_least hne
    obtain ⟨hi, hhi, hmax⟩ := exists_greatest hne
    have hlt : lo < hi := by
      have := hmin a ha; have := hmin b hb; have := hmax a ha; have := hmax b hb
      omega
    obtain ⟨K, k1, k2, k3, -⟩ := fit_density hval eps (loadBuffer_ok hl hr) hlo hhi hlt hmin hmax
    obtain ⟨p, F, f1, f2, -, f3⟩ := fitCdf_of hval (eps := eps) (loadBuffer_ok hl hr) hlo hhi hlt hmin hmax
    obtain rfl : tile ninf (.const 0) K pinf = p := Except.ok.inj (k1.symm.trans f1)
    exact ⟨K, lo, hi, F, k1, k3, f3, f2⟩
  obtain ⟨K, lo, hi, F, k1, k2, k3, k4⟩ := key eps data l r hl hr h2
  obtain ⟨K', lo', hi', G, j1, j2, j3, j4⟩ := key eps' data' l' r' hl' hr' h2'
  obtain ⟨hP, hPm⟩ := sortedSet_spec (K.map Prod.fst ++ K'.map Prod.fst)
  have sf := steps_of k2 rfl hP (fun s hs => (hPm s.1).2 (List.mem_append_left _ (List.mem_map_of_mem hs)))
  have sg := steps_of j2 rfl hP (fun s hs => (hPm s.1).2 (List.mem_append_right _ (List.mem_map_of_mem hs)))
  have hX : (ninf :: (sortedSet (K.map Prod.fst ++ K'.map Prod.fst)).map fin).Pairwise (· < ·) := by
    rw [List.pairwise_cons, List.pairwise_map]
    refine ⟨fun x hx => ?_, hP.imp (fun h => by simpa [FP.lt_def, leb] using h)⟩
    obtain ⟨n, -, rfl⟩ := List.mem_map.1 hx
    simp [FP.lt_def, leb]
  have hbd : ∀ {p : PF} {lo hi : ℤ} {F : ℤ → ℚ}, FitCdf val p lo hi F →
      (∀ x, 0 ≤ below F x ∧ below F x ≤ 1) ∧ ∀ x y, x < y → below F x ≤ below F y := by
    intro p lo hi F h
    have h0 : ∀ n, 0 ≤ F n := fun n => by
      rw [← h.zero (min n (lo - 1)) (by omega)]; exact h.mono (min_le_left _ _)
    have h1 : ∀ n, F n ≤ 1 := fun n => by
      rw [← h.one (max n hi) (le_max_right _ _)]; exact h.mono (le_max_left _ _)
    constructor
    · intro x
      cases x with
      | ninf => exact ⟨le_rfl, zero_le_one⟩
      | fin n => exact ⟨h0 n, h1 n⟩
      | pinf => exact ⟨zero_le_one, le_rfl⟩
    · intro x y hxy
      cases x <;> cases y <;> simp [FP.lt_def, leb] at hxy
      · exact h0 _
      · exact zero_le_one
      · exact h.mono hxy.le
      · exact h1 _
  have hF := hbd k3
  have hG := hbd j3
  have hXF := hX.imp (hF.2 _ _)
  have hXG := hX.imp (hG.2 _ _)
  refine ⟨_, _, _, _, _, _, F, G, sortedSet (K.map Prod.fst ++ K'.map Prod.fst), k1, j1, k3.dens, j3.dens, k4, j4,
    densAt_tile, densAt_tile, sf, sg, _, ?_, rfl, gapSum_nonneg hXF, ?_, ?_, ?_⟩
  · rw [klDivergence, k3.dens, j3.dens]
    simp only [bind, Except.bind, lowers_tile]
    refine klLoop_eq k3 j3 hX (fun x hx => ?_)
    obtain ⟨n, -, rfl⟩ := List.mem_map.1 (by simpa using hx)
    exact ⟨n, rfl⟩
  · have := gapSum_le hF.1 hG.1 hXF hXG
    have h0 := (hF.1 ninf).1
    linarith
  · intro h0 a ha
    have hz := gapSum_zero hXF hXG h0
    rw [List.pairwise_cons] at hz
    have e1 : F a - G a ≤ 0 := by simpa [below] using hz.1 (fin a) (List.mem_map_of_mem ha)
    have hh : hi + 1 ∈ sortedSet (K.map Prod.fst ++ K'.map Prod.fst) :=
      (hPm _).2 (List.mem_append_left _ (List.mem_map.2 ⟨_, List.mem_of_getLast? k2, rfl⟩))
    have hh' : hi' + 1 ∈ sortedSet (K.map Prod.fst ++ K'.map Prod.fst) :=
      (hPm _).2 (List.mem_append_right _ (List.mem_map.2 ⟨_, List.mem_of_getLast? j2, rfl⟩))
    have hm : max (hi + 1) (hi' + 1) ∈ sortedSet (K.map Prod.fst ++ K'.map Prod.fst) := by
      rcases max_choice (hi + 1) (hi' + 1) with h | h <;> rw [h]
      · exact hh
      · exact hh'
    have eF : F (max (hi + 1) (hi' + 1)) = 1 := k3.one _ (by omega)
    have eG : G (max (hi + 1) (hi' + 1)) = 1 := j3.one _ (by omega)
    have e2 : F (max (hi + 1) (hi' + 1)) - G (max (hi + 1) (hi' + 1)) ≤ F a - G a := by
      rcases lt_trichotomy a (max (hi + 1) (hi' + 1)) with h | h | h
      · have hp := hz.2
        rw [List.pairwise_map] at hp
        exact pairwise_lt hp hP ha hm h
      · rw [← h]
      · have eF : F a = 1 := k3.one _ (by omega)
        have eG : G a = 1 := j3.one _ (by omega)
        rw [eF, eG]; linarith
    linarith
  · intro h
    apply gapSum_same
    intro x hx
    rcases List.mem_cons.1 hx with rfl | hx
    · rfl
    · obtain ⟨n, hn, rfl⟩ := List.mem_map.1 hx
      exact h n hn

example : ∃ (p q : PF) (F G : ℤ → ℚ) (P : List ℤ), fit ival 0 [0, 4] = .ok p ∧ fit ival 0 [2, 6] = .ok q ∧
    ∃ x, klDivergence ival p q = .ok x ∧ x = gapSum (below F) (below G) (ninf :: P.map fin) ∧ 0 ≤ x ∧ x ≤ 1 := by
  obtain ⟨p, q, d, e, f, g, F, G, P, h1, h2, -, -, -, -, -, -, -, -, x, h3, h4, h5, h6, -⟩ :=
    C81_kl_partial ival_strictMono 0 0 [0, 4] [2, 6] none none none none (by simp) (by simp) (by simp) (by simp)
      (by decide) (by decide)
  exact ⟨p, q, F, G, P, h1, h2, x, h3, h4, h5, h6⟩

example : ((fit ival 0 [0, 4]).toOption.bind (fun p => (fit ival 0 [2, 6]).toOption.bind (fun q =>
    (klDivergence ival p q).toOption))) = some (3 / 8) := by decide +kernel

/-- The cdf of the uniform distribution from `a` to `b`. -/
def uniCdf (a b : ℤ) (m c : ℚ) : PF :=
  [(⟨ninf, fin a, .exc, .exc⟩, .const 0), (co a (b + 1), .lin m c), (⟨fin (b + 1), pinf, .inc, .exc⟩, .const 1)]

/-- What is returned is not the Kullback-Leibler divergence: that is infinite if one of the distributions has mass where
the other has none, as for these two that have nothing in common.  The function returns 1, a finite value. -/
theorem C81_violated_infinite : ∃ p q F G, fit ival 0 [0, 4] = .ok p ∧ fit ival 0 [10, 14] = .ok q ∧
    prob ival p (.interval ⟨fin 0, fin 4, .inc, .inc⟩) = .ok F ∧ 0 < F ∧
    prob ival q (.interval ⟨fin 0, fin 4, .inc, .inc⟩) = .ok G ∧ G = 0 ∧ klDivergence ival p q = .ok 1 := by
  refine ⟨uniCdf 0 4 (1 / 4) 0, uniCdf 10 14 (1 / 4) (-5 / 2), 1, 0, ?_, ?_, ?_, ?_, ?_, rfl, ?_⟩ <;> decide +kernel

/-- Nor is it 0 for equal distributions only: that of the uniform distribution on [0, 4] from the one on [0, 5], the
next float, is 0, because the masses are compared at the end of the last piece, 5, only. -/
theorem C81_violated_zero : ∃ p q, fit ival 0 [0, 4] = .ok p ∧ fit ival 0 [0, 5] = .ok q ∧ p ≠ q ∧
    klDivergence ival p q = .ok 0 := by
  refine ⟨uniCdf 0 4 (1 / 4) 0, uniCdf 0 5 (1 / 5) 0, ?_, ?_, ?_, ?_⟩ <;> decide +kernel

/-- The intervals are closed, so that the mass of a distribution with one value counts for two of them: the divergence
exceeds 1. -/
theorem C81_violated_dirac : ∃ q, fit ival 0 [0, 8] = .ok q ∧ klDivergence ival (jumpCdf 3) q = .ok (3 / 2) := by
  refine ⟨uniCdf 0 8 (1 / 8) 0, ?_, ?_⟩ <;> decide +kernel

end Verif.Num
