import Verif.Numeric.Compare
import Verif.Numeric.CompareSpec
import Verif.Numeric.QueryLemmas3

/-!
# Lemmas: the comparison of numeric distributions
-/

namespace Verif.Num

open Iv Iv.FP Fun

theorem joints_tile {u : FP} : ∀ {K : List (ℤ × Fn)} {lo : FP} {f : Fn},
    joints ((tile lo f K u).map Prod.fst) = K.map (fun s => fin s.1)
  | [], _, _ => rfl
  | [(k, g)], lo, f => by
    have : CS.contiguous ⟨lo, fin k, brOf lo, .exc⟩ ⟨fin k, u, brOf (fin k), .exc⟩ = true := by
      simp [CS.contiguous, brOf, Br.code]
    simp only [tile, List.map_cons, List.map_nil]
    rw [joints, if_pos this]
    simp [joints, CS.lowermost, brOf]
  | (k, g) :: (k', g') :: r, lo, f => by
    have ih := joints_tile (u := u) (K := (k', g') :: r) (lo := fin k) (f := g)
    have : CS.contiguous ⟨lo, fin k, brOf lo, .exc⟩ ⟨fin k, fin k', brOf (fin k), .exc⟩ = true := by
      simp [CS.contiguous, brOf, Br.code]
    simp only [tile, List.map_cons] at ih ⊢
    rw [joints, if_pos this, ih]
    simp [CS.lowermost, brOf]

theorem tile_last {u : FP} : ∀ {K : List (ℤ × Fn)} {lo : FP} {f : Fn},
    ∃ s, ((tile lo f K u).map Prod.fst).getLast? = some s ∧ s.upper = u
  | [], lo, f => ⟨_, rfl, rfl⟩
  | (k, g) :: r, lo, f => by
    obtain ⟨s, h1, h2⟩ := tile_last (u := u) (K := r) (lo := fin k) (f := g)
    refine ⟨s, ?_, h2⟩
    simp only [tile, List.map_cons]
    rw [List.getLast?_cons, h1]
    rfl

theorem bounds_tile {K : List (ℤ × Fn)} {f : Fn} :
    bounds ((densOf (tile ninf f K pinf)).map Prod.fst) = .ok (K.map Prod.fst) := by
  have h0 : (densOf (tile ninf f K pinf)).map Prod.fst = (tile ninf f K pinf).map Prod.fst := by
    simp [densOf, List.map_map, Function.comp_def]
  rw [h0]
  obtain ⟨s, h1, h2⟩ := tile_last (u := pinf) (K := K) (lo := ninf) (f := f)
  obtain ⟨t, h3, h4⟩ : ∃ t, ((tile ninf f K pinf).map Prod.fst).head? = some t ∧ t.lower = ninf := by
    cases K with
    | nil => exact ⟨_, rfl, rfl⟩
    | cons a r => exact ⟨_, rfl, rfl⟩
  simp only [bounds, h1, h3, joints_tile, h2, h4, List.cons_append, List.filterMap_cons, List.filterMap_append,
    List.filterMap_nil, List.append_nil, List.filterMap_map]
  congr 1
  clear h0 h1 h3
  induction K with
  | nil => rfl
  | cons a r ih => simp only [List.filterMap_cons, Function.comp, List.map_cons] at ih ⊢; rw [ih]

theorem densAt_tile {K : List (ℤ × Fn)} {f : Fn} (n : ℤ) :
    densAt (densOf (tile ninf f K pinf)) (fin n) = .ok (.fin (sl (tileAt f K n))) := by
  have h := tile_at (n := n) (u := pinf) (l := K) (lo := ninf) (f := f) (by simp [FP.le_def, leb])
    (by simp [FP.lt_def, leb])
  unfold PF.atPos at h
  unfold densAt densOf
  rw [List.find?_map]
  have : ((fun s : CS × XQ => PF.hit (fin n) s.1) ∘ fun s : CS × Fn => (s.1, XQ.fin (sl s.2)))
      = fun s => PF.hit (fin n) s.1 := rfl
  rw [this]
  cases hf : (tile ninf f K pinf).find? (fun s => PF.hit (fin n) s.1) with
  | none => rw [hf] at h; cases h
  | some s =>
    rw [hf] at h
    simp only [Option.map_some, Option.some.injEq] at h
    simp [h]

theorem tileAt_const {a n : ℤ} (han : a ≤ n) : ∀ {K : List (ℤ × Fn)} {f : Fn},
    (∀ s ∈ K, s.1 ≤ a ∨ n < s.1) → tileAt f K n = tileAt f K a
  | [], _, _ => rfl
  | (k, g) :: r, f, h => by
    rw [tileAt, tileAt]
    rcases h (k, g) (by simp) with h1 | h1
    · dsimp only at h1
      rw [if_neg (by omega), if_neg (by omega)]
      exact tileAt_const han (fun s hs => h s (by simp [hs]))
    · dsimp only at h1
      rw [if_pos h1, if_pos (by omega)]

theorem tileAt_low {n : ℤ} {K : List (ℤ × Fn)} {f : Fn} (h : ∀ s ∈ K, n < s.1) : tileAt f K n = f := by
  cases K with
  | nil => rfl
  | cons a r => rw [tileAt, if_pos (h a (by simp))]

theorem tileAt_high {n : ℤ} : ∀ {K : List (ℤ × Fn)} {f : Fn} {z : ℤ × Fn}, K.getLast? = some z →
    (∀ s ∈ K, s.1 ≤ n) → tileAt f K n = z.2
  | [], _, _, h, _ => by cases h
  | [(k, g)], _, _, h, hn => by
    cases h
    have := hn (k, g) (by simp)
    dsimp only at this
    rw [tileAt, if_neg (by omega), tileAt]
    rfl
  | (k, g) :: b :: r, f, z, h, hn => by
    have := hn (k, g) (by simp)
    dsimp only at this
    rw [tileAt, if_neg (by omega)]
    exact tileAt_high (by simpa using h) (fun s hs => hn s (by simp [hs]))

/-- The density of a cdf with these knots. -/
theorem steps_of {K : List (ℤ × Fn)} {z : ℤ × Fn} (hz : K.getLast? = some z) (hz0 : sl z.2 = 0) {P : List ℤ}
    (hP : P.Pairwise (· < ·)) (hK : ∀ s ∈ K, s.1 ∈ P) : Steps (fun n => sl (tileAt (.const 0) K n)) P where
  incr := hP
  const := fun a n ha han h => by
    show sl _ = _
    rw [tileAt_const han (fun s hs => h _ (hK s hs))]
  before := fun n h => by
    show sl _ = _
    rw [tileAt_low (fun s hs => h _ (hK s hs))]
    rfl
  after := fun n h => by
    show sl _ = _
    rw [tileAt_high hz (fun s hs => h _ (hK s hs)), hz0]

theorem areas_eq {val : ℤ → ℚ} {rnd : ℚ → ℤ} (hval : StrictMono val) {d e : Dens} {f g : ℤ → ℚ}
    (hd : ∀ n, densAt d (fin n) = .ok (.fin (f n))) (he : ∀ n, densAt e (fin n) = .ok (.fin (g n))) :
    ∀ {P : List ℤ}, P.Pairwise (· < ·) →
    (∀ a n, a ∈ P → a ≤ n → (∀ b ∈ P, b ≤ a ∨ n < b) → f n = f a) →
    (∀ a n, a ∈ P → a ≤ n → (∀ b ∈ P, b ≤ a ∨ n < b) → g n = g a) →
    (∀ p ∈ P, ∀ q ∈ P, p < q → p ≤ rnd ((val p + val q) / 2) ∧ rnd ((val p + val q) / 2) < q) →
    areas val rnd d e P = .ok (.fin (stepSum val (fun n => min (f n) (g n)) P),
      .fin (stepSum val (fun n => max (f n) (g n)) P))
  | [], _, _, _, _ => rfl
  | [_], _, _, _, _ => rfl
  | p :: q :: r, hP, hf, hg, hr => by
    have hP' := List.pairwise_cons.1 hP
    have hP2 := List.pairwise_cons.1 hP'.2
    have hpq := hP'.1 q (by simp)
    obtain ⟨h1, h2⟩ := hr p (by simp) q (by simp) hpq
    have hgap : ∀ b ∈ p :: q :: r, b ≤ p ∨ rnd ((val p + val q) / 2) < b := by
      intro b hb
      rcases List.mem_cons.1 hb with rfl | hb
      · exact .inl le_rfl
      · right
        rcases List.mem_cons.1 hb with rfl | hb
        · exact h2
        · exact h2.trans (hP2.1 b hb)
    have ef := hf p _ (by simp) h1 hgap
    have eg := hg p _ (by simp) h1 hgap
    have tailc : ∀ {φ : ℤ → ℚ}, (∀ a n, a ∈ p :: q :: r → a ≤ n → (∀ b ∈ p :: q :: r, b ≤ a ∨ n < b) → φ n = φ a) →
        ∀ a n, a ∈ q :: r → a ≤ n → (∀ b ∈ q :: r, b ≤ a ∨ n < b) → φ n = φ a := by
      intro φ hφ a n ha han hb
      refine hφ a n (List.mem_cons_of_mem _ ha) han (fun b hb' => ?_)
      rcases List.mem_cons.1 hb' with rfl | hb'
      · exact .inl (hP'.1 a ha).le
      · exact hb b hb'
    have ih := areas_eq hval hd he hP'.2 (tailc hf) (tailc hg)
      (fun a ha b hb => hr a (List.mem_cons_of_mem _ ha) b (List.mem_cons_of_mem _ hb))
    rw [areas, hd, he, ih]
    simp only [bind, Except.bind, ef, eg, stepSum]
    have hmin : xmin (.fin (f p)) (.fin (g p)) = .fin (min (f p) (g p)) := by
      unfold xmin
      by_cases h : f p ≤ g p
      · simp [XQ.le, h]
      · simp [XQ.le, h, min_eq_right (not_le.1 h).le]
    have hmax : xmax (.fin (f p)) (.fin (g p)) = .fin (max (f p) (g p)) := by
      unfold xmax
      by_cases h : f p ≤ g p
      · simp [XQ.le, h]
      · simp [XQ.le, h, max_eq_left (not_le.1 h).le]
    rw [hmin, hmax]
    rfl

theorem sortedSet_spec (l : List ℤ) : (sortedSet l).Pairwise (· < ·) ∧ ∀ n, n ∈ sortedSet l ↔ n ∈ l := by
  constructor
  · have h1 := List.pairwise_insertionSort (· ≤ ·) l.dedup
    have h2 : (sortedSet l).Nodup := (List.perm_insertionSort (· ≤ ·) l.dedup).nodup_iff.2 l.nodup_dedup
    exact (List.Pairwise.and h1 h2).imp (fun h => lt_of_le_of_ne h.1 h.2)
  · intro n
    unfold sortedSet
    rw [List.mem_insertionSort, List.mem_dedup]

theorem stepSum_mono {x f g : ℤ → ℚ} (hx : StrictMono x) : ∀ {P : List ℤ}, P.Pairwise (· < ·) →
    (∀ a ∈ P, f a ≤ g a) → stepSum x f P ≤ stepSum x g P
  | [], _, _ => le_rfl
  | [_], _, _ => le_rfl
  | a :: b :: r, hP, h => by
    have hP' := List.pairwise_cons.1 hP
    have h1 := hx (hP'.1 b (by simp))
    have ih := stepSum_mono hx hP'.2 (fun c hc => h c (List.mem_cons_of_mem _ hc))
    have h2 := h a (by simp)
    simp only [stepSum]
    have := mul_le_mul_of_nonneg_right h2 (sub_nonneg.2 h1.le)
    linarith

theorem stepSum_nonneg {x f : ℤ → ℚ} (hx : StrictMono x) : ∀ {P : List ℤ}, P.Pairwise (· < ·) →
    (∀ a ∈ P, 0 ≤ f a) → 0 ≤ stepSum x f P
  | [], _, _ => le_rfl
  | [_], _, _ => le_rfl
  | a :: b :: r, hP, h => by
    have hP' := List.pairwise_cons.1 hP
    have h1 := hx (hP'.1 b (by simp))
    have ih := stepSum_nonneg hx hP'.2 (fun c hc => h c (List.mem_cons_of_mem _ hc))
    have := mul_nonneg (h a (by simp)) (sub_nonneg.2 h1.le)
    simp only [stepSum]
    linarith

theorem stepSum_zero_iff {x f : ℤ → ℚ} (hx : StrictMono x) : ∀ {P : List ℤ}, P.Pairwise (· < ·) →
    (∀ a ∈ P, 0 ≤ f a) → (stepSum x f P = 0 ↔ ∀ a ∈ P.dropLast, f a = 0)
  | [], _, _ => by simp [stepSum]
  | [_], _, _ => by simp [stepSum]
  | a :: b :: r, hP, h => by
    have hP' := List.pairwise_cons.1 hP
    have h1 := hx (hP'.1 b (by simp))
    have ih := stepSum_zero_iff hx hP'.2 (fun c hc => h c (List.mem_cons_of_mem _ hc))
    have h3 := stepSum_nonneg hx hP'.2 (fun c hc => h c (List.mem_cons_of_mem _ hc))
    have h4 := mul_nonneg (h a (by simp)) (sub_nonneg.2 h1.le)
    simp only [stepSum, List.dropLast_cons_cons, List.mem_cons, forall_eq_or_imp]
    rw [← ih, add_eq_zero_iff_of_nonneg h4 h3, mul_eq_zero, sub_eq_zero]
    have : x b ≠ x a := ne_of_gt h1
    simp [this]

theorem sortedSet_comm (l m : List ℤ) : sortedSet (l ++ m) = sortedSet (m ++ l) := by
  obtain ⟨h1, h2⟩ := sortedSet_spec (l ++ m)
  obtain ⟨h3, h4⟩ := sortedSet_spec (m ++ l)
  apply List.Pairwise.eq_of_mem_iff h1 h3
  intro n
  rw [h2, h4, List.mem_append, List.mem_append, or_comm]

end Verif.Num
