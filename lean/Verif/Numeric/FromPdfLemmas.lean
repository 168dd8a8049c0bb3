import Verif.Numeric.FromPdf
import Verif.Numeric.FromPdfSpec
import Verif.Numeric.QueryLemmas3
import Verif.Numeric.MergeLemmas7

/-! # Integrating a density: lemmas -/

namespace Verif.Num

open Iv Iv.FP Fun

/-- The integral of a constant density, with the value `h` at `k`. -/
def integFn (val : ℤ → ℚ) (v h : ℚ) (k : ℤ) : Fn := if v = 0 then .const h else .lin v (h - v * val k)

/-- The value at the next knot. -/
def nextHead (val : ℤ → ℚ) (v h : ℚ) (k : ℤ) : List (ℤ × ℚ) → ℚ
  | [] => h
  | (k', _) :: _ => h + v * (val k' - val k)

def integL (val : ℤ → ℚ) : ℚ → List (ℤ × ℚ) → List (ℤ × Fn)
  | _, [] => []
  | h, (k, v) :: r => (k, integFn val v h k) :: integL val (nextHead val v h k r) r

theorem integFn_eval (val : ℤ → ℚ) (v h : ℚ) (k : ℤ) (x : ℚ) :
    (integFn val v h k).eval x = some (h + v * (x - val k)) := by
  unfold integFn
  split
  · rename_i h0; rw [h0]; simp [Fn.eval]
  · simp only [Fn.eval, Option.some.injEq]; ring

theorem integrate_fin (val : ℤ → ℚ) {acc : PF} {h v : ℚ} {k k' : ℤ} :
    integrate val ⟨acc, h, none, none⟩ (⟨fin k, fin k', brOf (fin k), .exc⟩, .fin v) =
      .ok ⟨acc ++ [(⟨fin k, fin k', brOf (fin k), .exc⟩, integFn val v h k)], h + v * (val k' - val k), none, none⟩ := by
  unfold integrate integFn
  by_cases h0 : v = 0
  · simp [h0, Integral.push]
  · simp only [h0, if_false, Integral.push, Except.ok.injEq, Integral.mk.injEq, true_and, and_true]
    ring

theorem integrate_loop (val : ℤ → ℚ) : ∀ (r : List (ℤ × ℚ)) (acc : PF) (h v : ℚ) (k : ℤ),
    (∃ z, ((k, v) :: r).getLast? = some (z, 0)) →
    (stepDens (fin k) v r).foldlM (integrate val) ⟨acc, h, none, none⟩ =
      .ok ⟨acc ++ tile (fin k) (integFn val v h k) (integL val (nextHead val v h k r) r) pinf,
        h + areaAll val ((k, v) :: r), none, none⟩
  | [], acc, h, v, k, ⟨z, hz⟩ => by
    simp only [List.getLast?_singleton, Option.some.injEq, Prod.mk.injEq] at hz
    obtain ⟨-, rfl⟩ := hz
    simp [stepDens, List.foldlM, integrate, Integral.push, integFn, integL, tile, areaAll, bind, Except.bind, pure,
      Except.pure]
  | (k', v') :: r, acc, h, v, k, ⟨z, hz⟩ => by
    rw [List.getLast?_cons_cons] at hz
    rw [stepDens, List.foldlM_cons, integrate_fin]
    simp only [bind, Except.bind]
    rw [integrate_loop val r _ _ v' k' ⟨z, hz⟩]
    simp only [integL, tile, nextHead, areaAll, List.append_assoc, List.singleton_append]
    rw [← add_assoc]

theorem stretch_tile (al : ℚ) {u : FP} : ∀ {l : List (ℤ × Fn)} {lo : FP} {f : Fn},
    PF.stretch (tile lo f l u) al = tile lo (f.stretch al) (l.map (fun s => (s.1, s.2.stretch al))) u
  | [], _, _ => rfl
  | (k, g) :: r, _, _ => by
    have := stretch_tile al (u := u) (l := r) (lo := fin k) (f := g)
    simp only [PF.stretch] at this
    simp only [tile, List.map_cons, PF.stretch, this]

theorem integL_last (val : ℤ → ℚ) {z : ℤ} : ∀ (r : List (ℤ × ℚ)) (h v : ℚ) (k : ℤ),
    ((k, v) :: r).getLast? = some (z, 0) →
    lastOf (integFn val v h k) (integL val (nextHead val v h k r) r) = .const (h + areaAll val ((k, v) :: r))
  | [], h, v, k, hz => by
    simp only [List.getLast?_singleton, Option.some.injEq, Prod.mk.injEq] at hz
    obtain ⟨-, rfl⟩ := hz
    simp [integL, lastOf, integFn, areaAll]
  | (k', v') :: r, h, v, k, hz => by
    rw [List.getLast?_cons_cons] at hz
    simp only [integL, lastOf]
    rw [integL_last val r _ v' k' hz]
    simp only [nextHead, areaAll]
    rw [← add_assoc]

theorem integL_fst (val : ℤ → ℚ) : ∀ (r : List (ℤ × ℚ)) (h : ℚ), (integL val h r).map Prod.fst = r.map Prod.fst
  | [], _ => rfl
  | (k, v) :: r, h => by simp [integL, integL_fst val r]

theorem integL_at {val : ℤ → ℚ} {n : ℤ} : ∀ (r : List (ℤ × ℚ)) (h v : ℚ) (k : ℤ),
    ((k, v) :: r).Pairwise (fun s t => s.1 < t.1) → k ≤ n → (∃ z, ((k, v) :: r).getLast? = some (z, 0)) →
    (tileAt (integFn val v h k) (integL val (nextHead val v h k r) r) n).eval (val n) =
      some (h + area val n ((k, v) :: r))
  | [], h, v, k, _, _, ⟨z, hz⟩ => by
    simp only [List.getLast?_singleton, Option.some.injEq, Prod.mk.injEq] at hz
    obtain ⟨-, rfl⟩ := hz
    simp [integL, tileAt, integFn_eval, area]
  | (k', v') :: r, h, v, k, hp, hn, ⟨z, hz⟩ => by
    rw [List.getLast?_cons_cons] at hz
    have hp' := List.pairwise_cons.1 hp
    have hkk : k < k' := hp'.1 (k', v') (by simp)
    simp only [integL, tileAt]
    by_cases h1 : n < k'
    · rw [if_pos h1, integFn_eval]
      have h0 : ∀ (r : List (ℤ × ℚ)) (k' : ℤ) (v' : ℚ), n ≤ k' → ((k', v') :: r).Pairwise (fun s t => s.1 < t.1) →
          area val n ((k', v') :: r) = 0 := by
        intro r
        induction r with
        | nil => intros; rfl
        | cons a r ih =>
          intro k' v' h2 h3
          have h4 : k' < a.1 := (List.pairwise_cons.1 h3).1 a (by simp)
          rw [area, ih a.1 a.2 (by omega) (List.pairwise_cons.1 h3).2, show max k' (min n a.1) = k' by omega]
          ring
      rw [area, h0 r k' v' h1.le hp'.2, show max k (min n k') = n by omega]
      simp
    · rw [if_neg h1, integL_at r _ v' k' hp'.2 (by omega) ⟨z, hz⟩]
      simp only [nextHead, area, show max k (min n k') = k' by omega, Option.some.injEq]
      ring

theorem area_before {val : ℤ → ℚ} {n : ℤ} : ∀ (r : List (ℤ × ℚ)) (k : ℤ) (v : ℚ), n ≤ k →
    ((k, v) :: r).Pairwise (fun s t => s.1 < t.1) → area val n ((k, v) :: r) = 0
  | [], _, _, _, _ => rfl
  | a :: r, k, v, h2, h3 => by
    have h4 : k < a.1 := (List.pairwise_cons.1 h3).1 a (by simp)
    rw [area, area_before r a.1 a.2 (by omega) (List.pairwise_cons.1 h3).2, show max k (min n a.1) = k by omega]
    ring

/-- The cdf before it is scaled. -/
def rawCdf (val : ℤ → ℚ) (K : List (ℤ × ℚ)) : PF := tile ninf (.const 0) (integL val 0 K) pinf

theorem rawCdf_at {val : ℤ → ℚ} {K : List (ℤ × ℚ)} (hK : K.Pairwise (fun s t => s.1 < t.1)) {z : ℤ}
    (hz : K.getLast? = some (z, 0)) (n : ℤ) : (rawCdf val K).eval val n = .ok (some (area val n K)) := by
  rw [rawCdf, tile_eval]
  cases K with
  | nil => simp at hz
  | cons a r =>
    obtain ⟨k, v⟩ := a
    simp only [integL, tileAt]
    split
    · rename_i h
      rw [area_before r k v h.le hK]; rfl
    · rename_i h
      rw [integL_at r 0 v k hK (by omega) ⟨z, hz⟩, zero_add]

theorem integL_split {val : ℤ → ℚ} {K : List (ℤ × ℚ)} {z : ℤ} (hz : K.getLast? = some (z, 0)) :
    ∃ l, integL val 0 K = l ++ [(z, .const (areaAll val K))] := by
  have h1 : (integL val 0 K) ≠ [] := by
    intro h
    have := integL_fst val K 0
    rw [h] at this
    cases K with
    | nil => simp at hz
    | cons a r => simp at this
  refine ⟨(integL val 0 K).dropLast, ?_⟩
  conv_lhs => rw [← List.dropLast_append_getLast h1]
  congr 2
  have h2 : ((integL val 0 K).getLast h1).1 = z := by
    have h3 : ((integL val 0 K).map Prod.fst).getLast? = some z := by
      rw [integL_fst, List.getLast?_map, hz]; rfl
    rw [List.getLast?_map, List.getLast?_eq_some_getLast h1] at h3
    simpa using h3
  have h4 : ((integL val 0 K).getLast h1).2 = .const (areaAll val K) := by
    cases K with
    | nil => simp at hz
    | cons a r =>
      obtain ⟨k, v⟩ := a
      have h5 := integL_last val r 0 v k hz
      rw [zero_add] at h5
      have h6 : lastOf (.const 0) (integL val 0 ((k, v) :: r)) = .const (areaAll val ((k, v) :: r)) := by
        simpa only [integL, lastOf] using h5
      have h7 := List.dropLast_append_getLast h1
      rw [← h7, show (integL val 0 ((k, v) :: r)).getLast h1 = (((integL val 0 ((k, v) :: r)).getLast h1).1,
        ((integL val 0 ((k, v) :: r)).getLast h1).2) from rfl, lastOf_append] at h6
      exact h6
  exact Prod.ext h2 h4

theorem area_end {val : ℤ → ℚ} {n : ℤ} : ∀ (K : List (ℤ × ℚ)), K.Pairwise (fun s t => s.1 < t.1) →
    (∀ s ∈ K, s.1 ≤ n) → area val n K = areaAll val K
  | [], _, _ => rfl
  | [_], _, _ => rfl
  | (k, v) :: (k', v') :: r, hp, h => by
    have h1 : k < k' := (List.pairwise_cons.1 hp).1 (k', v') (by simp)
    have h2 : k' ≤ n := h (k', v') (by simp)
    rw [area, areaAll, area_end ((k', v') :: r) (List.pairwise_cons.1 hp).2 (fun s hs => h s (by simp [hs])),
      show max k (min n k') = k' by omega]

theorem last_ge {K : List (ℤ × ℚ)} (hK : K.Pairwise (fun s t => s.1 < t.1)) {z : ℤ × ℚ} (hz : K.getLast? = some z) :
    ∀ s ∈ K, s.1 ≤ z.1 := by
  obtain ⟨l, rfl⟩ := List.getLast?_eq_some_iff.1 hz
  intro s hs
  rcases List.mem_append.1 hs with h | h
  · exact ((List.pairwise_append.1 hK).2.2 s h z (by simp)).le
  · simp only [List.mem_singleton] at h; rw [h]

theorem raw_fold {val : ℤ → ℚ} {K : List (ℤ × ℚ)} {z : ℤ} (hz : K.getLast? = some (z, 0)) :
    (stepDens ninf 0 K).foldlM (integrate val) ⟨[], 0, none, none⟩ =
      .ok ⟨rawCdf val K, areaAll val K, none, none⟩ := by
  cases K with
  | nil => simp at hz
  | cons a r =>
    obtain ⟨k, v⟩ := a
    have h0 : integrate val ⟨[], 0, none, none⟩ (⟨ninf, fin k, brOf ninf, .exc⟩, .fin 0) =
        .ok ⟨[(⟨ninf, fin k, brOf ninf, .exc⟩, .const 0)], 0, none, none⟩ := by
      simp [integrate, Integral.push]
    rw [stepDens, List.foldlM_cons, h0]
    simp only [bind, Except.bind]
    rw [integrate_loop val r _ 0 v k ⟨z, hz⟩]
    simp [rawCdf, integL, tile]

theorem raw_last {val : ℤ → ℚ} {pick : CS → ℤ}
    (hpick : ∀ z, z ≤ pick ⟨fin z, pinf, .inc, .exc⟩) {K : List (ℤ × ℚ)}
    (hK : K.Pairwise (fun s t => s.1 < t.1)) {z : ℤ} (hz : K.getLast? = some (z, 0)) :
    lastValue val pick (rawCdf val K) = .ok (areaAll val K) := by
  obtain ⟨l, hl⟩ := integL_split (val := val) hz
  have h1 : (rawCdf val K).getLast? = some (⟨fin z, pinf, .inc, .exc⟩, .const (areaAll val K)) := by
    rw [rawCdf, hl]; exact tile_getLast.1
  have h2 := rawCdf_at (val := val) hK hz (pick ⟨fin z, pinf, .inc, .exc⟩)
  rw [area_end K hK (fun s hs => (last_ge hK hz s hs).trans (hpick z))] at h2
  simp only [lastValue, h1, h2, bind, Except.bind]

/-- What integrating a step density gives. -/
theorem pdfToCdf_steps {val : ℤ → ℚ} {pick : CS → ℤ}
    (hpick : ∀ z, z ≤ pick ⟨fin z, pinf, .inc, .exc⟩) {K : List (ℤ × ℚ)}
    (hK : K.Pairwise (fun s t => s.1 < t.1)) {z : ℤ} (hz : K.getLast? = some (z, 0)) :
    pdfToCdf val pick (stepDens ninf 0 K) =
      if 1 + tol < areaAll val K then .error .valueError
      else if areaAll val K = 0 then .error .zeroDivision
      else .ok (PF.stretch (rawCdf val K) (1 / areaAll val K)) := by
  simp only [pdfToCdf, raw_fold hz, raw_last hpick hK hz, offsets, bind, Except.bind]
  by_cases h1 : 1 + tol < areaAll val K
  · rw [if_pos (by linarith), if_pos h1]
  · rw [if_neg (by linarith), if_neg h1]

end Verif.Num
