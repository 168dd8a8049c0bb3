import Verif.Numeric.FitLemmas3
import Verif.Functions.Props

/-!
# Properties of fitted quantile distributions

C35 (fitted cdfs), C60 (support points of the CDF regressor), C66 (the splits it chooses).

`val n` is the number of the `n`-th finite float.
-/

namespace Verif.Num

open Iv Iv.FP Fun

/-! ## C35 -/

/-- The sample that is fitted: the data, and the optional imaginary outermost points. -/
def sample (data : List ℤ) (leftmost rightmost : Option ℤ) : List ℤ :=
  leftmost.toList ++ data ++ rightmost.toList

/-- Fitting any sample with at least two different values succeeds.  The cdf is defined at every float,
monotone, 0 before the least sample and 1 from the greatest sample on.  It runs straight between kept
sample points, among them the least and the greatest sample, and has the empirical rank as value at
each of them. -/
theorem C35_fit {val : ℤ → ℚ} (hval : StrictMono val) (eps : ℚ) (data : List ℤ)
    (leftmost rightmost : Option ℤ) (hl : ∀ v ∈ leftmost, ∀ x ∈ data, v < x)
    (hr : ∀ v ∈ rightmost, ∀ x ∈ data, x < v) {lo hi : ℤ}
    (hlo : lo ∈ sample data leftmost rightmost) (hhi : hi ∈ sample data leftmost rightmost)
    (hlt : lo < hi) (hmin : ∀ x ∈ sample data leftmost rightmost, lo ≤ x)
    (hmax : ∀ x ∈ sample data leftmost rightmost, x ≤ hi) :
    ∃ p F, fit val eps data leftmost rightmost = .ok p ∧ (∀ n, p.eval val n = .ok (some (F n))) ∧
      Monotone F ∧ (∀ n, n < lo → F n = 0) ∧ (∀ n, hi ≤ n → F n = 1) ∧
      ∃ K, RunsFromTo K lo hi ∧ StraightBetween val K F ∧
        ∀ k ∈ K, k ∈ sample data leftmost rightmost ∧ F k = rank (sample data leftmost rightmost) k := by
  have hs : loadBuffer data leftmost rightmost = .ok (sample data leftmost rightmost) :=
    loadBuffer_ok hl hr
  obtain ⟨pts, p, F, hp, -, heval, hthr, hrise, hlen, hhead, hlast, hpts⟩ :=
    fit_spec hval (eps := eps) hs hlo hhi hlt hmin hmax
  have h2 := length_two hlo hhi (by omega)
  have hat : ∀ (i : ℕ) (a b : ℤ × ℚ), pts[i]? = some a → pts[i + 1]? = some b →
      F a.1 = a.2 ∧ F b.1 = b.2 := by
    intro i a b ha hb
    have hab := rising_get hrise ha hb
    refine ⟨?_, ?_⟩
    · rw [hthr.on i a b ha hb a.1 le_rfl hab.1.le]; ring
    · rw [hthr.on i a b ha hb b.1 hab.1.le le_rfl, lineOf_end hval hab.1]
  refine ⟨p, F, hp, heval,
    hthr.monotone hval hrise hhead hlast (rank_nonneg hlo h2) hlen, ?_, ?_, pts.map (·.1), ⟨?_, ?_, ?_⟩,
    ?_, ?_⟩
  · intro n hn
    exact hthr.before n (fun q hq => by have := hmin _ (hpts q hq).1; omega)
  · intro n hn
    exact hthr.after n (fun q hq => by have := hmax _ (hpts q hq).1; omega)
  · rw [List.pairwise_map]; exact hrise.imp (fun h => h.1)
  · rw [List.head?_map, hhead]; rfl
  · rw [List.getLast?_map, hlast]; rfl
  · intro i a b ha hb n hn1 hn2
    rw [List.getElem?_map, Option.map_eq_some_iff] at ha hb
    obtain ⟨a', ha', rfl⟩ := ha
    obtain ⟨b', hb', rfl⟩ := hb
    have hab := rising_get hrise ha' hb'
    have hv : val b'.1 - val a'.1 ≠ 0 := sub_ne_zero.2 (ne_of_gt (hval hab.1))
    rw [(hat i a' b' ha' hb').1, (hat i a' b' ha' hb').2, hthr.on i a' b' ha' hb' n hn1 hn2]
    field_simp
    ring
  · intro k hk
    obtain ⟨q, hq, rfl⟩ := List.mem_map.1 hk
    refine ⟨(hpts q hq).1, ?_⟩
    rw [← (hpts q hq).2]
    obtain ⟨i, hi, rfl⟩ := List.getElem_of_mem hq
    by_cases hi2 : i + 1 < pts.length
    · exact (hat i _ _ (List.getElem?_eq_getElem hi) (List.getElem?_eq_getElem hi2)).1
    · have h1 : pts[i - 1]? = some pts[i - 1] := List.getElem?_eq_getElem (by omega)
      have h3 : pts[i - 1 + 1]? = some pts[i] := by
        rw [show i - 1 + 1 = i by omega]; exact List.getElem?_eq_getElem hi
      exact (hat (i - 1) _ _ h1 h3).2

instance : DecidableEq (List (CS × Fn)) := inferInstance

/-- `[3, 1, 1, 7]`: rank 1/3 at 1 (two of four samples), 2/3 at 3, 1 at 7. -/
example : fit ival (1 / 100) [3, 1, 1, 7] = .ok
    [(⟨ninf, fin 1, .exc, .exc⟩, .const 0), (co 1 3, .lin (1 / 6) (1 / 6)),
      (co 3 8, .lin (1 / 12) (5 / 12)), (⟨fin 8, pinf, .inc, .exc⟩, .const 1)] := by
  decide +kernel

example : ∃ (p : PF) (F : ℤ → ℚ), fit ival (1 / 100) [3, 1, 1, 7] none (some 9) = .ok p ∧
    (∀ n, p.eval ival n = .ok (some (F n))) ∧ F 1 = 1 / 4 := by
  obtain ⟨p, F, h1, h2, -, -, -, K, hK, -, h3⟩ := C35_fit ival_strictMono (1 / 100) [3, 1, 1, 7] none
    (some 9) (by simp) (by simp) (lo := 1) (hi := 9) (by decide) (by decide) (by decide)
    (by decide) (by decide)
  refine ⟨p, F, h1, h2, ?_⟩
  have h1K : 1 ∈ K := List.mem_of_head? hK.2.1
  rw [(h3 1 h1K).2]
  decide +kernel

/-- A sample of equal values: the cdf jumps from 0 to 1 at the value. -/
theorem C35_constant {val : ℤ → ℚ} (eps : ℚ) (data : List ℤ) {x : ℤ} (hx : x ∈ data)
    (hall : ∀ y ∈ data, y = x) :
    ∃ p, fit val eps data = .ok p ∧
      ∀ n, p.eval val n = .ok (some (if n < x then 0 else 1)) := by
  refine ⟨jumpCdf x, fit_single (loadBuffer_ok (by simp) (by simp)) (by simpa using hx)
    (by simpa using hall), ?_⟩
  intro n
  have : jumpCdf x = tile ninf (.const 0) [(x, .const 1)] pinf := rfl
  rw [this, tile_eval]
  simp only [tileAt]
  split <;> rfl

example : fit ival (1 / 100) [4, 4, 4] = .ok (jumpCdf 4) := by decide +kernel

/-- An empty sample cannot be fitted. -/
theorem C35_empty {val : ℤ → ℚ} (eps : ℚ) : ∃ e, fit val eps [] = .error e := ⟨_, fit_empty⟩

/-- A sample that is not strictly between the imaginary outermost points is rejected. -/
theorem C35_bounds {val : ℤ → ℚ} (eps : ℚ) (data : List ℤ) (leftmost rightmost : Option ℤ)
    (h : (∃ v ∈ leftmost, ∃ x ∈ data, x ≤ v) ∨ (∃ v ∈ rightmost, ∃ x ∈ data, v ≤ x)) :
    fit val eps data leftmost rightmost = .error .assertionError := by
  have : loadBuffer data leftmost rightmost = .error .assertionError := by
    unfold loadBuffer
    rw [if_pos]
    rcases h with ⟨v, hv, x, hx, h⟩ | ⟨v, hv, x, hx, h⟩
    · exact .inl ⟨x, hx, v, hv, by omega⟩
    · exact .inr ⟨x, hx, v, hv, by omega⟩
  simp [fit, this, bind, Except.bind]

example : fit ival (1 / 100) [3, 5] (some 3) none = .error .assertionError :=
  C35_bounds _ _ _ _ (.inl ⟨3, rfl, 3, by simp, le_rfl⟩)

/-! ## C60 -/

/-- For every data array of at least two points with increasing abscissae, every `eps` and every
`max_splits` the regressor terminates, and the support points are a strictly increasing sequence of
indices from the first to the last point. -/
theorem C60_support_points (d : Pts) (eps : ℚ) (maxSplits : Option ℕ) (hn : 2 ≤ d.n) :
    ∃ pts, Reg.fit d eps maxSplits = some pts ∧ pts.Pairwise (· < ·) ∧ pts.head? = some 0 ∧
      pts.getLast? = some (d.n - 1) :=
  Reg.fit_spec hn

/-- So the support points themselves have strictly increasing abscissae. -/
theorem C60_increasing (d : Pts) (eps : ℚ) (maxSplits : Option ℕ) (hn : 2 ≤ d.n)
    (hx : ∀ i j, i < j → j < d.n → d.x i < d.x j) :
    ∃ pts, Reg.fit d eps maxSplits = some pts ∧ (pts.map d.x).Pairwise (· < ·) := by
  obtain ⟨pts, h1, h2, -, h4⟩ := C60_support_points d eps maxSplits hn
  refine ⟨pts, h1, ?_⟩
  rw [List.pairwise_map]
  refine h2.imp_of_mem ?_
  intro i j hi hj hij
  refine hx i j hij ?_
  obtain ⟨l, rfl⟩ := List.getLast?_eq_some_iff.1 h4
  rcases List.mem_append.1 hj with hj | hj
  · have := (List.pairwise_append.1 h2).2.2 j hj (d.n - 1) (by simp); omega
  · simp at hj; omega

/-- Five points with a corner in the middle. -/
def corner : Pts := ⟨5, fun i => (i : ℚ), fun i => if i ≤ 2 then (i : ℚ) else 2⟩

example : Reg.fit corner (1 / 100) none = some [0, 2, 4] := by decide +kernel

/-- With fewer than two points there is nothing to simplify; the code reads an empty queue. -/
theorem C60_too_few (d : Pts) (eps : ℚ) (maxSplits : Option ℕ) (hn : d.n < 2) :
    Reg.fit d eps maxSplits = none := by
  simp [Reg.fit, Reg.backward, show ¬ d.n > 1 by omega]

/-! ## C66 -/

/-- The split chosen between the points `start` and `stop` is the first one that minimises the sum of
the squared deviations from the two chords, and it is an improvement; nothing is split iff no split is
an improvement over the given mean squared error. -/
theorem C66_best_split (d : Pts) (eps : ℚ) (j : Reg.Job) (h2 : j.start + 2 ≤ j.stop)
    (hx : ∀ i k, j.start ≤ i → i < k → k ≤ j.stop → d.x i < d.x k) :
    (∀ b js, Reg.forward d eps none j = (some b, js) →
      j.start < b ∧ b < j.stop ∧
      (∀ k, j.start < k → k < j.stop →
        d.sq j.start b + d.sq b j.stop ≤ d.sq j.start k + d.sq k j.stop) ∧
      (∀ k, j.start < k → k < b →
        d.sq j.start b + d.sq b j.stop < d.sq j.start k + d.sq k j.stop) ∧
      (j.mse < 0 ∨ (d.sq j.start b + d.sq b j.stop) / ((j.stop : ℚ) - j.start) < j.mse)) ∧
    (∀ js, Reg.forward d eps none j = (none, js) → 0 ≤ j.mse ∧
      ∀ k, j.start < k → k < j.stop →
        j.mse ≤ (d.sq j.start k + d.sq k j.stop) / ((j.stop : ℚ) - j.start)) := by
  have hab : j.start < j.stop := by omega
  have hq : (0 : ℚ) < (j.stop : ℚ) - j.start := by
    have : (j.start : ℚ) < j.stop := by exact_mod_cast hab
    linarith
  have inv := Reg.scan_inv (d := d) (mse := j.mse) hab hx
  have hcond : ¬ (j.stop - j.start < 2 ∨ ∃ m ∈ (none : Option ℕ), 0 < m ∧ m ≤ j.depth) := by
    simp; omega
  unfold Reg.forward
  rw [if_neg hcond]
  cases hb : (Reg.scan d j.start j.stop j.mse).best with
  | none =>
    simp only [hb, Prod.mk.injEq, reduceCtorEq, false_and, false_imp_iff, implies_true, true_and]
    intro js _
    have hn := inv.none_case hb
    exact ⟨(hn.2 (j.start + 1) (by omega) (by omega)).1, fun k h1 h3 => (hn.2 k h1 h3).2⟩
  | some b =>
    simp only [hb, Prod.mk.injEq, reduceCtorEq, false_and, false_imp_iff, implies_true, and_true,
      Option.some.injEq]
    rintro b' js ⟨rfl, -⟩
    have hs := inv.some_case b hb
    refine ⟨hs.1, hs.2.1, ?_, ?_, hs.2.2.2.2.2.2.2⟩
    · intro k h1 h3
      have := hs.2.2.2.2.2.1 k h1 h3
      exact (div_le_div_iff_of_pos_right hq).1 this
    · intro k h1 h3
      have := hs.2.2.2.2.2.2.1 k h1 h3
      exact (div_lt_div_iff_of_pos_right hq).1 this

/-- The two parts are split further iff their mean squared deviation is at least `eps`. -/
theorem C66_continue (d : Pts) (eps : ℚ) (j : Reg.Job) (h2 : j.start + 2 ≤ j.stop)
    (hx : ∀ i k, j.start ≤ i → i < k → k ≤ j.stop → d.x i < d.x k) (b : ℕ) (js : List Reg.Job)
    (h : Reg.forward d eps none j = (some b, js)) (k : Reg.Job) :
    k ∈ js ↔
      (k = ⟨j.start, b, d.sq j.start b / ((b : ℚ) - j.start), j.depth + 1⟩ ∧
        eps ≤ d.sq j.start b / ((b : ℚ) - j.start)) ∨
      (k = ⟨b, j.stop, d.sq b j.stop / ((j.stop : ℚ) - b), j.depth + 1⟩ ∧
        eps ≤ d.sq b j.stop / ((j.stop : ℚ) - b)) := by
  have hab : j.start < j.stop := by omega
  have inv := Reg.scan_inv (d := d) (mse := j.mse) hab hx
  have hcond : ¬ (j.stop - j.start < 2 ∨ ∃ m ∈ (none : Option ℕ), 0 < m ∧ m ≤ j.depth) := by
    simp; omega
  unfold Reg.forward at h
  rw [if_neg hcond] at h
  cases hb : (Reg.scan d j.start j.stop j.mse).best with
  | none => simp [hb] at h
  | some b' =>
    simp only [hb, Prod.mk.injEq, Option.some.injEq] at h
    obtain ⟨rfl, rfl⟩ := h
    have hs := inv.some_case b' hb
    rw [hs.2.2.2.1, hs.2.2.2.2.1]
    by_cases h1 : eps ≤ d.sq j.start b' / ((b' : ℚ) - j.start) <;>
      by_cases h3 : eps ≤ d.sq b' j.stop / ((j.stop : ℚ) - b') <;> simp [h1, h3, ge_iff_le]

example : (Reg.forward corner (1 / 100) none ⟨0, 4, -1, 0⟩).1 = some 2 ∧
    corner.sq 0 2 = 0 ∧ corner.sq 2 4 = 0 ∧ 0 < corner.sq 0 1 + corner.sq 1 4 := by
  decide +kernel

end Verif.Num
