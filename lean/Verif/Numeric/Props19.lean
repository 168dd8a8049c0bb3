import Verif.Numeric.RegLemmas3

/-!
# C98: the simplified CDF stays close to the data
-/

namespace Verif.Num

/-- The simplification with tolerance `eps` and without a limit on the splits, for all points with increasing abscissae: on
every piece between neighbouring support points `a` and `b`, the mean squared deviation of the points `a, …, b` from the
line through `a` and `b` is below `eps²`.

Partial: it need not be if no single split of the piece reduces the sum of squared deviations (`C98_violated_stuck`), nor on
the last piece, where it is only ensured for the points up to some point `k` inside (`C98_violated_last`). -/
theorem C98_tolerance_partial (d : Pts) {eps : ℚ} (he : eps ≠ 0) (hn : 2 ≤ d.n)
    (hx : ∀ i k, i < k → k < d.n → d.x i < d.x k) :
    ∃ pts, Reg.fit d eps none = some pts ∧ pts.IsChain (fun a b =>
      d.sq a b / ((b : ℚ) - a + 1) < eps ^ 2 ∨
      (∀ k, a < k → k < b → d.sq a b ≤ d.sq a k + d.sq k b) ∨
      (b = d.n - 1 ∧ ∃ k, a < k ∧ k < b ∧
        (Finset.Icc a k).sum (fun i => (d.y i - d.chord a b i) ^ 2) / ((k : ℚ) - a + 1) < eps ^ 2)) := by
  obtain ⟨pts, h1, h2⟩ := Reg.fit_err (d := d) (eps := eps) hn hx
  obtain ⟨pts', h1', h3, -, h4⟩ := Reg.fit_spec (d := d) (eps := eps) (ms := none) hn
  obtain rfl : pts = pts' := by
    rw [h1] at h1'
    exact Option.some.inj h1'
  have hbd : ∀ b ∈ pts, b < d.n := by
    obtain ⟨l, rfl⟩ := List.getLast?_eq_some_iff.1 h4
    intro b hb
    rcases List.mem_append.1 hb with hb | hb
    · have := (List.pairwise_append.1 h3).2.2 b hb (d.n - 1) (by simp)
      omega
    · simp at hb
      omega
  refine ⟨pts, h1, ?_⟩
  have hpos : 0 < eps ^ 2 := by positivity
  rw [List.isChain_iff_getElem] at h2 ⊢
  intro i hi
  have hlt := List.pairwise_iff_getElem.1 h3 i (i + 1) (by omega) hi (by omega)
  have hb := hbd pts[i + 1] (List.getElem_mem hi)
  have hi' := h2 i hi
  generalize pts[i] = a at *
  generalize pts[i + 1] = b at *
  have hq : (a : ℚ) < b := by exact_mod_cast hlt
  have hxab := hx a b hlt hb
  rw [← pow_two] at hi'
  rcases hi' with (h | h | h) | h | ⟨h, k, hk1, hk2, hk⟩
  · left
    have hba : b = a + 1 := by omega
    subst hba
    have hz : d.sq a (a + 1) = 0 := by
      unfold Pts.sq
      apply Finset.sum_eq_zero
      intro i hi
      rw [Finset.mem_Icc] at hi
      have hne : d.x (a + 1) - d.x a ≠ 0 := by
        have := hxab
        intro h
        linarith
      have : i = a ∨ i = a + 1 := by omega
      rcases this with rfl | rfl
      · simp [Pts.chord]
      · simp only [Pts.chord]
        rw [div_mul_cancel₀ _ hne]
        ring
    rw [hz, zero_div]
    exact hpos
  · left
    refine lt_of_le_of_lt ?_ h
    have h0 : 0 ≤ d.sq a b := Reg.sq_nonneg' a b
    exact div_le_div_of_nonneg_left h0 (by linarith) (by linarith)
  · exact Or.inr (Or.inl h)
  · exact Or.inl h
  · exact Or.inr (Or.inr ⟨h, k, hk1, hk2, hk⟩)

/-- Points with the given ordinates, at the abscissae 0, 1, 2, …. -/
def ordinates (l : List ℚ) : Pts := ⟨l.length, fun i => (i : ℚ), fun i => l.getD i 0⟩

/-- Two straight parts: the corner is kept, the points on the lines are not. -/
example : 2 ≤ (ordinates [0, 1 / 8, 2 / 8, 3 / 8, 4 / 8, 1 / 2 + 1 / 4, 1]).n ∧
    Reg.fit (ordinates [0, 1 / 8, 2 / 8, 3 / 8, 4 / 8, 1 / 2 + 1 / 4, 1]) (1 / 100) none = some [0, 4, 6] := by
  decide +kernel

/-- On the last piece the tolerance can be exceeded: `_backward` starts to measure at the last but one candidate, so that what
lies between it and the end is not counted.  Here seven points of a distribution function are replaced by a single line, with a
mean squared deviation of more than twice the tolerance squared. -/
theorem C98_violated_last :
    let d := ordinates [0, 3 / 18, 8 / 18, 10 / 18, 11 / 18, 13 / 18, 1]
    Reg.fit d (2 / 45) none = some [0, 6] ∧ 2 * (2 / 45) ^ 2 < d.sq 0 6 / 7 := by decide +kernel

/-- A piece that zigzags around its line is kept as it is, if no single split improves it, however small the tolerance: the
piece from 1 to 5 deviates by 1/50 at every inner point, with a tolerance of 1/100. -/
theorem C98_violated_stuck :
    let d := ordinates [0, 1 / 2, 1 / 2 + 1 / 8 + 1 / 50, 1 / 2 + 2 / 8 - 1 / 50, 1 / 2 + 3 / 8 + 1 / 50, 1]
    Reg.fit d (1 / 100) none = some [0, 1, 5] ∧ 2 * (1 / 100) ^ 2 < d.sq 1 5 / 5 := by decide +kernel

end Verif.Num
