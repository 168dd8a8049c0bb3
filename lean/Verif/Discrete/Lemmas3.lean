import Verif.Discrete.Lemmas2
import Mathlib.Order.Interval.Finset.Basic
import Mathlib.Data.Int.Interval
import Mathlib.Algebra.BigOperators.Ring.Finset
import Mathlib.Algebra.BigOperators.Group.Finset.Sigma
import Mathlib.Algebra.BigOperators.Group.Finset.Piecewise

/-! # Lemmas on sums of integer distributions -/

namespace Verif.Disc

open Finset

/-- The probability of one integer. -/
def IDist.pmf (d : IDist) (z : ℤ) : ℚ := d.params.getD (z - d.lmin).toNat 0

/-- The bounds are ordered and the parameters form a distribution. -/
def IDist.Proper (d : IDist) : Prop := d.lmin ≤ d.lmax ∧ d.toDist.Proper

theorem sum_intLabels (a b : ℤ) (f : ℤ → ℚ) :
    ((intLabels a b).map f).sum = ∑ z ∈ Icc a b, f z := by
  have h : Icc a b = (intLabels a b).toFinset := by
    ext x; simp [mem_intLabels]
  rw [h, List.sum_toFinset _ (intLabels_nodup a b)]

theorem zipWith_eq_map {A B : Type} (f : A → ℚ → B) (g : A → ℚ) : ∀ (ls : List A) (ps : List ℚ),
    ps.length = ls.length → (∀ (i : ℕ) l, ls[i]? = some l → ps[i]? = some (g l)) →
    List.zipWith f ls ps = ls.map fun l => f l (g l)
  | [], [], _, _ => rfl
  | [], _ :: _, h, _ => by simp at h
  | _ :: _, [], h, _ => by simp at h
  | l :: ls, p :: ps, h, hg => by
    have h0 := hg 0 l rfl
    simp at h0
    rw [List.zipWith_cons_cons, List.map_cons, zipWith_eq_map f g ls ps (by simpa using h)
      (fun i l hl => by simpa using hg (i + 1) l (by simpa using hl)), h0]

theorem params_pmf (d : IDist) (hlen : d.params.length = (intLabels d.lmin d.lmax).length)
    (i : ℕ) (l : ℤ) (h : (intLabels d.lmin d.lmax)[i]? = some l) : d.params[i]? = some (d.pmf l) := by
  have hi := (List.getElem?_eq_some_iff.1 h).1
  have hm : l ∈ intLabels d.lmin d.lmax := List.mem_of_getElem? h
  have h2 := intLabels_get (mem_intLabels.1 hm)
  obtain ⟨hi', he⟩ := List.getElem?_eq_some_iff.1 h
  obtain ⟨hj', he'⟩ := List.getElem?_eq_some_iff.1 h2
  have hij := (List.Nodup.getElem_inj_iff (intLabels_nodup d.lmin d.lmax)).1 (he.trans he'.symm)
  have hp : i < d.params.length := by rw [hlen]; exact hi
  unfold IDist.pmf
  rw [← hij]
  simp [hp]

theorem expect_pmf (d : IDist) (hlen : d.params.length = (intLabels d.lmin d.lmax).length)
    (f : ℤ → ℚ) : expect (intLabels d.lmin d.lmax) d.params f
      = ∑ z ∈ Icc d.lmin d.lmax, f z * d.pmf z := by
  unfold expect
  rw [zipWith_eq_map _ d.pmf _ _ hlen (params_pmf d hlen), sum_intLabels]

theorem intP_pmf (d : IDist) (hlen : d.params.length = (intLabels d.lmin d.lmax).length) {z : ℤ}
    (hz : d.lmin ≤ z ∧ z ≤ d.lmax) : d.toDist.intP (.atom z) = .ok (d.pmf z) := by
  have hn := intLabels_nodup d.lmin d.lmax
  rw [intP_eq, p_eq d.toDist hn hlen, if_pos]
  · unfold Dist.P
    congr 1
    have hg := intLabels_get hz
    have := mass_single (intLabels d.lmin d.lmax) d.params _ z _ hn hg (params_pmf d hlen _ _ hg)
    rw [← this]
    exact mass_congr_set _ _ _ _ (fun l _ => by simp [Arg.elems])
  · intro l hl
    simp only [Arg.elems, List.mem_singleton] at hl
    subst hl
    exact mem_intLabels.2 hz

/-- A `mapM` whose calls all succeed. -/
theorem mapM_ok_map {A B : Type} (f : A → Except Err B) (g : A → B) : ∀ (l : List A),
    (∀ a ∈ l, f a = .ok (g a)) → l.mapM f = .ok (l.map g)
  | [], _ => rfl
  | a :: l, h => by
    rw [List.mapM_cons, h a List.mem_cons_self,
      mapM_ok_map f g l (fun b hb => h b (List.mem_cons_of_mem _ hb))]
    rfl

/-- The convolution of two integer distributions at `z`. -/
def convAt (d e : IDist) (z : ℤ) : ℚ :=
  ∑ k ∈ Icc d.lmin d.lmax, d.pmf k * if e.lmin ≤ z - k ∧ z - k ≤ e.lmax then e.pmf (z - k) else 0

theorem add_ok (d e : IDist) (hd : d.Proper) (he : e.Proper) :
    d.add e = .ok ⟨d.name ++ "+" ++ e.name, d.lmin + e.lmin, d.lmax + e.lmax,
      (intLabels (d.lmin + e.lmin) (d.lmax + e.lmax)).map (convAt d e)⟩ := by
  have hd2 : d.params.length = (intLabels d.lmin d.lmax).length := hd.2.2.1
  have he2 : e.params.length = (intLabels e.lmin e.lmax).length := he.2.2.1
  unfold IDist.add
  have h1 : integerType (d.name ++ "+" ++ e.name) (d.lmin + e.lmin) (d.lmax + e.lmax)
      = .ok ⟨d.name ++ "+" ++ e.name, intLabels (d.lmin + e.lmin) (d.lmax + e.lmax)⟩ := by
    unfold integerType
    rw [if_neg]
    have := hd.1; have := he.1
    omega
  rw [h1]
  simp only [bind, Except.bind]
  rw [mapM_ok_map _ (convAt d e)]
  · simp only [Dist.mk?, List.length_map]
    simp
    rfl
  · intro z _
    rw [mapM_ok_map _ (fun k => d.pmf k * if e.lmin ≤ z - k ∧ z - k ≤ e.lmax then e.pmf (z - k) else 0)]
    · simp only [sum_intLabels, convAt, pure, Except.pure]
    · intro k hk
      rw [intP_pmf d hd2 (mem_intLabels.1 hk)]
      split_ifs with hz
      · rw [intP_pmf e he2 hz]; rfl
      · rfl

theorem getD_map_intLabels (a b : ℤ) (f : ℤ → ℚ) {z : ℤ} (hz : a ≤ z ∧ z ≤ b) :
    ((intLabels a b).map f).getD (z - a).toNat 0 = f z := by
  rw [List.getD_eq_getElem?_getD, List.getElem?_map, intLabels_get hz]
  rfl

/-- Summing against the convolution is summing over all pairs. -/
theorem sum_convAt (d e : IDist) (f : ℤ → ℚ) :
    ∑ z ∈ Icc (d.lmin + e.lmin) (d.lmax + e.lmax), f z * convAt d e z
      = ∑ k ∈ Icc d.lmin d.lmax, ∑ j ∈ Icc e.lmin e.lmax, d.pmf k * e.pmf j * f (k + j) := by
  unfold convAt
  simp_rw [Finset.mul_sum]
  rw [Finset.sum_comm]
  refine Finset.sum_congr rfl (fun k hk => ?_)
  rw [Finset.mem_Icc] at hk
  have h1 : ∀ z ∈ Icc (d.lmin + e.lmin) (d.lmax + e.lmax),
      f z * (d.pmf k * if e.lmin ≤ z - k ∧ z - k ≤ e.lmax then e.pmf (z - k) else 0)
        = if e.lmin ≤ z - k ∧ z - k ≤ e.lmax then f z * (d.pmf k * e.pmf (z - k)) else 0 := by
    intro z _
    split_ifs <;> simp
  rw [Finset.sum_congr rfl h1, ← Finset.sum_filter]
  refine Finset.sum_bij' (fun z _ => z - k) (fun j _ => k + j) ?_ ?_ ?_ ?_ ?_
  · intro z hz
    rw [Finset.mem_filter] at hz
    rw [Finset.mem_Icc]; exact hz.2
  · intro j hj
    rw [Finset.mem_Icc] at hj
    rw [Finset.mem_filter, Finset.mem_Icc]
    omega
  · intro z _; omega
  · intro j _; omega
  · intro z _
    rw [show k + (z - k) = z by omega]
    ring

theorem convAt_nonneg (d e : IDist) (hd : ∀ p ∈ d.params, 0 ≤ p) (he : ∀ p ∈ e.params, 0 ≤ p)
    (z : ℤ) : 0 ≤ convAt d e z := by
  have hp : ∀ (d : IDist), (∀ p ∈ d.params, 0 ≤ p) → ∀ k, 0 ≤ d.pmf k := by
    intro d hd k
    unfold IDist.pmf
    rw [List.getD_eq_getElem?_getD]
    cases h : d.params[(k - d.lmin).toNat]? with
    | none => simp
    | some p => exact hd p (List.mem_of_getElem? h)
  refine Finset.sum_nonneg (fun k _ => mul_nonneg (hp d hd k) ?_)
  split_ifs
  · exact hp e he _
  · exact le_refl _

theorem sum_pmf (d : IDist) (hd : d.Proper) : ∑ z ∈ Icc d.lmin d.lmax, d.pmf z = 1 := by
  have hlen : d.params.length = (intLabels d.lmin d.lmax).length := hd.2.2.1
  have hs : d.params.sum = 1 := hd.2.2.2.2
  rw [← hs, ← mass_univ (intLabels d.lmin d.lmax) d.params (fun _ => True) hlen (fun _ _ => trivial)]
  unfold mass
  rw [zipWith_eq_map _ d.pmf _ _ hlen (params_pmf d hlen), sum_intLabels]
  simp

end Verif.Disc
