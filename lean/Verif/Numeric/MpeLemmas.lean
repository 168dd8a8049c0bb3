import Verif.Numeric.QueryLemmas3
import Verif.Intervals.Lemmas10

/-! # Most probable explanations of numeric distributions -/

namespace Verif.Num

open Iv Iv.FP Fun

theorem XQ_total (a b : XQ) : a.le b = true ∨ b.le a = true := by
  cases a <;> cases b <;> simp [XQ.le, le_total]

theorem XQ_trans {a b c : XQ} (h1 : a.le b = true) (h2 : b.le c = true) : a.le c = true := by
  cases a <;> cases b <;> cases c <;> simp_all [XQ.le]
  exact le_trans h1 h2

instance : Std.Total (fun a b : XQ => b.le a = true) := ⟨fun a b => (XQ_total a b).symm⟩
instance : IsTrans XQ (fun a b : XQ => b.le a = true) := ⟨fun _ _ _ h1 h2 => XQ_trans h2 h1⟩

theorem sorted_likelihoods (d : Dens) :
    ((likelihoods d).insertionSort (fun a b => b.le a = true)).Pairwise (fun a b => b.le a = true) :=
  List.pairwise_insertionSort _ _

/-- Explanations, if the intervals of positive density are half-open. -/
theorem kMpe_spec {d : Dens} (hd : ∀ s ∈ d, s.2 ≠ .fin 0 → s.1.HalfOpenOrEmpty) (k : Option ℕ) :
    ∃ out, kMpe d k = .ok out ∧
      out.map Prod.snd = ((likelihoods d).insertionSort (fun a b => b.le a = true)).take
        (k.getD (likelihoods d).length) ∧
      ∀ e ∈ out, ∀ x, e.1.Mem x ↔ ∃ s ∈ d, s.2 = e.2 ∧ s.1.Mem x := by
  unfold kMpe
  simp only
  have hmem : ∀ v ∈ ((likelihoods d).insertionSort (fun a b => b.le a = true)).take (k.getD (likelihoods d).length),
      v ≠ .fin 0 := by
    intro v hv
    have := (List.perm_insertionSort _ _).mem_iff.1 (List.mem_of_mem_take hv)
    simp only [likelihoods, List.mem_filter] at this
    simpa using this.2
  generalize ((likelihoods d).insertionSort (fun a b => b.le a = true)).take (k.getD (likelihoods d).length) = l at hmem ⊢
  induction l with
  | nil => exact ⟨[], rfl, rfl, by simp⟩
  | cons v l ih =>
    obtain ⟨out, h1, h2, h3⟩ := ih (fun w hw => hmem w (by simp [hw]))
    obtain ⟨D, h4, h5, -⟩ := RS.simplify_halfOpen (l := (d.filter (fun s => s.2 == v)).map Prod.fst) (by
      intro i hi
      obtain ⟨s, hs, rfl⟩ := List.mem_map.1 hi
      obtain ⟨hs1, hs2⟩ := List.mem_filter.1 hs
      simp only [beq_iff_eq] at hs2
      exact hd s hs1 (hs2 ▸ hmem v (by simp)))
    refine ⟨(D, v) :: out, ?_, by simp [h2], ?_⟩
    · rw [List.mapM_cons, h1, h4]; rfl
    · intro e he x
      rcases List.mem_cons.1 he with rfl | he
      · rw [h5]
        simp only [RS.Mem]
        constructor
        · rintro ⟨i, hi, hx⟩
          obtain ⟨s, hs, rfl⟩ := List.mem_map.1 hi
          obtain ⟨hs1, hs2⟩ := List.mem_filter.1 hs
          exact ⟨s, hs1, by simpa using hs2, hx⟩
        · rintro ⟨s, hs, hv, hx⟩
          exact ⟨s.1, List.mem_map.2 ⟨s, List.mem_filter.2 ⟨hs, by simpa using hv⟩, rfl⟩, hx⟩
      · exact h3 e he x

theorem tile_halfOpen : ∀ {L : List (ℤ × Fn)} {lo : FP} {f : Fn}, Knots L → (∀ s ∈ L, lo < fin s.1) → lo ≠ pinf →
    ∀ s ∈ tile lo f L pinf, s.1.HalfOpen
  | [], lo, f, _, _, hlo, s, hs => by
    simp only [tile, List.mem_singleton] at hs
    rw [hs]
    cases lo <;> simp_all [CS.HalfOpen, brOf, FP.lt_def, leb]
  | (k', g) :: r, lo, f, hk, h, hlo, s, hs => by
    have hk' := List.pairwise_cons.1 hk
    simp only [tile, List.mem_cons] at hs
    rcases hs with rfl | hs
    · have := h (k', g) (by simp)
      cases lo <;> simp_all [CS.HalfOpen, brOf, FP.lt_def, leb]
    · refine tile_halfOpen hk'.2 (fun t ht => ?_) (by simp) s hs
      have := hk'.1 t ht
      simpa [FP.lt_def, leb] using this

end Verif.Num
