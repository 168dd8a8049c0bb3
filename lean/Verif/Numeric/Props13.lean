import Verif.Numeric.FromPdfLemmas
import Verif.Numeric.Props12

/-!
# Distributions given by their densities: C82

`pick` is `any_point`, of which only is used that it lies in an interval that is unbounded to the right.
-/

namespace Verif.Num

open Iv Iv.FP Fun

theorem densOf_tile {r : List (ℤ × Fn)} : ∀ {lo : FP} {f : Fn},
    densOf (tile lo f r pinf) = stepDens lo (sl f) (r.map (fun s => (s.1, sl s.2))) := by
  induction r with
  | nil => intro lo f; rfl
  | cons a r ih =>
    intro lo f
    obtain ⟨k, g⟩ := a
    have := ih (lo := fin k) (f := g)
    simp only [densOf] at this
    simp only [tile, densOf, List.map_cons, stepDens, this]

theorem integL_slopes {val : ℤ → ℚ} : ∀ {L : List (ℤ × Fn)} {f : Fn} {h : ℚ}, Knots L → (∀ s ∈ L, IsPl s.2) →
    (∀ s ∈ L, ev (tileAt f L (s.1 - 1)) (val s.1) = ev s.2 (val s.1)) → (∀ s ∈ L.head?, h = ev f (val s.1)) →
    integL val h (L.map (fun s => (s.1, sl s.2))) = L
  | [], _, _, _, _, _, _ => rfl
  | (k, g) :: r, f, h, hk, hp, hc, hh => by
    have hh := hh (k, g) rfl
    have h1 := hc (k, g) (by simp)
    simp only [tileAt, if_pos (show k - 1 < k by omega)] at h1
    rw [← hh] at h1
    have hg : integFn val (sl g) h k = g := by
      have hpg := hp (k, g) (by simp)
      cases g with
      | const v => simp only [ev, Fn.eval, Option.getD] at h1; simp [integFn, sl, h1]
      | lin m c =>
        simp only [ev, Fn.eval, Option.getD] at h1
        have : m ≠ 0 := ne_of_gt hpg
        simp only [integFn, sl, if_neg this, h1, Fn.lin.injEq, true_and]
        ring
      | undef => cases hpg
      | quad a b c => cases hpg
    simp only [List.map_cons, integL, hg]
    have hk' := List.pairwise_cons.1 hk
    rw [integL_slopes (f := g) hk'.2 (fun s hs => hp s (by simp [hs]))]
    · intro s hs
      have h2 := hc s (by simp [hs])
      have h3 := hk'.1 s hs
      simp only at h3
      rwa [tileAt, if_neg (by omega)] at h2
    · intro s hs
      cases r with
      | nil => simp at hs
      | cons a r =>
        simp only [List.head?_cons, Option.mem_def, Option.some.injEq] at hs
        subst hs
        simp only [List.map_cons, nextHead, h1]
        rw [← hg]
        simp only [ev, integFn_eval, Option.getD]
        rw [hg]
        ring

theorem pdf_steps {K : List (ℤ × ℚ)} {val : ℤ → ℚ} (al : ℚ) : ∀ (r : List (ℤ × ℚ)) (h : ℚ),
    ((integL val h r).map (fun s => (s.1, s.2.stretch al))).map (fun s => (s.1, sl s.2)) =
      r.map (fun s => (s.1, s.2 * al))
  | [], _ => rfl
  | (k, v) :: r, h => by
    simp only [integL, List.map_cons, pdf_steps (K := K) al r]
    congr 2
    unfold integFn
    split
    · rename_i h0; simp [h0, Fn.stretch, sl]
    · simp [Fn.stretch, sl]

/-- A distribution that is given by a density with finitely many steps.  Let `T` be the area under the density.  If `T`
exceeds 1 by more than `1e-8`, it is refused; if `T` is 0, the division by it fails; otherwise the cdf is the area up
to a value divided by `T`, and the density is the given one divided by `T`. -/
theorem C82_density {val : ℤ → ℚ} (pick : CS → ℤ) (hpick : ∀ z, z ≤ pick ⟨fin z, pinf, .inc, .exc⟩)
    (K : List (ℤ × ℚ)) (hK : K.Pairwise (fun s t => s.1 < t.1)) (z : ℤ) (hz : K.getLast? = some (z, 0)) :
    (1 + tol < areaAll val K → pdfToCdf val pick (stepDens ninf 0 K) = .error .valueError) ∧
    (areaAll val K = 0 → pdfToCdf val pick (stepDens ninf 0 K) = .error .zeroDivision) ∧
    (areaAll val K ≤ 1 + tol → areaAll val K ≠ 0 → ∃ p, pdfToCdf val pick (stepDens ninf 0 K) = .ok p ∧
      (∀ n, p.eval val n = .ok (some (area val n K / areaAll val K))) ∧
      pdf p = .ok (stepDens ninf 0 (K.map (fun s => (s.1, s.2 / areaAll val K))))) := by
  have ht : (0 : ℚ) < tol := by norm_num [tol]
  rw [pdfToCdf_steps hpick hK hz]
  refine ⟨fun h => if_pos h, fun h => ?_, fun h h0 => ?_⟩
  · rw [if_neg (by rw [h]; linarith), if_pos h]
  · rw [if_neg (not_lt.2 h), if_neg h0]
    refine ⟨_, rfl, fun n => ?_, ?_⟩
    · have h1 := rawCdf_at (val := val) hK hz n
      rw [rawCdf, tile_eval] at h1
      rw [rawCdf, stretch_tile, tile_eval]
      have h2 : ∀ (l : List (ℤ × Fn)) (f : Fn), tileAt (f.stretch (1 / areaAll val K))
          (l.map (fun s => (s.1, s.2.stretch (1 / areaAll val K)))) n =
          (tileAt f l n).stretch (1 / areaAll val K) := by
        intro l
        induction l with
        | nil => intro f; rfl
        | cons a r ih =>
          intro f
          simp only [List.map_cons, tileAt, ih]
          split <;> rfl
      rw [h2]
      simp only [Except.ok.injEq] at h1 ⊢
      have h3 : ∀ (l : List (ℤ × ℚ)) (h : ℚ) (f : Fn), (∀ q : ℚ, (f.stretch (1 / areaAll val K)).eval q =
            (f.eval q).map (· * (1 / areaAll val K))) →
          ∀ q : ℚ, ((tileAt f (integL val h l) n).stretch (1 / areaAll val K)).eval q =
            ((tileAt f (integL val h l) n).eval q).map (· * (1 / areaAll val K)) := by
        intro l
        induction l with
        | nil => intro h f hf; exact hf
        | cons a r ih =>
          intro h f hf q
          obtain ⟨k, v⟩ := a
          simp only [integL, tileAt]
          split
          · exact hf q
          · refine ih _ _ (fun x => ?_) q
            unfold integFn
            split
            · simp [Fn.stretch, Fn.eval]
            · simp only [Fn.stretch, Fn.eval, Option.map_some, Option.some.injEq]; ring
      rw [h3 K 0 (.const 0) (fun q => by simp [Fn.stretch, Fn.eval]), h1]
      simp only [Option.map_some, Option.some.injEq]
      ring
    · have hlen : K.length ≠ 1 := by
        intro h1
        obtain ⟨a, rfl⟩ := List.length_eq_one_iff.1 h1
        exact h0 rfl
      have hs : ∀ (l : List (ℤ × ℚ)) (h : ℚ), ∀ s ∈ integL val h l, Simple (s.2.stretch (1 / areaAll val K)) := by
        intro l
        induction l with
        | nil => intro h s hs; simp [integL] at hs
        | cons a r ih =>
          intro h s hs
          obtain ⟨k, v⟩ := a
          rcases List.mem_cons.1 hs with rfl | hs
          · simp only [integFn]; split
            · exact simple_const _
            · exact simple_lin _ _
          · exact ih _ s hs
      rw [rawCdf, stretch_tile]
      have hl : (integL val 0 K).length = K.length := by
        have := congrArg List.length (integL_fst val K 0)
        simpa using this
      have hs2 : ∀ s ∈ (integL val 0 K).map (fun s => (s.1, s.2.stretch (1 / areaAll val K))), Simple s.2 := by
        intro s hs'
        obtain ⟨t, ht', rfl⟩ := List.mem_map.1 hs'
        exact hs K 0 t ht'
      have hf : (Fn.const 0).stretch (1 / areaAll val K) = .const 0 := by simp [Fn.stretch]
      rw [hf, pdf_eq (tile_simple (simple_const _) hs2) (by rw [tile_length, List.length_map, hl]; omega), densOf_tile,
        pdf_steps (K := K)]
      simp only [mul_one_div]
      rfl

/-- The least float of an interval. -/
def pickLower (c : CS) : ℤ := match c.lower with
  | fin z => z
  | _ => 0

example : ∃ p, pdfToCdf (fun n => n) pickLower (stepDens ninf 0 [(0, 1 / 4), (2, 1 / 3), (3, 0)]) = .ok p ∧
    p.eval (fun n => n) 1 = .ok (some (3 / 10)) := by
  obtain ⟨p, h1, h2, -⟩ := (C82_density (val := fun n => n) pickLower (fun z => le_rfl)
    [(0, 1 / 4), (2, 1 / 3), (3, 0)] (by decide) 3 rfl).2.2 (by norm_num [areaAll, tol]) (by norm_num [areaAll])
  refine ⟨p, h1, ?_⟩
  rw [h2 1]
  norm_num [area, areaAll]

/-- Rebuilding a distribution from its density restores it, for every continuous cdf and for every distribution of a
single value.

Partial: the full claim is for all distributions, but those that `fit` gives are not continuous at both ends, see
`C82_violated_fitted` and `C82_violated_refused`. -/
theorem C82_rebuild_partial {val : ℤ → ℚ} (pick : CS → ℤ) (hpick : ∀ z, z ≤ pick ⟨fin z, pinf, .inc, .exc⟩)
    (q : Part) (h : Regular val q) : (pdf q.cdf).bind (pdfToCdf val pick) = .ok q.cdf := by
  obtain ⟨L, e, hk, hp, ⟨z, hz⟩, hc⟩ := h.knots
  have hL : ∀ s ∈ L, IsPl s.2 := by
    intro s hs
    rcases hp s hs with ⟨v, h⟩ | ⟨m, c, h, hm⟩
    · rw [h]; trivial
    · rw [h]; exact hm
  have hsim : ∀ s ∈ L, Simple s.2 := by
    intro s hs
    rcases hp s hs with ⟨v, h⟩ | ⟨m, c, h, hm⟩ <;> rw [h] <;> rfl
  rw [e]
  by_cases h1 : L.length = 1
  · obtain ⟨a, rfl⟩ := List.length_eq_one_iff.1 h1
    simp only [List.getLast?_singleton, Option.some.injEq] at hz
    subst hz
    have hj : pdf (tile ninf (.const 0) [(z, .const 1)] pinf) = .ok [(⟨ninf, fin z, .exc, .exc⟩, .fin 0),
        (⟨fin z, fin (z + 1), .inc, .exc⟩, .pinf), (⟨fin (z + 1), pinf, .inc, .exc⟩, .fin 0)] := rfl
    rw [hj]
    have hjoin : join ⟨fin z, fin (z + 1), .inc, .exc⟩ ⟨fin (z + 1), pinf, .inc, .exc⟩ = ⟨fin z, pinf, .inc, .exc⟩ := by
      simp [join, FP.le_def, FP.lt_def, leb]
    have hcon : CS.contiguous ⟨fin z, fin (z + 1), .inc, .exc⟩ ⟨fin (z + 1), pinf, .inc, .exc⟩ = true := by
      simp [CS.contiguous, Br.code]
    have hfold : [((⟨ninf, fin z, .exc, .exc⟩, .fin 0) : CS × XQ),
        (⟨fin z, fin (z + 1), .inc, .exc⟩, .pinf), (⟨fin (z + 1), pinf, .inc, .exc⟩, .fin 0)].foldlM (integrate val)
          ⟨[], 0, none, none⟩ = .ok ⟨tile ninf (.const 0) [(z, .const 0)] pinf, 0, some (1, true), none⟩ := by
      simp [List.foldlM, integrate, Integral.push, bind, Except.bind, pure, Except.pure, hcon, hjoin, tile, brOf]
    have hlast : ∀ v, lastValue val pick (tile ninf (.const 0) [(z, .const v)] pinf) = .ok v := by
      intro v
      have h2 : (tile ninf (.const 0) [(z, .const v)] pinf).getLast? = some (⟨fin z, pinf, .inc, .exc⟩, .const v) := rfl
      simp only [lastValue, h2, tile_eval, bind, Except.bind, tileAt, if_neg (not_lt.2 (hpick z)), Fn.eval]
    have hoff : offsets 1 ⟨tile ninf (.const 0) [(z, .const 0)] pinf, 0, some (1, true), none⟩ =
        .ok (tile ninf (.const 0) [(z, .const 1)] pinf) := by
      simp [offsets, tile, lift]
    have ht : ¬ (1 : ℚ) < -tol := by norm_num [tol]
    simp only [Except.bind, pdfToCdf, hfold, bind, hlast, sub_zero, if_neg ht, hoff, one_ne_zero, if_false]
    simp [PF.stretch, tile, Fn.stretch]
  · have hc' := hc.resolve_left h1
    have hint := integL_slopes (val := val) (f := .const 0) (h := 0) hk hL
      (fun s hs => by simp only [ev, hc' s hs]) (fun s _ => rfl)
    have hK : (L.map (fun s => (s.1, sl s.2))).Pairwise (fun s t => s.1 < t.1) := by
      rw [List.pairwise_map]; exact hk
    have hKz : (L.map (fun s => (s.1, sl s.2))).getLast? = some (z, 0) := by
      rw [List.getLast?_map, hz]; rfl
    obtain ⟨l, hl⟩ := integL_split (val := val) hKz
    rw [hint] at hl
    have hT : areaAll val (L.map (fun s => (s.1, sl s.2))) = 1 := by
      rw [hl, List.getLast?_append] at hz
      simpa using hz
    have ht : (0 : ℚ) < tol := by norm_num [tol]
    rw [pdf_eq (tile_simple (simple_const _) hsim) (by rw [tile_length]; omega), densOf_tile]
    simp only [Except.bind]
    rw [show sl (.const 0) = 0 from rfl]
    rw [pdfToCdf_steps hpick hK hKz, hT, if_neg (by linarith), if_neg one_ne_zero, rawCdf, hint]
    have hs1 : ∀ f : Fn, f.stretch (1 / 1) = f := by
      intro f; cases f <;> simp [Fn.stretch]
    rw [PF.stretch]
    simp only [hs1, Prod.mk.eta, List.map_id']

/-! ### Where rebuilding does not restore a distribution -/

/-- If the least sample occurs more than once, its mass is lost and the rest is scaled: rebuilding the distribution
fitted to `1, 1, 4, 9, 20` changes the cdf at 4 from 1/2 to 11/34. -/
theorem C82_violated_fitted :
    ((fit ival (1 / 100) [1, 1, 4, 9, 20]).bind (fun p => p.eval ival 4)).toOption = some (some (1 / 2)) ∧
    (((fit ival (1 / 100) [1, 1, 4, 9, 20]).bind pdf).bind (fun d => (pdfToCdf ival pickLower d).bind
      (fun p => p.eval ival 4))).toOption = some (some (11 / 34)) := by
  constructor <;> decide +kernel

/-- The density of a fitted distribution reaches one float beyond the greatest sample, and if that is more than `1e-8`
of the distance to the sample before, rebuilding is refused, since the area exceeds 1. -/
theorem C82_violated_refused :
    (fit ival (1 / 100) [0, 1, 4, 9, 20]).toOption.isSome = true ∧
    ((fit ival (1 / 100) [0, 1, 4, 9, 20]).bind pdf).bind (pdfToCdf ival pickLower) = .error .valueError := by
  constructor <;> decide +kernel

/-- A density with two impulses is refused with a `TypeError`, since the weight of the second one is made from the
entry of the first one. -/
theorem C82_violated_impulses :
    pdfToCdf ival pickLower [(⟨ninf, fin 0, .exc, .exc⟩, .fin 0), (⟨fin 0, fin 1, .inc, .exc⟩, .pinf),
      (⟨fin 1, fin 5, .inc, .exc⟩, .fin 0), (⟨fin 5, fin 6, .inc, .exc⟩, .pinf),
      (⟨fin 6, pinf, .inc, .exc⟩, .fin 0)] = .error .typeError := by
  decide +kernel

example : Regular ival ⟨tile ninf (.const 0) [(0, .lin (1 / 4) 0), (2, .const (1 / 2)), (3, .lin (1 / 2) (-1)),
    (4, .const 1)] pinf, fun n => if n < 0 then 0 else if n < 2 then n / 4 else if n < 3 then 1 / 2
      else if n < 4 then n / 2 - 1 else 1, 0, 1⟩ where
  knots := ⟨_, rfl, by decide, by
    intro s hs
    simp only [List.mem_cons, List.not_mem_nil, or_false] at hs
    rcases hs with rfl | rfl | rfl | rfl
    · exact .inr ⟨_, _, rfl, by norm_num⟩
    · exact .inl ⟨_, rfl⟩
    · exact .inr ⟨_, _, rfl, by norm_num⟩
    · exact .inl ⟨_, rfl⟩, ⟨4, rfl⟩, .inr (by decide +kernel)⟩
  values n := by
    rw [tile_eval]
    simp only [tileAt, ival]
    split_ifs <;> simp only [Fn.eval] <;> congr 2 <;> ring

end Verif.Num
