import Verif.Trees.Expect
import Verif.Trees.Props
import Verif.Trees.LikelihoodLemmas
import Verif.Discrete.Props

/-!
# Lemmas on expectations and moments of trees
-/

namespace Verif.Trees

open Disc

variable {L : Type} [DecidableEq L]

/-- The probability of a label of the variable `v`, given the evidence. -/
def labelProb (kind : ℕ → Bool × Dom L) (h : Heap (DD L)) (e : Query) (v : ℕ) (x : L) : ℚ :=
  mass discP h ((v, .set [(((kind v).2.labels.idxOf x : ℕ) : ℤ)]) :: e) / mass discP h e

theorem forall₂_mapM {α β γ : Type} {R : α → β → Prop} {Q : α → γ → Prop} (f : β → Except Err γ) {vs : List α}
    {ds : List β} (h : List.Forall₂ R vs ds) (hf : ∀ v b, R v b → ∃ x, f b = .ok x ∧ Q v x) :
    ∃ rs, ds.mapM f = .ok rs ∧ List.Forall₂ Q vs rs := by
  induction h with
  | nil => exact ⟨[], rfl, .nil⟩
  | cons hr _ ih =>
    obtain ⟨x, h1, h2⟩ := hf _ _ hr
    obtain ⟨rs, h3, h4⟩ := ih
    refine ⟨x :: rs, ?_, .cons h2 h4⟩
    rw [List.mapM_cons, h1, h3]
    rfl

theorem sum_labels {k : Bool × Dom L} {d : DD L} (hd : discOk k d) (f : L → ℚ) :
    (List.zipWith (fun l p => f l * p) d.2.dom.labels d.2.params).sum =
      (k.2.labels.map (fun x => f x * discP d (.set [((k.2.labels.idxOf x : ℕ) : ℤ)]))).sum := by
  have hd' := hd
  obtain ⟨-, h2, h3, h4, -, -⟩ := hd'
  rw [h2] at h3 h4
  rw [h2]
  congr 1
  apply List.ext_getElem
  · simp [h4]
  · intro i h6 h7
    have h8 : i < k.2.labels.length := by simpa using h7
    rw [List.getElem_zipWith, List.getElem_map, List.Nodup.idxOf_getElem h3 i h8, discP_single hd (by omega)]

theorem mean_labels {k : Bool × Dom L} {d : DD L} (hd : discOk k d) (num : L → ℚ) :
    meanOf num d.2 = (k.2.labels.map (fun x => num x * discP d (.set [((k.2.labels.idxOf x : ℕ) : ℤ)]))).sum := by
  rw [← sum_labels hd, meanOf, List.zipWith_comm]
  congr 2
  funext a b
  ring

theorem moment_labels {k : Bool × Dom L} {d : DD L} (hd : discOk k d) (num : L → ℚ) (order : ℕ) (c : ℚ) :
    momentOf num d.2 order c =
      (k.2.labels.map (fun x => (num x - c) ^ order * discP d (.set [((k.2.labels.idxOf x : ℕ) : ℤ)]))).sum :=
  sum_labels hd (fun x => (num x - c) ^ order)

theorem discP_P {k : Bool × Dom L} {d : DD L} (hd : discOk k d) {x : L} (hx : x ∈ k.2.labels) :
    d.2.P (fun m => m = x) = discP d (.set [((k.2.labels.idxOf x : ℕ) : ℤ)]) := by
  have hd' := hd
  obtain ⟨-, h2, h3, h4, -, -⟩ := hd'
  rw [h2] at h3 h4
  have hlt := List.idxOf_lt_length_iff.2 hx
  rw [discP_single hd (by omega)]
  unfold Dist.P
  rw [h2]
  refine mass_single _ _ (k.2.labels.idxOf x) x _ h3 ?_ ?_
  · rw [List.getElem?_eq_getElem hlt, List.getElem_idxOf]
  · rw [List.getElem?_eq_getElem]

theorem fits_label {k : Bool × Dom L} {x : L} (hx : x ∈ k.2.labels) :
    discFits k (.set [((k.2.labels.idxOf x : ℕ) : ℤ)]) := by
  refine ⟨_, rfl, ?_⟩
  have := List.idxOf_lt_length_iff.2 hx
  intro z hz
  simp only [List.mem_singleton] at hz
  subst hz
  omega

theorem sum_count {ι : Type} (labels : List L) (hn : labels.Nodup) (f : L → ℚ) (g : ι → L) (rs : List ι)
    (hg : ∀ r ∈ rs, g r ∈ labels) :
    (labels.map (fun x => f x * (rs.countP (fun r => decide (g r = x)) : ℚ))).sum = (rs.map (fun r => f (g r))).sum := by
  induction rs with
  | nil => simp
  | cons r rs ih =>
    have h1 : (labels.map (fun x => f x * ((r :: rs).countP (fun r => decide (g r = x)) : ℚ))).sum =
        (labels.map (fun x => f x * (rs.countP (fun r => decide (g r = x)) : ℚ))).sum +
          (labels.map (fun x => if g r = x then f x else 0)).sum := by
      rw [← List.sum_map_add]
      congr 1
      apply List.map_congr_left
      intro x _
      rw [List.countP_cons]
      by_cases h : g r = x <;> simp [h, mul_add]
    have h2 : ∀ ls : List L, ls.Nodup → g r ∈ ls → (ls.map (fun x => if g r = x then f x else 0)).sum = f (g r) := by
      intro ls
      induction ls with
      | nil => intro _ h; cases h
      | cons a ls ihl =>
        intro hnd hm
        obtain ⟨h3, h4⟩ := List.nodup_cons.1 hnd
        rw [List.map_cons, List.sum_cons]
        by_cases h : g r = a
        · rw [if_pos h, h]
          have : (ls.map (fun x => if a = x then f x else 0)).sum = 0 := by
            apply List.sum_eq_zero
            intro y hy
            obtain ⟨x, hx, rfl⟩ := List.mem_map.1 hy
            rw [if_neg]
            rintro rfl
            exact h3 hx
          rw [this, add_zero]
        · rw [if_neg h, zero_add]
          exact ihl h4 ((List.mem_cons.1 hm).resolve_left h)
    rw [h1, ih (fun r' hr' => hg r' (by simp [hr'])), h2 labels hn (hg r (by simp)), List.map_cons, List.sum_cons, add_comm]

variable {c : Learn.Cfg} {kind : ℕ → Bool × Dom L} {data : Learn.Data} {total : ℕ}

omit [DecidableEq L] in
/-- The probability of a set of values of one variable: its share of the rows. -/
theorem learned_marginal (hk : Discrete c kind) (hdata : Learn.DataOK c data total) {h : Heap (DD L)}
    (hl : Learn.learn c data total (fitDisc kind data) = .ok h) {v : ℕ} (hv : v < c.vars.length) (S : Region) :
    mass discP h [(v, S)] = ((List.range total).countP (fun r => decide (S.Mem (.fin (data r v)))) : ℚ) / total := by
  obtain ⟨idx, hI⟩ := Learn.learn_inv hdata hl
  have hrows := hI.rows
  simp only [List.flatMap_nil, List.append_nil] at hrows
  have hrow : ∀ e ∈ h.leaves, ∀ r ∈ e.2.rows, r < total := by
    intro e he r hr
    have := hrows.mem_iff (a := r)
    simp only [List.mem_flatMap, List.mem_range] at this
    exact this.1 ⟨e, he, hr⟩
  rw [← hrows.countP_eq, List.countP_flatMap]
  unfold mass
  have h1 : h.leaves.map (fun l => l.2.prior * leafProb discP l.2 [(v, S)]) =
      h.leaves.map (fun l => (l.2.rows.countP (fun r => decide (S.Mem (.fin (data r v)))) : ℚ) / total) := by
    apply List.map_congr_left
    intro l hl'
    have hL := hI.leaf l hl'
    have hd : l.2.dists[v]? = some (fitDisc kind data l.2.rows v) := by
      rw [hL.dists, List.getElem?_map, List.getElem?_range hv]; rfl
    have hs := (fitDisc_spec (hk v hv) (fun r hr => hdata r (hrow l hl' r hr)) hL.nonempty).2 S
    simp only [leafProb, List.map_cons, List.map_nil, List.prod_cons, List.prod_nil, mul_one, hd, hs]
    rw [hL.prior]
    have : (l.2.rows.length : ℚ) ≠ 0 := by
      simpa using hL.nonempty
    field_simp
  rw [h1]
  clear h1 hrows hrow
  generalize h.leaves = ls
  induction ls with
  | nil => simp
  | cons a ls ih =>
    rw [List.map_cons, List.sum_cons, ih]
    simp only [List.map_cons, List.sum_cons, Nat.cast_add, add_div, Function.comp]

end Verif.Trees
