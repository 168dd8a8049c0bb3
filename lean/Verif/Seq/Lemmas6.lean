import Verif.Seq.Lemmas5
import Mathlib.Algebra.BigOperators.Fin

/-!
# Marginals of the grounded model in simple cases
-/

namespace Verif.Seq

open Trees Learn

/-- With a constant transition model the steps are independent. -/
theorem marginal_const {n m : ℕ} (c : ℚ) (factor : Fin n → Fin m → ℚ) (t : Fin n) (l : Fin m) :
    marginal n m (fun _ _ => c) factor t l
      = factor t l * ((∏ s ∈ Finset.univ.erase t, ∑ i, factor s i) * c ^ (n - 1)) := by
  unfold marginal weight
  have h1 : ∀ a : Fin n → Fin m,
      (if a t = l then (∏ s, factor s (a s)) * ∏ _s : Fin (n - 1), c else 0)
        = (∏ s, if s = t then (if a s = l then factor s (a s) else 0) else factor s (a s)) * c ^ (n - 1) := by
    intro a
    rw [Finset.prod_const, Finset.card_univ, Fintype.card_fin]
    by_cases ha : a t = l
    · rw [if_pos ha]
      congr 1
      apply Finset.prod_congr rfl
      intro s _
      by_cases hs : s = t
      · subst hs
        rw [if_pos rfl, if_pos ha]
      · rw [if_neg hs]
    · rw [if_neg ha, Finset.prod_eq_zero (Finset.mem_univ t), zero_mul]
      rw [if_pos rfl, if_neg ha]
  rw [Finset.sum_congr rfl (fun a _ => h1 a), ← Finset.sum_mul]
  have h2 := Fintype.prod_sum (κ := fun _ : Fin n => Fin m)
    (fun s i => if s = t then (if i = l then factor s i else 0) else factor s i)
  rw [← h2, ← Finset.mul_prod_erase _ _ (Finset.mem_univ t)]
  have h3 : (∑ j, if t = t then if j = l then factor t j else 0 else factor t j) = factor t l := by
    simp
  have h4 : (∏ x ∈ Finset.univ.erase t, ∑ j, if x = t then if j = l then factor x j else 0 else factor x j)
      = ∏ s ∈ Finset.univ.erase t, ∑ i, factor s i := by
    apply Finset.prod_congr rfl
    intro s hs
    apply Finset.sum_congr rfl
    intro i _
    rw [if_neg (Finset.ne_of_mem_erase hs)]
  rw [h3, h4, mul_assoc]

theorem row_eq {f : List ℚ} {m : ℕ} (hf : f.length = m) :
    f = (List.finRange m).map (fun l : Fin m => f.getD l 0) := by
  apply List.ext_getElem
  · simp [hf]
  · intro i h1 h2
    simp [h1]

/-- With a constant transition model, belief propagation may return the factors themselves. -/
theorem exact_const {model factors : List (List ℚ)} {m : ℕ} {c : ℚ} (hc : 0 < c)
    (hm : ∀ i j : Fin m, entryOf model i j = c) (hlen : ∀ f ∈ factors, f.length = m)
    (hpos : ∀ t : Fin factors.length, 0 < ∑ i : Fin m, entryOf factors t i) :
    Exact model factors factors m := by
  refine ⟨rfl, fun t => ?_⟩
  have hz : 0 < (∏ s ∈ Finset.univ.erase t, ∑ i : Fin m, entryOf factors s i) * c ^ (factors.length - 1) := by
    apply mul_pos
    · exact Finset.prod_pos (fun s _ => hpos s)
    · positivity
  refine ⟨1 / ((∏ s ∈ Finset.univ.erase t, ∑ i : Fin m, entryOf factors s i) * c ^ (factors.length - 1)),
    by positivity, ?_⟩
  have hfun : (fun i j : Fin m => entryOf model i j) = fun _ _ => c := by
    funext i j
    exact hm i j
  rw [hfun]
  have hrow := row_eq (hlen _ (List.getElem_mem t.2))
  have hget : factors.getD t [] = factors[t] := by
    rw [List.getD_eq_getElem?_getD, List.getElem?_eq_getElem t.2]
    rfl
  rw [hget]
  refine hrow.trans ?_
  apply List.map_congr_left
  intro l _
  rw [marginal_const]
  have : entryOf factors t l = factors[t].getD l 0 := by
    unfold entryOf
    rw [hget]
  rw [this]
  have key : ∀ X y : ℚ, 0 < X → y = 1 / X * (y * X) := by
    intro X y hX
    field_simp
  exact key _ _ hz

/-- The same for a single step, with any transition model. -/
theorem exact_one (model : List (List ℚ)) {f : List ℚ} {m : ℕ} (hf : f.length = m) :
    Exact model [f] [f] m := by
  refine ⟨rfl, fun t => ⟨1, one_pos, ?_⟩⟩
  have ht : t = 0 := Subsingleton.elim (α := Fin 1) t 0
  subst ht
  refine (row_eq hf).trans ?_
  apply List.map_congr_left
  intro l _
  rw [one_mul]
  have h1 : marginal [f].length m (fun i j => entryOf model i j) (fun s i => entryOf [f] s i) 0 l
      = marginal 1 m (fun _ _ => 1) (fun s i => entryOf [f] s i) 0 l := by
    unfold marginal weight
    rfl
  rw [h1, marginal_const]
  simp [entryOf]


theorem weight_nonneg {n m : ℕ} {model : Fin m → Fin m → ℚ} {factor : Fin n → Fin m → ℚ}
    (h1 : ∀ i j, 0 ≤ model i j) (h2 : ∀ t i, 0 ≤ factor t i) (a : Fin n → Fin m) :
    0 ≤ weight n m model factor a := by
  unfold weight
  exact mul_nonneg (Finset.prod_nonneg (fun _ _ => h2 _ _)) (Finset.prod_nonneg (fun _ _ => h1 _ _))

theorem marginal_nonneg {n m : ℕ} {model : Fin m → Fin m → ℚ} {factor : Fin n → Fin m → ℚ}
    (h1 : ∀ i j, 0 ≤ model i j) (h2 : ∀ t i, 0 ≤ factor t i) (t : Fin n) (l : Fin m) :
    0 ≤ marginal n m model factor t l := by
  unfold marginal
  apply Finset.sum_nonneg
  intro a _
  split_ifs
  · exact weight_nonneg h1 h2 a
  · exact le_refl _

theorem marginal_pos {n m : ℕ} {model : Fin m → Fin m → ℚ} {factor : Fin n → Fin m → ℚ}
    (h1 : ∀ i j, 0 ≤ model i j) (h2 : ∀ t i, 0 ≤ factor t i) {a : Fin n → Fin m}
    (ha : weight n m model factor a ≠ 0) (t : Fin n) : marginal n m model factor t (a t) ≠ 0 := by
  have hpos : 0 < weight n m model factor a := lt_of_le_of_ne (weight_nonneg h1 h2 a) (Ne.symm ha)
  have : weight n m model factor a ≤ marginal n m model factor t (a t) := by
    unfold marginal
    have h3 := Finset.single_le_sum (f := fun b : Fin n → Fin m =>
      if b t = a t then weight n m model factor b else 0) (s := Finset.univ) (by
        intro b _
        split_ifs
        · exact weight_nonneg h1 h2 b
        · exact le_refl _) (Finset.mem_univ a)
    simpa using h3
  linarith

end Verif.Seq
