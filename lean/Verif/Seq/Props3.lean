import Verif.Seq.Names
import Mathlib.Data.List.Nodup
import Mathlib.Data.List.GetD
import Mathlib.Data.Nat.Digits.Defs

/-!
# C123: the names in the expanded tree of a `SequentialJPT`
-/

namespace Verif.Seq

/-! ## Lemmas -/

theorem plus_not_digit (t : ℕ) : '+' ∉ Nat.toDigits 10 t := by
  intro h
  have := Nat.isDigit_of_mem_toDigits (by omega) (by omega) h
  exact absurd this (by decide)

theorem digits_inj {s t : ℕ} (h : Nat.toDigits 10 s = Nat.toDigits 10 t) : s = t := by
  have := congrArg (Nat.ofDigitChars 10 · 0) h
  simpa using this

theorem split_plus : ∀ (a b c d : List Char), '+' ∉ c → '+' ∉ d → a ++ '+' :: c = b ++ '+' :: d → a = b ∧ c = d := by
  intro a b c d hc hd h
  have h' := congrArg List.reverse h
  simp only [List.reverse_append, List.reverse_cons, List.append_assoc, List.singleton_append] at h'
  have key : ∀ (x y u v : List Char), '+' ∉ x → '+' ∉ y → x ++ '+' :: u = y ++ '+' :: v → x = y ∧ u = v := by
    intro x
    induction x with
    | nil =>
      intro y u v _ hy h
      cases y with
      | nil => simpa using h
      | cons z y => simp at h hy; exact absurd h.1 hy.1
    | cons z x ih =>
      intro y u v hx hy h
      cases y with
      | nil => simp at h hx; exact absurd h.1.symm hx.1
      | cons z' y =>
        simp only [List.cons_append, List.cons.injEq] at h
        obtain ⟨h1, h2⟩ := ih y u v (fun m => hx (List.mem_cons_of_mem _ m)) (fun m => hy (List.mem_cons_of_mem _ m)) h.2
        exact ⟨by rw [h.1, h1], h2⟩
  obtain ⟨h1, h2⟩ := key _ _ _ _ (by simpa using hc) (by simpa using hd) h'
  exact ⟨List.reverse_injective h2, List.reverse_injective h1⟩

/-! ## Theorems -/

/-- C123: the names of shifted variables are equal just if the variables and the time steps are. -/
theorem C123_shift (n n' : List Char) (t t' : ℕ) : shiftName n t = shiftName n' t' ↔ n = n' ∧ t = t' := by
  constructor
  · intro h
    obtain ⟨h1, h2⟩ := split_plus _ _ _ _ (plus_not_digit t) (plus_not_digit t') h
    exact ⟨h1, digits_inj h2⟩
  · rintro ⟨rfl, rfl⟩; rfl

/-- C123: the expanded tree has one variable for each variable of the template, and one for each target and later time step. -/
theorem C123_count (names : List (List Char)) (targets : List ℕ) (w : ℕ) :
    (expandedNames names targets w).length = names.length + (w - 1) * targets.length := by
  simp [expandedNames, List.length_flatMap]

/-- C123 for templates without a variable whose name is that of another variable at a later time step: the names in the
expanded tree are different.  Missing: other templates, for which this is false. -/
theorem C123_distinct_partial (names : List (List Char)) (targets : List ℕ) (w : ℕ) (hn : names.Nodup) (ht : targets.Nodup)
    (hl : ∀ v ∈ targets, v < names.length) (hs : ∀ n ∈ names, ∀ t, shiftName n t ∉ names) :
    (expandedNames names targets w).Nodup := by
  have hget : ∀ v ∈ targets, names.getD v [] ∈ names := by
    intro v hv
    rw [List.getD_eq_getElem _ _ (hl v hv)]
    exact List.getElem_mem _
  unfold expandedNames
  rw [List.nodup_append']
  refine ⟨hn, ?_, ?_⟩
  · rw [List.nodup_flatMap]
    refine ⟨?_, ?_⟩
    · intro t _
      refine List.Nodup.map_on ?_ ht
      intro x hx y hy h
      have h1 := ((C123_shift _ _ _ _).1 h).1
      rw [List.getD_eq_getElem _ _ (hl x hx), List.getD_eq_getElem _ _ (hl y hy)] at h1
      exact (List.Nodup.getElem_inj_iff hn).1 h1
    · refine (List.nodup_range' (s := 1) (n := w - 1)).imp ?_
      intro s t hst x hx hy
      obtain ⟨u, _, rfl⟩ := List.mem_map.1 hx
      obtain ⟨v, _, h⟩ := List.mem_map.1 hy
      exact hst ((C123_shift _ _ _ _).1 h).2.symm
  · intro x hx hy
    obtain ⟨t, _, hy⟩ := List.mem_flatMap.1 hy
    obtain ⟨v, hv, rfl⟩ := List.mem_map.1 hy
    exact hs _ (hget v hv) t hx

example : expandedNames ["x".toList, "y".toList] [0, 1] 3 =
      ["x".toList, "y".toList, "x+1".toList, "y+1".toList, "x+2".toList, "y+2".toList] ∧
    (∀ n ∈ ["x".toList, "y".toList], ∀ t, shiftName n t ∉ ["x".toList, "y".toList]) := by
  refine ⟨by decide +kernel, ?_⟩
  intro n hn t h
  have hp : '+' ∈ shiftName n t := by simp [shiftName]
  have h2 : ∀ m ∈ ["x".toList, "y".toList], '+' ∉ m := by decide
  exact h2 _ h hp

/-- Disagreement: if a variable of the template is named as another one at a later time step, the expanded tree has two
variables of the same name, only one of which can be found by its name. -/
theorem C123_violated_names :
    ["x".toList, "x+1".toList].Nodup ∧ ¬ (expandedNames ["x".toList, "x+1".toList] [0, 1] 2).Nodup := by
  decide +kernel

end Verif.Seq
