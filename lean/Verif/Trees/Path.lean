import Verif.Trees.Heap
import Mathlib.Data.List.Induction

/-!
# Paths of nodes, `contains` and `encode`
-/

namespace Verif.Trees

/-- `Node.path` (trees.py 90-101): the restriction of every variable on the path, in the order of
first occurrence.  `full v` is `set(range(n_values))` or `R`. -/
def pathMap (full : ℕ → Region) (path : Path) : List (ℕ × Region) :=
  path.foldl (fun d e => Dict.set d e.1 (((d.lookup e.1).getD (full e.1)).inter e.2)) []

/-- One restriction in `Node.contains` (trees.py 176-181), for one sample. -/
def meets (x : ℚ) : Region → Bool
  | .num c => decide (c.lower < .fin x) && decide (.fin x ≤ c.upper)
  | .set l => l.any (fun z => decide (x = (z : ℚ)))

/-- `Node.contains` (trees.py 167-183), for one sample. -/
def contains (full : ℕ → Region) (path : Path) (x : ℕ → ℚ) : Bool :=
  (pathMap full path).all (fun e => meets (x e.1) e.2)

/-- `JPT.encode` (trees.py 957-970), for one preprocessed sample. -/
def encode {D : Type} (full : ℕ → Region) (h : Heap D) (x : ℕ → ℚ) : ℕ :=
  h.leaves.foldl (fun r e => if contains full e.2.path x then e.1 else r) 0

/-! ## The map of restrictions says the same as the path -/

theorem pathMap_snoc (full : ℕ → Region) (path : Path) (e : ℕ × Region) :
    pathMap full (path ++ [e]) = Dict.set (pathMap full path) e.1
      ((((pathMap full path).lookup e.1).getD (full e.1)).inter e.2) := by
  unfold pathMap
  rw [List.foldl_append]
  rfl

theorem pathMap_wf (full : ℕ → Region) (path : Path) : Dict.WF (pathMap full path) := by
  induction path using List.reverseRecOn with
  | nil => simp [pathMap, Dict.WF]
  | append_singleton l r ih =>
    rw [pathMap_snoc]
    exact Dict.wf_set ih _ _

/-- Exactly the variables on the path are restricted. -/
theorem pathMap_keys (full : ℕ → Region) (path : Path) (v : ℕ) :
    v ∈ (pathMap full path).map Prod.fst ↔ v ∈ path.map Prod.fst := by
  induction path using List.reverseRecOn with
  | nil => simp [pathMap]
  | append_singleton l r ih =>
    rw [pathMap_snoc, Dict.keys_set]
    split_ifs with h
    · rw [List.map_append, List.mem_append, ← ih]
      constructor
      · exact .inl
      · rintro (hm | hm)
        · exact hm
        · simp only [List.map_cons, List.map_nil, List.mem_singleton] at hm
          rw [hm]
          exact h
    · rw [List.mem_append, ih]
      simp

/-- A variable's restriction is the set of values that meet all its splits on the path. -/
theorem pathMap_lookup (full : ℕ → Region) (path : Path) (v : ℕ) (x : XQ) :
    (∀ R, (pathMap full path).lookup v = some R →
      (R.Mem x ↔ (full v).Mem x ∧ ∀ e ∈ path, e.1 = v → e.2.Mem x)) := by
  induction path using List.reverseRecOn with
  | nil => simp [pathMap]
  | append_singleton l r ih =>
    intro R hR
    rw [pathMap_snoc, Dict.lookup_set] at hR
    by_cases hv : v = r.1
    · rw [if_pos hv] at hR
      cases hR
      rw [Region.mem_inter]
      subst hv
      cases hl : (pathMap full l).lookup r.1 with
      | none =>
        simp only [Option.getD_none]
        have hno : ∀ e ∈ l, e.1 ≠ r.1 := by
          intro e he h
          have := (pathMap_keys full l r.1).2 (List.mem_map.2 ⟨e, he, h⟩)
          rw [Dict.lookup_none] at hl
          exact hl this
        constructor
        · rintro ⟨h1, h2⟩
          refine ⟨h1, ?_⟩
          intro e he hev
          rcases List.mem_append.1 he with he | he
          · exact absurd hev (hno e he)
          · rw [List.mem_singleton.1 he]
            exact h2
        · rintro ⟨h1, h2⟩
          exact ⟨h1, h2 r (by simp) rfl⟩
      | some R' =>
        simp only [Option.getD_some]
        rw [ih R' hl]
        constructor
        · rintro ⟨⟨h1, h2⟩, h3⟩
          refine ⟨h1, ?_⟩
          intro e he hev
          rcases List.mem_append.1 he with he | he
          · exact h2 e he hev
          · rw [List.mem_singleton.1 he]
            exact h3
        · rintro ⟨h1, h2⟩
          exact ⟨⟨h1, fun e he hev => h2 e (by simp [he]) hev⟩, h2 r (by simp) rfl⟩
    · rw [if_neg hv] at hR
      rw [ih R hR]
      constructor
      · rintro ⟨h1, h2⟩
        refine ⟨h1, ?_⟩
        intro e he hev
        rcases List.mem_append.1 he with he | he
        · exact h2 e he hev
        · rw [List.mem_singleton.1 he] at hev
          exact absurd hev.symm hv
      · rintro ⟨h1, h2⟩
        exact ⟨h1, fun e he hev => h2 e (by simp [he]) hev⟩

/-- Meeting all restrictions of the map is meeting all splits of the path. -/
theorem pathMap_sat (full : ℕ → Region) (path : Path) (x : ℕ → XQ) (hfull : ∀ v, (full v).Mem (x v)) :
    (∀ e ∈ pathMap full path, e.2.Mem (x e.1)) ↔ ∀ e ∈ path, e.2.Mem (x e.1) := by
  constructor
  · intro h e he
    have hk := (pathMap_keys full path e.1).2 (List.mem_map.2 ⟨e, he, rfl⟩)
    obtain ⟨R, hR⟩ := Dict.lookup_isSome.2 hk
    have := h (e.1, R) (Dict.lookup_mem hR)
    rw [pathMap_lookup full path e.1 (x e.1) R hR] at this
    exact this.2 e he rfl
  · intro h e he
    have hl := Dict.mem_lookup (pathMap_wf full path) (k := e.1) (b := e.2) he
    rw [pathMap_lookup full path e.1 (x e.1) e.2 hl]
    exact ⟨hfull _, fun e' he' hv => hv ▸ h e' he'⟩

/-! ## `contains` -/

open Vars (RI)

/-- The number is not a bound of the interval, or the interval is the empty one. -/
def Clear (c : RI) (x : ℚ) : Prop :=
  (c.lower ≠ .fin x ∧ c.upper ≠ .fin x) ∨ c = riEmptyset

theorem clear_inter {a b : RI} {x : ℚ} (ha : Clear a x) (hb : Clear b x) : Clear (riInter a b) x := by
  by_cases hi : riIntersects a b = true
  · rcases ha with ha | rfl
    · rcases hb with hb | rfl
      · left
        unfold riInter
        rw [hi]
        simp only [Bool.not_true, Bool.false_eq_true, if_false]
        constructor
        · rcases max_choice a.lower b.lower with h | h <;> rw [h]
          · exact ha.1
          · exact hb.1
        · rcases min_choice a.upper b.upper with h | h <;> rw [h]
          · exact ha.2
          · exact hb.2
      · exfalso
        revert hi
        unfold riIntersects
        rw [if_pos (by decide)]
        simp
    · right
      obtain ⟨l, u, bl, br⟩ := b
      unfold riIntersects at hi
      simp only [riEmptyset] at hi
      split_ifs at hi with h1 h2 h3 h4
      have h3' : XQ.fin 0 ≠ u := fun e => h3 ⟨e, .inr trivial⟩
      have h4' : XQ.fin 0 ≠ l := fun e => h4 ⟨e, .inl trivial⟩
      have h2' : l ≤ XQ.fin 0 ∧ XQ.fin 0 ≤ u := by
        push Not at h2
        exact h2
      have hl : l < XQ.fin 0 := lt_of_le_of_ne h2'.1 (Ne.symm h4')
      have hu : XQ.fin 0 < u := lt_of_le_of_ne h2'.2 h3'
      have hi' : riIntersects riEmptyset ⟨l, u, bl, br⟩ = true := by
        unfold riIntersects
        simp only [riEmptyset]
        rw [if_neg h1, if_neg h2, if_neg h3, if_neg h4]
      unfold riInter
      rw [hi']
      simp only [Bool.not_true, Bool.false_eq_true, if_false, riEmptyset]
      simp only [max_eq_left hl.le, min_eq_left hu.le, hl.ne, hl, hu.ne', hu, if_true, if_false]
  · right
    unfold riInter
    simp only [Bool.not_eq_true] at hi
    rw [hi]
    rfl

/-- Away from the bounds, `contains` tests membership. -/
theorem meets_num {c : RI} {x : ℚ} (h : Clear c x) : meets x (.num c) = true ↔ RIMem c (.fin x) := by
  unfold meets RIMem
  rw [Bool.and_eq_true, decide_eq_true_eq, decide_eq_true_eq]
  rcases h with ⟨h1, h2⟩ | rfl
  · constructor
    · rintro ⟨h3, h4⟩
      exact ⟨.inl h3, .inl (lt_of_le_of_ne h4 (Ne.symm h2))⟩
    · rintro ⟨h3, h4⟩
      refine ⟨?_, ?_⟩
      · rcases h3 with h3 | h3
        · exact h3
        · exact absurd h3.1 h1
      · rcases h4 with h4 | h4
        · exact h4.le
        · exact absurd h4.1.symm h2
  · simp only [riEmptyset]
    constructor
    · rintro ⟨h3, h4⟩
      exact absurd (lt_of_lt_of_le h3 h4) (lt_irrefl _)
    · rintro ⟨h3 | h3, h4 | h4⟩
      · exact absurd (h3.trans h4) (lt_irrefl _)
      · exact absurd h4.2 (by decide)
      · exact absurd h3.2 (by decide)
      · exact absurd h3.2 (by decide)

theorem meets_set {l : List ℤ} {x : ℚ} : meets x (.set l) = true ↔ (Region.set l).Mem (.fin x) := by
  simp only [meets, Region.Mem, List.any_eq_true, decide_eq_true_eq, XQ.fin.injEq]

/-- A region whose interval, if it is one, does not have the number as a bound. -/
def RClear (x : ℚ) : Region → Prop
  | .num c => Clear c x
  | .set _ => True

theorem meets_iff {R : Region} {x : ℚ} (h : RClear x R) : meets x R = true ↔ R.Mem (.fin x) := by
  cases R with
  | num c => exact meets_num h
  | set l => exact meets_set

theorem rclear_inter {a b : Region} {x : ℚ} (ha : RClear x a) (hb : RClear x b) :
    RClear x (a.inter b) := by
  cases a <;> cases b
  · exact clear_inter ha hb
  all_goals trivial

theorem pathMap_clear (full : ℕ → Region) (path : Path) (x : ℕ → ℚ)
    (hf : ∀ v, RClear (x v) (full v)) (hp : ∀ e ∈ path, RClear (x e.1) e.2) :
    ∀ v R, (pathMap full path).lookup v = some R → RClear (x v) R := by
  induction path using List.reverseRecOn with
  | nil => simp [pathMap]
  | append_singleton l r ih =>
    have ih := ih (fun e he => hp e (by simp [he]))
    intro v R hR
    rw [pathMap_snoc, Dict.lookup_set] at hR
    by_cases hv : v = r.1
    · rw [if_pos hv] at hR
      cases hR
      subst hv
      refine rclear_inter ?_ (hp r (by simp))
      cases hl : (pathMap full l).lookup r.1 with
      | none => exact hf _
      | some R' => exact ih _ _ hl
    · rw [if_neg hv] at hR
      exact ih v R hR

/-- Away from the bounds of the splits, `contains` says whether the sample meets the path. -/
theorem contains_iff (full : ℕ → Region) (path : Path) (x : ℕ → ℚ)
    (hfull : ∀ v, (full v).Mem (.fin (x v))) (hf : ∀ v, RClear (x v) (full v))
    (hp : ∀ e ∈ path, RClear (x e.1) e.2) :
    contains full path x = true ↔ ∀ e ∈ path, e.2.Mem (.fin (x e.1)) := by
  rw [← pathMap_sat full path (fun v => .fin (x v)) hfull]
  unfold contains
  rw [List.all_eq_true]
  refine forall_congr' fun e => forall_congr' fun he => ?_
  exact meets_iff (pathMap_clear full path x hf hp e.1 e.2
    (Dict.mem_lookup (pathMap_wf full path) (k := e.1) (b := e.2) he))

/-- `encode` returns the one leaf that contains the sample. -/
theorem encode_eq {D : Type} (full : ℕ → Region) (h : Heap D) (x : ℕ → ℚ) (e : ℕ × Leaf D)
    (he : e ∈ h.leaves) (hc : contains full e.2.path x = true)
    (ho : h.leaves.countP (fun e => contains full e.2.path x) = 1) : encode full h x = e.1 := by
  obtain ⟨pre, post, hl⟩ := List.append_of_mem he
  unfold encode
  rw [hl] at ho ⊢
  rw [List.countP_append, List.countP_cons_of_pos (by exact hc)] at ho
  have hpost : ∀ a ∈ post, contains full a.2.path x = false := by
    have h0 : post.countP (fun e => contains full e.2.path x) = 0 := by omega
    intro a ha
    have := List.countP_eq_zero.1 h0 a ha
    simpa using this
  rw [List.foldl_append, List.foldl_cons, if_pos hc]
  clear ho hl
  generalize e.1 = k
  induction post with
  | nil => rfl
  | cons a l ih =>
    rw [List.foldl_cons, if_neg (by simp [hpost a (by simp)])]
    exact ih (fun b hb => hpost b (by simp [hb]))

end Verif.Trees
