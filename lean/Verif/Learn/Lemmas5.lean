import Verif.Learn.Lemmas4

/-!
# One step of the learner on the nodes
-/

namespace Verif.Learn

open Trees

variable {D : Type}

/-- The place a queue item will be put: the restrictions on its rows. -/
def itemPath (h : Heap D) (it : Item) : Path :=
  match it.parent with
  | none => []
  | some p =>
    match h.inner.lookup p with
    | none => []
    | some n =>
      match n.splits[it.child]? with
      | none => []
      | some s => n.path ++ [(n.var, s)]

/-- The place is there and still empty. -/
def SlotFree (h : Heap D) (it : Item) : Prop :=
  match it.parent with
  | none => h.inner = [] ∧ h.leaves = [] ∧ h.root = none
  | some p => ∃ n s, h.inner.lookup p = some n ∧ n.splits[it.child]? = some s ∧
      n.children[it.child]? = some none

/-- Two queue items go to different places. -/
def DiffSlot (a b : Item) : Prop := a.parent ≠ b.parent ∨ a.child ≠ b.child

/-- Indices are those of the nodes made so far. -/
structure Fresh (h : Heap D) : Prop where
  inner : ∀ k n, h.inner.lookup k = some n → k < h.inner.length + h.leaves.length
  leaves : ∀ k l, h.leaves.lookup k = some l → k < h.inner.length + h.leaves.length
  sorted : (h.inner.map Prod.fst).Pairwise (· < ·)

theorem lookup_of_mem_keys {B : Type} {d : List (ℕ × B)} {k : ℕ} (h : k ∈ d.map Prod.fst) :
    ∃ b, d.lookup k = some b := Dict.lookup_isSome.2 h

theorem Fresh.not_inner {h : Heap D} (hf : Fresh h) :
    h.inner.lookup (h.inner.length + h.leaves.length) = none := by
  cases hl : h.inner.lookup (h.inner.length + h.leaves.length) with
  | none => rfl
  | some n => exact absurd (hf.inner _ _ hl) (by omega)

theorem Fresh.not_leaves {h : Heap D} (hf : Fresh h) :
    h.leaves.lookup (h.inner.length + h.leaves.length) = none := by
  cases hl : h.leaves.lookup (h.inner.length + h.leaves.length) with
  | none => rfl
  | some n => exact absurd (hf.leaves _ _ hl) (by omega)

theorem set_new {B : Type} {d : List (ℕ × B)} {k : ℕ} {b : B} (h : d.lookup k = none) :
    Dict.set d k b = d ++ [(k, b)] := by
  unfold Dict.set
  rw [if_neg (Dict.lookup_none.1 h)]

theorem length_set_old {B : Type} {d : List (ℕ × B)} {k : ℕ} {b b' : B}
    (h : d.lookup k = some b') : (Dict.set d k b).length = d.length := by
  unfold Dict.set
  rw [if_pos (Dict.lookup_isSome.1 ⟨_, h⟩), List.length_map]

theorem keys_set_old {B : Type} {d : List (ℕ × B)} {k : ℕ} {b b' : B}
    (h : d.lookup k = some b') : (Dict.set d k b).map Prod.fst = d.map Prod.fst := by
  rw [Dict.keys_set, if_pos (Dict.lookup_isSome.1 ⟨_, h⟩)]

/-- What storing a child does. -/
structure Attached (h h1 : Heap D) (it : Item) (id : ℕ) : Prop where
  leaves : h1.leaves = h.leaves
  root : h1.root = h.root
  length : h1.inner.length = h.inner.length
  keys : h1.inner.map Prod.fst = h.inner.map Prod.fst
  lookup : ∀ k, h1.inner.lookup k =
    if it.parent = some k then
      (h.inner.lookup k).map (fun n => n.setChild it.child id)
    else h.inner.lookup k

theorem attach_ok {h : Heap D} {it : Item} (hs : SlotFree h it) (id : ℕ) :
    ∃ h1, h.attach it.parent it.child id = .ok (h1, itemPath h it) ∧ Attached h h1 it id := by
  unfold SlotFree at hs
  unfold Heap.attach itemPath
  cases hp : it.parent with
  | none => exact ⟨h, rfl, rfl, rfl, rfl, rfl, fun k => by simp [hp]⟩
  | some p =>
    rw [hp] at hs
    obtain ⟨n, s, h1, h2, h3⟩ := hs
    have h4 : it.child < n.children.length := by
      rcases Nat.lt_or_ge it.child n.children.length with h | h
      · exact h
      · rw [List.getElem?_eq_none h] at h3
        exact absurd h3 (by simp)
    simp only [h1, h2, h4, if_true]
    refine ⟨_, rfl, rfl, rfl, length_set_old h1, keys_set_old h1, ?_⟩
    intro k
    simp only [hp, Option.some.injEq]
    rw [Dict.lookup_set]
    by_cases hk : p = k
    · subst hk
      simp [h1]
    · rw [if_neg hk, if_neg (fun e => hk e.symm)]

/-- The tree after a new node: `ni` if it is a decision node, `nl` if it is a leaf. -/
structure Added (h h' : Heap D) (it : Item) (id : ℕ) (ni : Option Inner) (nl : Option (Leaf D)) :
    Prop where
  inner_lookup : ∀ k, h'.inner.lookup k = if k = id then ni else
    if it.parent = some k then
      (h.inner.lookup k).map (fun n => n.setChild it.child id)
    else h.inner.lookup k
  leaves_lookup : ∀ k, h'.leaves.lookup k = if k = id then nl else h.leaves.lookup k
  leaves : h'.leaves = h.leaves ++ (nl.map (fun l => (id, l))).toList
  root : h'.root = h.root.or (some id)
  length : h'.inner.length + h'.leaves.length = h.inner.length + h.leaves.length + 1
  keys : h'.inner.map Prod.fst = h.inner.map Prod.fst ++ (ni.map (fun _ => id)).toList
  nodup : (h.inner.map Prod.fst ++ h.leaves.map Prod.fst).Nodup →
    (h'.inner.map Prod.fst ++ h'.leaves.map Prod.fst).Nodup

theorem Attached.addInner {h h1 : Heap D} {it : Item} (hf : Fresh h)
    (ha : Attached h h1 it (h.inner.length + h.leaves.length)) (n : Inner) (root : Option ℕ)
    (hr : root = h.root.or (some (h.inner.length + h.leaves.length))) :
    Added h ⟨Dict.set h1.inner (h.inner.length + h.leaves.length) n, h1.leaves, root⟩ it
      (h.inner.length + h.leaves.length) (some n) none := by
  have hnone : h1.inner.lookup (h.inner.length + h.leaves.length) = none := by
    rw [ha.lookup, hf.not_inner]
    simp
  constructor
  · intro k
    rw [Dict.lookup_set, ha.lookup]
  · intro k
    simp only [ha.leaves]
    by_cases hk : k = h.inner.length + h.leaves.length
    · subst hk
      rw [if_pos rfl, hf.not_leaves]
    · rw [if_neg hk]
  · simp [ha.leaves]
  · exact hr
  · simp only [set_new hnone, List.length_append, List.length_singleton, ha.length, ha.leaves]
    omega
  · simp [set_new hnone, ha.keys]
  · intro hn
    simp only [set_new hnone, List.map_append, ha.keys, ha.leaves, List.map_cons, List.map_nil]
    have hperm : (h.inner.map Prod.fst ++ [h.inner.length + h.leaves.length]
        ++ h.leaves.map Prod.fst).Perm
        ((h.inner.length + h.leaves.length) :: (h.inner.map Prod.fst ++ h.leaves.map Prod.fst)) := by
      rw [List.append_assoc, List.singleton_append]
      exact List.perm_middle
    rw [hperm.nodup_iff, List.nodup_cons, List.mem_append]
    refine ⟨?_, hn⟩
    rintro (hm | hm)
    · exact Dict.lookup_none.1 hf.not_inner hm
    · exact Dict.lookup_none.1 hf.not_leaves hm

theorem Attached.addLeaf {h h1 : Heap D} {it : Item} (hf : Fresh h)
    (ha : Attached h h1 it (h.inner.length + h.leaves.length)) (l : Leaf D) (root : Option ℕ)
    (hr : root = h.root.or (some (h.inner.length + h.leaves.length))) :
    Added h ⟨h1.inner, Dict.set h1.leaves (h.inner.length + h.leaves.length) l, root⟩ it
      (h.inner.length + h.leaves.length) none (some l) := by
  have hnone : h1.leaves.lookup (h.inner.length + h.leaves.length) = none := by
    rw [ha.leaves, hf.not_leaves]
  constructor
  · intro k
    show h1.inner.lookup k = _
    rw [ha.lookup]
    by_cases hk : k = h.inner.length + h.leaves.length
    · subst hk
      rw [if_pos rfl, hf.not_inner]
      simp
    · rw [if_neg hk]
  · intro k
    rw [Dict.lookup_set, ha.leaves]
  · simp only [set_new hnone]
    simp [ha.leaves]
  · exact hr
  · simp only [set_new hnone]
    simp only [List.length_append, List.length_singleton, ha.length, ha.leaves]
    omega
  · simp [ha.keys]
  · intro hn
    simp only [set_new hnone]
    simp only [List.map_append, ha.keys, ha.leaves, List.map_cons, List.map_nil]
    rw [← List.append_assoc]
    refine List.Nodup.append hn (by simp) ?_
    rw [List.disjoint_singleton, List.mem_append]
    rintro (hm | hm)
    · exact Dict.lookup_none.1 hf.not_inner hm
    · exact Dict.lookup_none.1 hf.not_leaves hm

/-! ## What stays the same for the other queue items -/

theorem Added.itemPath_eq {h h' : Heap D} {it o : Item} {ni : Option Inner} {nl : Option (Leaf D)}
    (ha : Added h h' it (h.inner.length + h.leaves.length) ni nl) (hf : Fresh h)
    (ho : SlotFree h o) : itemPath h' o = itemPath h o := by
  unfold SlotFree at ho
  unfold itemPath
  cases hp : o.parent with
  | none => rfl
  | some p =>
    rw [hp] at ho
    obtain ⟨n, s, h1, h2, h3⟩ := ho
    have hne : p ≠ h.inner.length + h.leaves.length := by
      have := hf.inner _ _ h1
      omega
    simp only [ha.inner_lookup, if_neg hne]
    by_cases hk : it.parent = some p
    · simp [hk, h1, Inner.setChild]
    · rw [if_neg hk]

theorem Added.slotFree {h h' : Heap D} {it o : Item} {ni : Option Inner} {nl : Option (Leaf D)}
    (ha : Added h h' it (h.inner.length + h.leaves.length) ni nl) (hf : Fresh h)
    (ho : SlotFree h o) (hpo : o.parent ≠ none) (hd : DiffSlot it o) : SlotFree h' o := by
  unfold SlotFree at ho ⊢
  cases hp : o.parent with
  | none => exact absurd hp hpo
  | some p =>
    rw [hp] at ho
    obtain ⟨n, s, h1, h2, h3⟩ := ho
    have hne : p ≠ h.inner.length + h.leaves.length := by
      have := hf.inner _ _ h1
      omega
    simp only [ha.inner_lookup, if_neg hne]
    by_cases hk : it.parent = some p
    · rw [if_pos hk, h1]
      refine ⟨_, s, rfl, h2, ?_⟩
      have hc : it.child ≠ o.child := by
        rcases hd with hd | hd
        · exact absurd (hk.trans hp.symm) hd
        · exact hd
      simp only [Inner.setChild, List.getElem?_set_ne hc, h3]
    · rw [if_neg hk]
      exact ⟨n, s, h1, h2, h3⟩

theorem Added.fresh {h h' : Heap D} {it : Item} {ni : Option Inner} {nl : Option (Leaf D)}
    (ha : Added h h' it (h.inner.length + h.leaves.length) ni nl) (hf : Fresh h) : Fresh h' := by
  constructor
  · intro k n hk
    rw [ha.length]
    rw [ha.inner_lookup] at hk
    by_cases he : k = h.inner.length + h.leaves.length
    · omega
    · rw [if_neg he] at hk
      by_cases hp : it.parent = some k
      · rw [if_pos hp] at hk
        obtain ⟨m, hm, -⟩ := Option.map_eq_some_iff.1 hk
        have := hf.inner _ _ hm
        omega
      · rw [if_neg hp] at hk
        have := hf.inner _ _ hk
        omega
  · intro k l hk
    rw [ha.length]
    rw [ha.leaves_lookup] at hk
    by_cases he : k = h.inner.length + h.leaves.length
    · omega
    · rw [if_neg he] at hk
      have := hf.leaves _ _ hk
      omega
  · rw [ha.keys]
    cases ni with
    | none => simpa using hf.sorted
    | some n =>
      simp only [Option.map_some, Option.toList_some, List.pairwise_append, List.pairwise_cons,
        List.not_mem_nil, false_imp_iff, implies_true, List.Pairwise.nil, and_self, true_and,
        List.mem_singleton, forall_eq]
      refine ⟨hf.sorted, ?_⟩
      intro k hk
      obtain ⟨m, hm⟩ := Dict.lookup_isSome.2 hk
      exact hf.inner k m hm

/-! ## The tree stays a tree -/

theorem Added.nodeAt_old {h h' : Heap D} {it : Item} {ni : Option Inner} {nl : Option (Leaf D)}
    (ha : Added h h' it (h.inner.length + h.leaves.length) ni nl) {j : ℕ}
    {par : Option ℕ} {path : Path} (hj : j ≠ h.inner.length + h.leaves.length) :
    NodeAt h' j par path ↔ NodeAt h j par path := by
  unfold NodeAt
  rw [ha.inner_lookup, ha.leaves_lookup, if_neg hj, if_neg hj]
  refine or_congr ?_ Iff.rfl
  by_cases hp : it.parent = some j
  · rw [if_pos hp]
    constructor
    · rintro ⟨n, h1, h2, h3⟩
      obtain ⟨m, hm, rfl⟩ := Option.map_eq_some_iff.1 h1
      exact ⟨m, hm, h2, h3⟩
    · rintro ⟨n, h1, h2, h3⟩
      exact ⟨n.setChild _ _, by rw [h1]; rfl, h2, h3⟩
  · rw [if_neg hp]

/-- The new node. -/
structure NewNode (h : Heap D) (it : Item) (ni : Option Inner) (nl : Option (Leaf D)) : Prop where
  one : (∃ n, ni = some n) ∨ (∃ l, nl = some l)
  inner : ∀ n, ni = some n → n.parent = it.parent ∧ n.path = itemPath h it ∧
    n.children.length = n.splits.length ∧ ∀ i j : ℕ, n.children[i]? ≠ some (some j)
  leaf : ∀ l, nl = some l → l.parent = it.parent ∧ l.path = itemPath h it

theorem Added.shape {h h' : Heap D} {it : Item} {ni : Option Inner} {nl : Option (Leaf D)}
    (ha : Added h h' it (h.inner.length + h.leaves.length) ni nl) (hf : Fresh h) (hs : SlotFree h it)
    (hn : NewNode h it ni nl) (hsh : Shape h) : Shape h' := by
  have hnew : ∀ par path, NodeAt h' (h.inner.length + h.leaves.length) par path →
      par = it.parent ∧ path = itemPath h it := by
    rintro par path (⟨n, h1, h2, h3⟩ | ⟨l, h1, h2, h3⟩)
    · rw [ha.inner_lookup, if_pos rfl] at h1
      have := hn.inner n h1
      exact ⟨h2 ▸ this.1, h3 ▸ this.2.1⟩
    · rw [ha.leaves_lookup, if_pos rfl] at h1
      have := hn.leaf l h1
      exact ⟨h2 ▸ this.1, h3 ▸ this.2⟩
  have hnew' : NodeAt h' (h.inner.length + h.leaves.length) it.parent (itemPath h it) := by
    rcases hn.one with ⟨n, h1⟩ | ⟨l, h1⟩
    · exact .inl ⟨n, by rw [ha.inner_lookup, if_pos rfl, h1], (hn.inner n h1).1, (hn.inner n h1).2.1⟩
    · exact .inr ⟨l, by rw [ha.leaves_lookup, if_pos rfl, h1], (hn.leaf l h1).1, (hn.leaf l h1).2⟩
  -- an old decision node in the new tree
  have hold : ∀ k m, k ≠ h.inner.length + h.leaves.length → h'.inner.lookup k = some m →
      ∃ n, h.inner.lookup k = some n ∧ m.splits = n.splits ∧ m.var = n.var ∧ m.path = n.path ∧
        (it.parent = some k ∧ m.children = n.children.set it.child
            (some (h.inner.length + h.leaves.length)) ∨
          it.parent ≠ some k ∧ m = n) := by
    intro k m hk hm
    rw [ha.inner_lookup, if_neg hk] at hm
    by_cases hp : it.parent = some k
    · rw [if_pos hp] at hm
      obtain ⟨n, hn1, rfl⟩ := Option.map_eq_some_iff.1 hm
      exact ⟨n, hn1, rfl, rfl, rfl, .inl ⟨hp, rfl⟩⟩
    · rw [if_neg hp] at hm
      exact ⟨m, hm, rfl, rfl, rfl, .inr ⟨hp, rfl⟩⟩
  have hlt : ∀ j par path, NodeAt h j par path → j < h.inner.length + h.leaves.length := by
    rintro j par path (⟨n, h1, -⟩ | ⟨l, h1, -⟩)
    · exact hf.inner _ _ h1
    · exact hf.leaves _ _ h1
  have hslot : ∀ k, it.parent = some k → ∃ n s, h.inner.lookup k = some n ∧
      n.splits[it.child]? = some s ∧ n.children[it.child]? = some none ∧
      itemPath h it = n.path ++ [(n.var, s)] := by
    intro k hk
    unfold SlotFree at hs
    rw [hk] at hs
    obtain ⟨n, s, h1, h2, h3⟩ := hs
    refine ⟨n, s, h1, h2, h3, ?_⟩
    unfold itemPath
    simp only [hk, h1, h2]
  constructor
  · exact ha.nodup hsh.nodup
  · intro k m hm
    by_cases hk : k = h.inner.length + h.leaves.length
    · subst hk
      rw [ha.inner_lookup, if_pos rfl] at hm
      exact (hn.inner m hm).2.2.1
    · obtain ⟨n, h1, h2, -, -, h5 | h5⟩ := hold k m hk hm
      · rw [h5.2, h2, List.length_set]
        exact hsh.arity k n h1
      · rw [h5.2]
        exact hsh.arity k n h1
  · intro k m i j hm hc
    by_cases hk : k = h.inner.length + h.leaves.length
    · subst hk
      rw [ha.inner_lookup, if_pos rfl] at hm
      exact absurd hc ((hn.inner m hm).2.2.2 i j)
    · obtain ⟨n, h1, h2, h3, h4, h5⟩ := hold k m hk hm
      rw [h2, h3, h4]
      by_cases hij : it.parent = some k ∧ i = it.child
      · obtain ⟨hp, rfl⟩ := hij
        rcases h5 with ⟨-, h5⟩ | ⟨h5, -⟩
        · obtain ⟨n', s, e1, e2, e3, e4⟩ := hslot k hp
          rw [h1] at e1
          cases e1
          have hlen : it.child < n.children.length := by
            rcases Nat.lt_or_ge it.child n.children.length with h | h
            · exact h
            · rw [List.getElem?_eq_none h] at e3
              exact absurd e3 (by simp)
          rw [h5, List.getElem?_set_self hlen] at hc
          simp only [Option.some.injEq] at hc
          subst hc
          refine ⟨hf.inner _ _ h1, s, e2, ?_⟩
          rw [← e4, ← hp]
          exact hnew'
        · exact absurd hp h5
      · have hc' : n.children[i]? = some (some j) := by
          rcases h5 with ⟨hp, h5⟩ | ⟨-, h5⟩
          · rw [h5, List.getElem?_set_ne (fun e => hij ⟨hp, e.symm⟩)] at hc
            exact hc
          · rw [h5] at hc
            exact hc
        obtain ⟨h6, s, h7, h8⟩ := hsh.kids k n i j h1 hc'
        refine ⟨h6, s, h7, ?_⟩
        rw [ha.nodeAt_old (by have := hlt _ _ _ h8; omega)]
        exact h8
  · intro j path hj
    by_cases hk : j = h.inner.length + h.leaves.length
    · subst hk
      obtain ⟨h1, h2⟩ := hnew _ _ hj
      unfold SlotFree at hs
      rw [← h1] at hs
      refine ⟨?_, ?_⟩
      · rw [ha.root, hs.2.2]
        rfl
      · rw [h2]
        unfold itemPath
        rw [← h1]
    · rw [ha.nodeAt_old hk] at hj
      obtain ⟨h1, h2⟩ := hsh.parents j path hj
      refine ⟨?_, h2⟩
      rw [ha.root, h1]
      rfl
  · intro j k path hj
    by_cases hk : j = h.inner.length + h.leaves.length
    · subst hk
      obtain ⟨h1, -⟩ := hnew _ _ hj
      obtain ⟨n, s, e1, e2, e3, -⟩ := hslot k h1.symm
      have hlen : it.child < n.children.length := by
        rcases Nat.lt_or_ge it.child n.children.length with h | h
        · exact h
        · rw [List.getElem?_eq_none h] at e3
          exact absurd e3 (by simp)
      have hkne : k ≠ h.inner.length + h.leaves.length := by
        have := hf.inner _ _ e1
        omega
      refine ⟨n.setChild it.child (h.inner.length + h.leaves.length), it.child, ?_, ?_⟩
      · rw [ha.inner_lookup, if_neg hkne, if_pos h1.symm, e1]
        rfl
      · exact List.getElem?_set_self hlen
    · rw [ha.nodeAt_old hk] at hj
      obtain ⟨n, i, h1, h2⟩ := hsh.parents' j k path hj
      have hkne : k ≠ h.inner.length + h.leaves.length := by
        have := hf.inner _ _ h1
        omega
      by_cases hp : it.parent = some k
      · obtain ⟨n', s, e1, e2, e3, -⟩ := hslot k hp
        rw [h1] at e1
        cases e1
        have hi : it.child ≠ i := by
          rintro rfl
          rw [e3] at h2
          simp at h2
        refine ⟨n.setChild it.child (h.inner.length + h.leaves.length), i, ?_, ?_⟩
        · rw [ha.inner_lookup, if_neg hkne, if_pos hp, h1]
          rfl
        · simp only [Inner.setChild, List.getElem?_set_ne hi]
          exact h2
      · exact ⟨n, i, by rw [ha.inner_lookup, if_neg hkne, if_neg hp, h1], h2⟩
  · intro k m i i' j hm hc hc'
    by_cases hk : k = h.inner.length + h.leaves.length
    · subst hk
      rw [ha.inner_lookup, if_pos rfl] at hm
      exact absurd hc ((hn.inner m hm).2.2.2 i j)
    · obtain ⟨n, h1, h2, h3, h4, h5⟩ := hold k m hk hm
      rcases h5 with ⟨hp, h5⟩ | ⟨-, h5⟩
      · have hcase : ∀ i : ℕ, m.children[i]? = some (some j) →
            (i = it.child ∧ j = h.inner.length + h.leaves.length) ∨
              (i ≠ it.child ∧ n.children[i]? = some (some j)) := by
          intro i hc
          by_cases hi : it.child = i
          · left
            subst hi
            rw [h5] at hc
            rcases Nat.lt_or_ge it.child n.children.length with hl | hl
            · rw [List.getElem?_set_self hl] at hc
              simp only [Option.some.injEq] at hc
              exact ⟨rfl, hc.symm⟩
            · rw [List.getElem?_eq_none (by simpa using hl)] at hc
              exact absurd hc (by simp)
          · right
            rw [h5, List.getElem?_set_ne hi] at hc
            exact ⟨fun e => hi e.symm, hc⟩
        have hnj : ∀ i : ℕ, n.children[i]? = some (some j) → j < h.inner.length + h.leaves.length := by
          intro i hi
          obtain ⟨-, s, -, h8⟩ := hsh.kids k n i j h1 hi
          exact hlt _ _ _ h8
        rcases hcase i hc with ⟨a, b⟩ | ⟨a, b⟩ <;> rcases hcase i' hc' with ⟨a', b'⟩ | ⟨a', b'⟩
        · rw [a, a']
        · have := hnj _ b'
          omega
        · have := hnj _ b
          omega
        · exact hsh.once k n i i' j h1 b b'
      · rw [h5] at hc hc'
        exact hsh.once k n i i' j h1 hc hc'
  · intro r hr
    rw [ha.root] at hr
    cases hroot : h.root with
    | none =>
      rw [hroot] at hr
      simp only [Option.none_or, Option.some.injEq] at hr
      subst hr
      have hpar : it.parent = none := by
        cases hp : it.parent with
        | none => rfl
        | some k =>
          exfalso
          obtain ⟨n, s, e1, -⟩ := hslot k hp
          -- the parent chain ends at a root
          exact absurd hroot (by
            have : ∀ m, ∀ j < m, ∀ par path, NodeAt h j par path → h.root ≠ none := by
              intro m
              induction m with
              | zero => intro j hj; omega
              | succ m ih =>
                intro j hj par path hnode
                cases par with
                | none =>
                  rw [(hsh.parents j path hnode).1]
                  simp
                | some k =>
                  obtain ⟨n, i, a1, a2⟩ := hsh.parents' j k path hnode
                  have := (hsh.kids k n i j a1 a2).1
                  exact ih k (by omega) _ _ (.inl ⟨n, a1, rfl, rfl⟩)
            exact this (k + 1) k (by omega) _ _ (.inl ⟨n, e1, rfl, rfl⟩))
      have hpath : itemPath h it = [] := by
        unfold itemPath
        rw [hpar]
      rw [hpar, hpath] at hnew'
      exact hnew'
    | some r' =>
      rw [hroot] at hr
      simp only [Option.some_or, Option.some.injEq] at hr
      subst hr
      have := hsh.root r' hroot
      rw [ha.nodeAt_old (by have := hlt _ _ _ this; omega)]
      exact this

end Verif.Learn
