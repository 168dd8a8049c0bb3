import Verif.Trees.Prune
import Verif.Trees.Lemmas8

/-! # Lemmas on pruning: replacing two leaves and their parent by one leaf -/

namespace Verif.Trees

variable {D E : Type}

/-- A node with one child exchanged. -/
def Inner.swap (a b : ℕ) (n : Inner) : Inner :=
  { n with children := n.children.map (fun c => if c = some a then some b else c) }

/-- The tree in which the leaf `m` takes the place of the node `id`. -/
def collapse (h : Heap D) (id il ir : ℕ) (m : Leaf D) : Heap D :=
  ⟨(h.inner.filter (fun a => decide (a.1 ≠ id))).map (fun a => (a.1, a.2.swap id h.newIdx)),
    ((h.leaves.filter (fun a => decide (a.1 ≠ il))).filter (fun a => decide (a.1 ≠ ir))) ++ [(h.newIdx, m)],
    if h.root = some id then some h.newIdx else h.root⟩

variable {h : Heap D}

theorem lt_newIdx {j : ℕ} (hj : j ∈ h.ids) : j < h.newIdx := by
  unfold Heap.newIdx
  unfold Heap.ids at hj
  generalize h.inner.map Prod.fst ++ h.leaves.map Prod.fst = l at hj
  induction l with
  | nil => cases hj
  | cons a l ih =>
    rw [List.foldr_cons]
    rcases List.mem_cons.1 hj with rfl | hj
    · omega
    · have := ih hj
      omega

theorem newIdx_not_mem : h.newIdx ∉ h.ids := fun hm => lt_irrefl _ (lt_newIdx hm)

theorem ids_inner {k : ℕ} {n : Inner} (hk : h.inner.lookup k = some n) : k ∈ h.ids := by
  unfold Heap.ids
  exact List.mem_append.2 (.inl (List.mem_map.2 ⟨_, Dict.lookup_mem hk, rfl⟩))

theorem ids_leaf {k : ℕ} {n : Leaf D} (hk : h.leaves.lookup k = some n) : k ∈ h.ids := by
  unfold Heap.ids
  exact List.mem_append.2 (.inr (List.mem_map.2 ⟨_, Dict.lookup_mem hk, rfl⟩))

/-- Two sibling leaves and their parent. -/
structure Siblings (h : Heap D) (id il ir : ℕ) (nd : Inner) (l r : Leaf D) : Prop where
  node : h.inner.lookup id = some nd
  children : nd.children = [some il, some ir]
  left : h.leaves.lookup il = some l
  right : h.leaves.lookup ir = some r

variable {id il ir : ℕ} {nd : Inner} {l r m : Leaf D}

theorem collapse_inner (k : ℕ) : (collapse h id il ir m).inner.lookup k
    = if k = id then none else (h.inner.lookup k).map (Inner.swap id h.newIdx) := by
  unfold collapse
  simp only
  rw [lookup_map_val, Dict.lookup_filter]
  split_ifs <;> rfl

theorem collapse_leaf (k : ℕ) : (collapse h id il ir m).leaves.lookup k
    = if k = h.newIdx then some m else if k = il ∨ k = ir then none else h.leaves.lookup k := by
  unfold collapse
  simp only
  rw [Dict.lookup_append, Dict.lookup_filter, Dict.lookup_filter]
  by_cases hk : k = h.newIdx
  · have h1 : h.leaves.lookup k = none := by
      rw [Dict.lookup_none]
      intro hm
      exact newIdx_not_mem (h := h) (by rw [← hk]; unfold Heap.ids; exact List.mem_append.2 (.inr hm))
    rw [if_pos hk, h1]
    subst hk
    simp
  · have h1 : List.lookup k [(h.newIdx, m)] = none := by
      rw [Dict.lookup_none]
      simpa using hk
    rw [if_neg hk, h1, Option.or_none]
    by_cases h2 : k = ir
    · rw [if_pos h2, if_pos (.inr h2)]
    · rw [if_neg h2]
      by_cases h3 : k = il
      · rw [if_pos h3, if_pos (.inl h3)]
      · rw [if_neg h3, if_neg (by simp [h2, h3])]

theorem swap_get {a b i : ℕ} {n : Inner} {c : Option ℕ} (hc : (n.swap a b).children[i]? = some c) :
    ∃ c', n.children[i]? = some c' ∧ (c' = some a ∧ c = some b ∨ c' ≠ some a ∧ c = c') := by
  unfold Inner.swap at hc
  simp only [List.getElem?_map, Option.map_eq_some_iff] at hc
  obtain ⟨c', h1, h2⟩ := hc
  refine ⟨c', h1, ?_⟩
  by_cases hc : c' = some a
  · rw [if_pos hc] at h2
    exact .inl ⟨hc, h2.symm⟩
  · rw [if_neg hc] at h2
    exact .inr ⟨hc, h2.symm⟩

theorem Siblings.leftAt (S : Siblings h id il ir nd l r) (hs : Shape h) :
    ∃ s, NodeAt h il (some id) (nd.path ++ [(nd.var, s)]) ∧ l.path = nd.path ++ [(nd.var, s)] := by
  obtain ⟨-, s, -, h1⟩ := hs.kids id nd 0 il S.node (by rw [S.children]; rfl)
  have h2 : NodeAt h il l.parent l.path := .inr ⟨l, S.left, rfl, rfl⟩
  exact ⟨s, h1, (nodeAt_unique hs h2 h1).2⟩

theorem Siblings.rightAt (S : Siblings h id il ir nd l r) (hs : Shape h) :
    ∃ s, NodeAt h ir (some id) (nd.path ++ [(nd.var, s)]) ∧ r.path = nd.path ++ [(nd.var, s)] := by
  obtain ⟨-, s, -, h1⟩ := hs.kids id nd 1 ir S.node (by rw [S.children]; rfl)
  have h2 : NodeAt h ir r.parent r.path := .inr ⟨r, S.right, rfl, rfl⟩
  exact ⟨s, h1, (nodeAt_unique hs h2 h1).2⟩

theorem Siblings.ne (S : Siblings h id il ir nd l r) (hs : Shape h) : il ≠ ir := by
  rintro rfl
  have := hs.once id nd 0 1 il S.node (by rw [S.children]; rfl) (by rw [S.children]; rfl)
  omega

theorem Siblings.idAt (S : Siblings h id il ir nd l r) : NodeAt h id nd.parent nd.path :=
  .inl ⟨nd, S.node, rfl, rfl⟩

theorem collapse_at (S : Siblings h id il ir nd l r) (hs : Shape h) (hp : m.parent = nd.parent)
    (hpath : m.path = nd.path) {j : ℕ} {p : Option ℕ} {path : Path} :
    NodeAt (collapse h id il ir m) j p path ↔
      (j = h.newIdx ∧ p = nd.parent ∧ path = nd.path) ∨
      (j ≠ h.newIdx ∧ j ≠ id ∧ j ≠ il ∧ j ≠ ir ∧ NodeAt h j p path) := by
  unfold NodeAt
  rw [collapse_inner, collapse_leaf]
  by_cases hj : j = h.newIdx
  · have h1 : h.inner.lookup j = none := by
      rw [Dict.lookup_none]
      intro hm
      exact newIdx_not_mem (h := h) (by rw [← hj]; unfold Heap.ids; exact List.mem_append.2 (.inl hm))
    rw [h1]
    simp only [hj, Option.map_none, if_true, ite_self]
    constructor
    · rintro (⟨n, h2, -⟩ | ⟨n, h2, h3, h4⟩)
      · cases h2
      · cases h2
        exact .inl ⟨trivial, h3.symm.trans hp, h4.symm.trans hpath⟩
    · rintro (⟨-, h2, h3⟩ | ⟨h2, -⟩)
      · exact .inr ⟨m, rfl, hp.trans h2.symm, hpath.trans h3.symm⟩
      · exact absurd rfl h2
  · rw [if_neg hj]
    have hil : h.inner.lookup il = none := lookup_none_of hs S.left
    have hir : h.inner.lookup ir = none := lookup_none_of hs S.right
    have hid : h.leaves.lookup id = none := by
      cases hl : h.leaves.lookup id with
      | none => rfl
      | some x =>
        have := lookup_none_of hs hl
        rw [S.node] at this
        cases this
    constructor
    · rintro (⟨n, h2, h3, h4⟩ | ⟨n, h2, h3, h4⟩)
      · by_cases hi : j = id
        · rw [if_pos hi] at h2; cases h2
        · rw [if_neg hi] at h2
          obtain ⟨n', h5, rfl⟩ := Option.map_eq_some_iff.1 h2
          refine .inr ⟨hj, hi, ?_, ?_, .inl ⟨n', h5, h3, h4⟩⟩
          · rintro rfl; rw [hil] at h5; cases h5
          · rintro rfl; rw [hir] at h5; cases h5
      · by_cases hi : j = il ∨ j = ir
        · rw [if_pos hi] at h2; cases h2
        · rw [if_neg hi] at h2
          push Not at hi
          refine .inr ⟨hj, ?_, hi.1, hi.2, .inr ⟨n, h2, h3, h4⟩⟩
          rintro rfl
          rw [hid] at h2; cases h2
    · rintro (⟨h2, -⟩ | ⟨-, h2, h3, h4, h5⟩)
      · exact absurd h2 hj
      · rw [if_neg h2, if_neg (by simp [h3, h4])]
        rcases h5 with ⟨n, h6, h7, h8⟩ | ⟨n, h6, h7, h8⟩
        · exact .inl ⟨n.swap id h.newIdx, by rw [h6]; rfl, h7, h8⟩
        · exact .inr ⟨n, h6, h7, h8⟩

/-- The new tree is a tree. -/
theorem collapse_shape (S : Siblings h id il ir nd l r) (hs : Shape h) (hp : m.parent = nd.parent)
    (hpath : m.path = nd.path) : Shape (collapse h id il ir m) := by
  obtain ⟨sl, hl1, -⟩ := S.leftAt hs
  obtain ⟨sr, hr1, -⟩ := S.rightAt hs
  have hnew : ∀ {j : ℕ} {p : Option ℕ} {path : Path}, NodeAt h j p path → j ≠ h.newIdx := by
    intro j p path hj e
    exact newIdx_not_mem (h := h) (e ▸ nodeAt_mem hj)
  refine ⟨?_, ?_, ?_, ?_, ?_, ?_, ?_⟩
  · unfold collapse
    simp only [List.map_append, List.map_map, List.map_cons, List.map_nil]
    have e : (h.inner.filter (fun a => decide (a.1 ≠ id))).map (Prod.fst ∘ fun a => (a.1, a.2.swap id h.newIdx))
        = (h.inner.filter (fun a => decide (a.1 ≠ id))).map Prod.fst := rfl
    rw [e, ← List.append_assoc, List.nodup_append]
    refine ⟨hs.nodup.sublist ?_, by simp, ?_⟩
    · exact (List.filter_sublist.map _).append ((List.filter_sublist.trans List.filter_sublist).map _)
    · intro a ha b hb
      simp only [List.mem_singleton] at hb
      subst hb
      rintro rfl
      apply newIdx_not_mem (h := h)
      unfold Heap.ids
      rcases List.mem_append.1 ha with ha | ha
      · exact List.mem_append.2 (.inl ((List.filter_sublist.map Prod.fst).subset ha))
      · exact List.mem_append.2 (.inr (((List.filter_sublist.trans List.filter_sublist).map Prod.fst).subset ha))
  · intro k n hk
    rw [collapse_inner] at hk
    split_ifs at hk with hki
    obtain ⟨n', h1, rfl⟩ := Option.map_eq_some_iff.1 hk
    have := hs.arity k n' h1
    simpa [Inner.swap] using this
  · intro k n i j hk hi
    rw [collapse_inner] at hk
    split_ifs at hk with hki
    obtain ⟨n', h1, rfl⟩ := Option.map_eq_some_iff.1 hk
    obtain ⟨c', h2, h3⟩ := swap_get hi
    rcases h3 with ⟨rfl, h3⟩ | ⟨h3, rfl⟩
    · injection h3 with h3
      subst h3
      obtain ⟨h4, s, h5, h6⟩ := hs.kids k n' i id h1 h2
      refine ⟨lt_newIdx (ids_inner h1), s, h5, ?_⟩
      rw [collapse_at S hs hp hpath]
      have := nodeAt_unique hs S.idAt h6
      exact .inl ⟨rfl, this.1.symm, this.2.symm⟩
    · obtain ⟨h4, s, h5, h6⟩ := hs.kids k n' i j h1 h2
      refine ⟨h4, s, h5, ?_⟩
      rw [collapse_at S hs hp hpath]
      refine .inr ⟨hnew h6, ?_, ?_, ?_, h6⟩
      · rintro rfl; exact h3 rfl
      · rintro rfl
        have := (nodeAt_unique hs h6 hl1).1
        injection this with this
        exact hki this
      · rintro rfl
        have := (nodeAt_unique hs h6 hr1).1
        injection this with this
        exact hki this
  · intro j path hj
    rw [collapse_at S hs hp hpath] at hj
    rcases hj with ⟨rfl, h1, rfl⟩ | ⟨h1, h2, h3, h4, h5⟩
    · have := S.idAt
      rw [← h1] at this
      obtain ⟨h6, h7⟩ := hs.parents _ _ this
      refine ⟨?_, h7⟩
      show (if h.root = some id then some h.newIdx else h.root) = _
      rw [if_pos h6]
    · obtain ⟨h6, h7⟩ := hs.parents _ _ h5
      refine ⟨?_, h7⟩
      show (if h.root = some id then some h.newIdx else h.root) = _
      rw [if_neg, h6]
      rw [h6]
      simpa using h2
  · intro j k path hj
    rw [collapse_at S hs hp hpath] at hj
    rcases hj with ⟨rfl, h1, rfl⟩ | ⟨h1, h2, h3, h4, h5⟩
    · have := S.idAt
      rw [← h1] at this
      obtain ⟨n, i, h6, h7⟩ := hs.parents' _ _ _ this
      obtain ⟨h8, -⟩ := hs.kids k n i id h6 h7
      refine ⟨n.swap id h.newIdx, i, ?_, ?_⟩
      · rw [collapse_inner, if_neg (by omega), h6]; rfl
      · unfold Inner.swap
        simp [h7]
    · obtain ⟨n, i, h6, h7⟩ := hs.parents' _ _ _ h5
      have hk : k ≠ id := by
        rintro rfl
        rw [S.node] at h6
        cases h6
        have := List.mem_of_getElem? h7
        rw [S.children] at this
        simp at this
        tauto
      refine ⟨n.swap id h.newIdx, i, ?_, ?_⟩
      · rw [collapse_inner, if_neg hk, h6]; rfl
      · unfold Inner.swap
        simp [h7, h2]
  · intro k n i i' j hk hi hi'
    rw [collapse_inner] at hk
    split_ifs at hk with hki
    obtain ⟨n', h1, rfl⟩ := Option.map_eq_some_iff.1 hk
    obtain ⟨c, h2, h3⟩ := swap_get hi
    obtain ⟨c', h2', h3'⟩ := swap_get hi'
    rcases h3 with ⟨rfl, h3⟩ | ⟨h3, rfl⟩ <;> rcases h3' with ⟨rfl, h3'⟩ | ⟨h3', rfl⟩
    · exact hs.once k n' i i' id h1 h2 h2'
    · injection h3 with h3
      obtain ⟨-, s, -, h6⟩ := hs.kids k n' i' j h1 h2'
      exact absurd h3 (hnew h6)
    · injection h3' with h3'
      obtain ⟨-, s, -, h6⟩ := hs.kids k n' i j h1 h2
      exact absurd h3' (hnew h6)
    · exact hs.once k n' i i' j h1 h2 h2'
  · intro x hx
    have hx' : (if h.root = some id then some h.newIdx else h.root) = some x := hx
    rw [collapse_at S hs hp hpath]
    split_ifs at hx' with hr
    · injection hx' with hx'
      subst hx'
      have := nodeAt_unique hs S.idAt (hs.root _ hr)
      exact .inl ⟨rfl, this.1.symm, this.2.symm⟩
    · have h1 := hs.root _ hx'
      refine .inr ⟨hnew h1, ?_, ?_, ?_, h1⟩
      · rintro rfl; exact hr hx'
      · rintro rfl
        have := (nodeAt_unique hs h1 hl1).1
        cases this
      · rintro rfl
        have := (nodeAt_unique hs h1 hr1).1
        cases this

end Verif.Trees
