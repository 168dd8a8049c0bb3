import Verif.Trees.Spec
import Verif.Trees.Dfs

/-!
# Lemmas about `apply`
-/

namespace Verif.Trees

variable {D : Type}

/-- The keys of the nodes. -/
def Heap.ids (h : Heap D) : List ℕ := h.inner.map Prod.fst ++ h.leaves.map Prod.fst

/-- The nodes visited from a node, in the order of the loop. -/
def qkids (h : Heap D) (q : Query) (id : ℕ) : List ℕ :=
  match h.inner.lookup id with
  | none => []
  | some n => (n.visit q).reverse.filterMap (fun c => c)

theorem lookup_none_of {h : Heap D} (hs : Shape h) {id : ℕ} {l : Leaf D}
    (hl : h.leaves.lookup id = some l) : h.inner.lookup id = none := by
  rw [Dict.lookup_none]
  intro hm
  have h1 := Dict.lookup_mem hl
  have h2 := (List.nodup_append.1 hs.nodup).2.2
  exact h2 id hm id (List.mem_map.2 ⟨_, h1, rfl⟩) rfl

theorem mem_visit {q : Query} {n : Inner} {c : Option ℕ} :
    c ∈ n.visit q ↔ ∃ (i : ℕ) (s : Region), n.children[i]? = some c ∧ n.splits[i]? = some s ∧
      passes q n.var s = true := by
  unfold Inner.visit
  simp only [List.mem_map, List.mem_filter, Prod.exists]
  constructor
  · rintro ⟨c', s, ⟨h1, h2⟩, rfl⟩
    obtain ⟨i, hi⟩ := List.getElem?_of_mem h1
    rw [List.getElem?_zip_eq_some] at hi
    exact ⟨i, s, hi.1, hi.2, h2⟩
  · rintro ⟨i, s, h1, h2, h3⟩
    refine ⟨c, s, ⟨?_, h3⟩, rfl⟩
    apply List.mem_of_getElem? (i := i)
    rw [List.getElem?_zip_eq_some]
    exact ⟨h1, h2⟩

theorem mem_qkids {h : Heap D} {q : Query} {k j : ℕ} :
    j ∈ qkids h q k ↔ ∃ (n : Inner) (i : ℕ) (s : Region), h.inner.lookup k = some n ∧
      n.children[i]? = some (some j) ∧ n.splits[i]? = some s ∧ passes q n.var s = true := by
  unfold qkids
  cases hk : h.inner.lookup k with
  | none => simp
  | some n =>
    simp only [List.mem_filterMap, List.mem_reverse, mem_visit, Option.some.injEq]
    constructor
    · rintro ⟨c, ⟨i, s, h1, h2, h3⟩, rfl⟩
      exact ⟨n, i, s, rfl, h1, h2, h3⟩
    · rintro ⟨n', i, s, rfl, h1, h2, h3⟩
      exact ⟨some j, ⟨i, s, h1, h2, h3⟩, rfl⟩

theorem nodeAt_mem {h : Heap D} {j : ℕ} {p : Option ℕ} {path : Path} (hj : NodeAt h j p path) :
    j ∈ h.ids := by
  unfold Heap.ids
  rw [List.mem_append]
  rcases hj with ⟨n, h1, -⟩ | ⟨n, h1, -⟩
  · exact .inl (List.mem_map.2 ⟨_, Dict.lookup_mem h1, rfl⟩)
  · exact .inr (List.mem_map.2 ⟨_, Dict.lookup_mem h1, rfl⟩)

/-- A node has one parent and one path. -/
theorem nodeAt_unique {h : Heap D} (hs : Shape h) {j : ℕ} {p p' : Option ℕ} {path path' : Path}
    (h1 : NodeAt h j p path) (h2 : NodeAt h j p' path') : p = p' ∧ path = path' := by
  rcases h1 with ⟨n, a, b, c⟩ | ⟨n, a, b, c⟩ <;> rcases h2 with ⟨n', a', b', c'⟩ | ⟨n', a', b', c'⟩
  · rw [a] at a'
    cases a'
    exact ⟨b.symm.trans b', c.symm.trans c'⟩
  · rw [lookup_none_of hs a'] at a
    cases a
  · rw [lookup_none_of hs a] at a'
    cases a'
  · rw [a] at a'
    cases a'
    exact ⟨b.symm.trans b', c.symm.trans c'⟩

theorem forest_qkids {h : Heap D} (hs : Shape h) (q : Query) : Forest (qkids h q) where
  lt i j hj := by
    obtain ⟨n, m, s, h1, h2, -⟩ := mem_qkids.1 hj
    exact (hs.kids i n m j h1 h2).1
  nodup k := by
    unfold qkids
    cases hk : h.inner.lookup k with
    | none => simp
    | some n =>
      simp only
      have hinj : ∀ (a b : Option ℕ) (c : ℕ), c ∈ a → c ∈ b → a = b := by
        intro a b c ha hb
        rw [Option.mem_def] at ha hb
        rw [ha, hb]
      have hpw : (n.children.zip n.splits).Pairwise (fun a b => ∀ j, a.1 = some j → b.1 ≠ some j) := by
        rw [List.pairwise_iff_getElem]
        intro i i' hi hi' hlt j h1 h2
        have e1 : (n.children.zip n.splits)[i]? = some (n.children.zip n.splits)[i] :=
          List.getElem?_eq_getElem hi
        have e2 : (n.children.zip n.splits)[i']? = some (n.children.zip n.splits)[i'] :=
          List.getElem?_eq_getElem hi'
        rw [List.getElem?_zip_eq_some] at e1 e2
        have := hs.once k n i i' j hk (by rw [e1.1, h1]) (by rw [e2.1, h2])
        omega
      have h2 : (n.visit q).Pairwise (fun a b => ∀ j, a = some j → b ≠ some j) := by
        unfold Inner.visit
        rw [List.pairwise_map]
        exact hpw.filter _
      rw [List.filterMap_reverse, List.nodup_reverse]
      show ((n.visit q).filterMap (fun c => c)).Pairwise (· ≠ ·)
      rw [List.pairwise_filterMap]
      refine h2.imp ?_
      rintro a b hab x rfl y hb rfl
      exact hab x rfl hb
  parent i i' j hj hj' := by
    obtain ⟨n, m, s, h1, h2, -⟩ := mem_qkids.1 hj
    obtain ⟨n', m', s', h1', h2', -⟩ := mem_qkids.1 hj'
    obtain ⟨-, _, -, ha⟩ := hs.kids i n m j h1 h2
    obtain ⟨-, _, -, hb⟩ := hs.kids i' n' m' j h1' h2'
    have := (nodeAt_unique hs ha hb).1
    injection this

theorem qkids_node {h : Heap D} (hs : Shape h) {q : Query} {k j : ℕ} (hj : j ∈ qkids h q k) :
    ∃ p path, NodeAt h j p path := by
  obtain ⟨n, m, s, h1, h2, -⟩ := mem_qkids.1 hj
  obtain ⟨-, _, -, ha⟩ := hs.kids k n m j h1 h2
  exact ⟨_, _, ha⟩

theorem reach_node {h : Heap D} (hs : Shape h) {q : Query} {r j : ℕ}
    (hr : ∃ p path, NodeAt h r p path) (hj : Reach (qkids h q) r j) : ∃ p path, NodeAt h j p path := by
  rcases hj.cases_tail with rfl | ⟨b, -, hb⟩
  · exact hr
  · exact qkids_node hs hb

/-- A node is visited iff the query can pass all splits on its path. -/
theorem reach_iff {h : Heap D} (hs : Shape h) {q : Query} {r : ℕ} (hr : h.root = some r) :
    ∀ (j : ℕ) (p : Option ℕ) (path : Path), NodeAt h j p path →
      (Reach (qkids h q) r j ↔ ∀ e ∈ path, passes q e.1 e.2 = true) := by
  intro j
  induction j using Nat.strong_induction_on with
  | _ j ih =>
    intro p path hj
    cases p with
    | none =>
      obtain ⟨h1, rfl⟩ := hs.parents j path hj
      rw [hr] at h1
      cases h1
      simp [Reach.refl]
    | some k =>
      obtain ⟨n, i, h1, h2⟩ := hs.parents' j k path hj
      obtain ⟨hlt, s, h3, h4⟩ := hs.kids k n i j h1 h2
      obtain ⟨-, rfl⟩ := nodeAt_unique hs hj h4
      have hk := ih k hlt n.parent n.path (.inl ⟨n, h1, rfl, rfl⟩)
      have hstep : (Reach (qkids h q) r j ↔ Reach (qkids h q) r k ∧ passes q n.var s = true) := by
        constructor
        · intro hreach
          rcases hreach.cases_tail with rfl | ⟨b, hb, hbj⟩
          · have := (nodeAt_unique hs hj (hs.root j hr)).1
            cases this
          · obtain ⟨n', i', s', g1, g2, g3, g4⟩ := mem_qkids.1 hbj
            obtain ⟨-, s'', g5, g6⟩ := hs.kids b n' i' j g1 g2
            have := (nodeAt_unique hs hj g6).1
            cases this
            rw [h1] at g1
            cases g1
            have := hs.once k n i i' j h1 h2 g2
            subst this
            rw [h3] at g3
            cases g3
            exact ⟨hb, g4⟩
        · rintro ⟨g1, g2⟩
          exact g1.tail (mem_qkids.2 ⟨n, i, s, h1, h2, h3, g2⟩)
      rw [hstep, hk]
      constructor
      · rintro ⟨g1, g2⟩ e he
        rcases List.mem_append.1 he with he | he
        · exact g1 e he
        · rw [List.mem_singleton.1 he]
          exact g2
      · intro g
        exact ⟨fun e he => g e (by simp [he]), g (n.var, s) (by simp)⟩

/-- The loop yields the leaves among the visited nodes. -/
theorem applyLoop_eq {h : Heap D} (hs : Shape h) (hfull : Full h) (q : Query) :
    ∀ (f : ℕ) (fr N : List ℕ), Apart (qkids h q) fr →
      (∀ j, (∃ a ∈ fr, Reach (qkids h q) a j) → j ∈ N) → N.length < f →
      (∀ a ∈ fr, ∃ p path, NodeAt h a p path) →
      applyLoop h q f (fr.map some) =
        .ok ((dfs (qkids h q) f fr).filterMap (fun id => (h.leaves.lookup id).map (fun l => (id, l)))) := by
  intro f
  induction f with
  | zero => intro fr N _ _ h; omega
  | succ f ih =>
    intro fr N hA hN hlen hnode
    cases fr with
    | nil => rfl
    | cons id fr =>
      have hf := forest_qkids hs q
      have hid : id ∈ N := hN id ⟨id, by simp, Reach.refl id⟩
      have hnb := not_below_step hf hA
      have hl := List.length_erase_of_mem hid
      have hpos := List.length_pos_of_mem hid
      have hrec := ih (qkids h q id ++ fr) (N.erase id) (hA.step hf) (by
        intro j hj
        have hne : j ≠ id := by
          rintro rfl
          exact hnb hj
        exact (List.mem_erase_of_ne hne).2 (hN j ((below_step j).2 (.inr hj)))) (by omega) (by
        intro a ha
        rcases List.mem_append.1 ha with ha | ha
        · exact qkids_node hs ha
        · exact hnode a (by simp [ha]))
      obtain ⟨p, path, hnd⟩ := hnode id (by simp)
      rw [List.map_cons, applyLoop, dfs]
      cases hleaf : h.leaves.lookup id with
      | some l =>
        have hk : qkids h q id = [] := by
          unfold qkids
          rw [lookup_none_of hs hleaf]
        rw [hk, List.nil_append] at hrec
        rw [hk, List.nil_append]
        simp only [hrec, bind, Except.bind, pure, Except.pure, List.filterMap_cons, hleaf, Option.map_some]
      | none =>
        rcases hnd with ⟨n, h1, -⟩ | ⟨l, h1, -⟩
        · simp only [h1, List.filterMap_cons, hleaf, Option.map_none]
          have hk : (n.visit q).reverse = (qkids h q id).map some := by
            unfold qkids
            rw [h1]
            simp only
            rw [List.map_filterMap]
            have hall : ∀ c ∈ (n.visit q).reverse, c ≠ none := by
              rintro c hc rfl
              obtain ⟨i, s, g, -⟩ := mem_visit.1 (List.mem_reverse.1 hc)
              exact hfull id n h1 (List.mem_of_getElem? g)
            generalize (n.visit q).reverse = cs at hall
            induction cs with
            | nil => rfl
            | cons c cs ihc =>
              cases c with
              | none => exact absurd rfl (hall none (by simp))
              | some j =>
                rw [List.filterMap_cons]
                simp only [Option.map_some]
                rw [← ihc (fun c hc => hall c (by simp [hc]))]
          rw [hk, ← List.map_append]
          exact hrec
        · rw [h1] at hleaf
          cases hleaf

/-- `apply` yields, each once, the leaves whose path the query can pass. -/
theorem apply_perm {n : ℕ} {h : Heap D} {q : Query} (hs : Shape h) (hfull : Full h)
    (hroot : h.root ≠ none) (hq : ∀ e ∈ q, e.1 < n) :
    ∃ ls, apply n h q = .ok ls ∧
      ls.Perm (h.leaves.filter (fun l => l.2.path.all (fun e => passes q e.1 e.2))) := by
  cases hr : h.root with
  | none => exact absurd hr hroot
  | some r =>
    have hf := forest_qkids hs q
    have hrn := hs.root r hr
    have hA : Apart (qkids h q) [r] := by
      refine ⟨by simp, ?_⟩
      intro a ha b hb _
      rw [List.mem_singleton.1 ha, List.mem_singleton.1 hb]
    have hN : ∀ j, (∃ a ∈ [r], Reach (qkids h q) a j) → j ∈ h.ids := by
      rintro j ⟨a, ha, hj⟩
      rw [List.mem_singleton.1 ha] at hj
      obtain ⟨p, path, hp⟩ := reach_node hs ⟨_, _, hrn⟩ hj
      exact nodeAt_mem hp
    have hlen : h.ids.length < h.inner.length + h.leaves.length + 1 := by
      simp [Heap.ids]
    have happ := applyLoop_eq hs hfull q _ [r] h.ids hA hN hlen (by
      intro a ha
      rw [List.mem_singleton.1 ha]
      exact ⟨_, _, hrn⟩)
    obtain ⟨hnd, hmem⟩ := dfs_spec hf _ [r] h.ids hA hN hlen
    refine ⟨(dfs (qkids h q) (h.inner.length + h.leaves.length + 1) [r]).filterMap
      (fun id => (h.leaves.lookup id).map (fun l => (id, l))), ?_, ?_⟩
    · unfold apply
      rw [if_pos hq, hr]
      exact happ
    · have hkeys : (h.leaves.map Prod.fst).Nodup := (List.nodup_append.1 hs.nodup).2.1
      have hlnd : h.leaves.Nodup := List.Nodup.of_map _ hkeys
      rw [List.perm_ext_iff_of_nodup]
      · rintro ⟨id, l⟩
        simp only [List.mem_filterMap, List.mem_filter, List.all_eq_true]
        constructor
        · rintro ⟨j, hj, he⟩
          cases hl : h.leaves.lookup j with
          | none => rw [hl] at he; cases he
          | some l' =>
            rw [hl] at he
            simp only [Option.map_some, Option.some.injEq, Prod.mk.injEq] at he
            obtain ⟨rfl, rfl⟩ := he
            refine ⟨Dict.lookup_mem hl, ?_⟩
            obtain ⟨a, ha, hreach⟩ := (hmem j).1 hj
            rw [List.mem_singleton.1 ha] at hreach
            exact (reach_iff hs hr j l'.parent l'.path (.inr ⟨l', hl, rfl, rfl⟩)).1 hreach
        · rintro ⟨hm, hp⟩
          have hl : h.leaves.lookup id = some l := Dict.mem_lookup (d := h.leaves) hkeys hm
          refine ⟨id, (hmem id).2 ⟨r, by simp, ?_⟩, by rw [hl]; rfl⟩
          exact (reach_iff hs hr id l.parent l.path (.inr ⟨l, hl, rfl, rfl⟩)).2 hp
      · show List.Pairwise _ _
        rw [List.pairwise_filterMap]
        refine List.Pairwise.imp ?_ hnd
        intro a b hab x hx y hy hxy
        cases ha : h.leaves.lookup a with
        | none => rw [ha] at hx; cases hx
        | some la =>
          cases hb : h.leaves.lookup b with
          | none => rw [hb] at hy; cases hy
          | some lb =>
            rw [ha] at hx
            rw [hb] at hy
            cases hx
            cases hy
            injection hxy with h1
            exact hab h1
      · exact hlnd.filter _

end Verif.Trees
