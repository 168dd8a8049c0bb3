import Verif.Trees.Lemmas1

/-!
# `copy`: loading a stored tree

While the nodes are loaded, each loaded node knows those of its children that are loaded already.
-/

namespace Verif.Trees

variable {D E : Type} {o : DistOps D E} {h : Heap D}

/-- A node that only knows the children in `S`. -/
def Inner.mask (S : List ℕ) (n : Inner) : Inner :=
  { n with children := n.children.map (fun c => c.filter (fun j => decide (j ∈ S))) }

/-- The nodes `ip` and `lp` are loaded. -/
def loaded (ip : List (ℕ × Inner)) (lp : List (ℕ × Leaf D)) : Heap D :=
  ⟨ip.map (fun a => (a.1, a.2.mask (ip.map Prod.fst ++ lp.map Prod.fst))), lp, none⟩

/-- Parents come before their children. -/
def Sorted (h : Heap D) : Prop := (h.inner.map Prod.fst).Pairwise (· < ·)

theorem lookup_map_val {α β : Type} (f : α → β) (d : List (ℕ × α)) (k : ℕ) :
    (d.map (fun a => (a.1, f a.2))).lookup k = (d.lookup k).map f := by
  induction d with
  | nil => rfl
  | cons a d ih =>
    rw [List.map_cons, List.lookup_cons, List.lookup_cons, ih]
    by_cases hk : k = a.1
    · subst hk
      simp
    · rw [show (k == a.1) = false by simpa using hk]

theorem mask_congr {S S' : List ℕ} {n : Inner} (h : ∀ j, some j ∈ n.children → (j ∈ S ↔ j ∈ S')) :
    n.mask S = n.mask S' := by
  unfold Inner.mask
  have : n.children.map (fun c => c.filter (fun j => decide (j ∈ S)))
      = n.children.map (fun c => c.filter (fun j => decide (j ∈ S'))) := by
    apply List.map_congr_left
    intro c hc
    cases c with
    | none => rfl
    | some j => simp only [Option.filter, h j hc]
  rw [this]

theorem mask_none {S : List ℕ} {n : Inner} (h : ∀ j, some j ∈ n.children → j ∉ S) :
    n.mask S = { n with children := List.replicate n.children.length none } := by
  unfold Inner.mask
  have : n.children.map (fun c => c.filter (fun j => decide (j ∈ S)))
      = List.replicate n.children.length none := by
    rw [List.eq_replicate_iff]
    refine ⟨by simp, ?_⟩
    intro c hc
    obtain ⟨c', hc', rfl⟩ := List.mem_map.1 hc
    cases c' with
    | none => rfl
    | some j => simp [Option.filter, h j hc']
  rw [this]

theorem mask_all {S : List ℕ} {n : Inner} (h : ∀ j, some j ∈ n.children → j ∈ S) :
    n.mask S = n := by
  unfold Inner.mask
  have : n.children.map (fun c => c.filter (fun j => decide (j ∈ S))) = n.children := by
    conv => rhs; rw [← List.map_id n.children]
    apply List.map_congr_left
    intro c hc
    cases c with
    | none => rfl
    | some j => simp [Option.filter, h j hc]
  rw [this]

/-- The position of a child. -/
theorem idxOf_child : ∀ {cs : List (Option ℕ)} {i j : ℕ}, cs[i]? = some (some j) →
    (∀ i' : ℕ, cs[i']? = some (some j) → i' = i) → cs.idxOf? (some j) = some i
  | [], i, j, h, _ => by simp at h
  | c :: cs, i, j, h, hu => by
    rw [List.idxOf?_cons]
    by_cases hc : c = some j
    · have := hu 0 (by simp [hc])
      subst this
      simp [hc]
    · have h1 : (c == some j) = false := by simpa using hc
      cases i with
      | zero => simp only [List.getElem?_cons_zero, Option.some.injEq] at h; exact absurd h hc
      | succ i =>
        rw [List.getElem?_cons_succ] at h
        have := idxOf_child h (fun i' hi' => by
          have := hu (i' + 1) (by rw [List.getElem?_cons_succ]; exact hi')
          omega)
        simp [h1, this]

theorem childIdx_none (id : ℕ) : childIdx h none id = .ok none := rfl

theorem childIdx_some (hs : Shape h) {k i j : ℕ} {n : Inner} (hk : h.inner.lookup k = some n)
    (hi : n.children[i]? = some (some j)) : childIdx h (some k) j = .ok (some i) := by
  unfold childIdx
  simp only [hk]
  rw [idxOf_child hi (fun i' hi' => hs.once k n i' i j hk hi' hi)]

/-- Hanging a node into the loaded part of the tree. -/
theorem hang_loaded (hs : Shape h) {ip : List (ℕ × Inner)} {lp : List (ℕ × Leaf D)} {k i j : ℕ}
    {n : Inner} {s : Region} (hsub : ∀ a ∈ ip, h.inner.lookup a.1 = some a.2)
    (hip : ip.lookup k = some n) (hk : h.inner.lookup k = some n)
    (hi : n.children[i]? = some (some j)) (hsp : n.splits[i]? = some s)
    (hj : j ∉ ip.map Prod.fst ++ lp.map Prod.fst) {path : Path} (hnode : NodeAt h j (some k) path) :
    hang (loaded ip lp) (getParent (loaded ip lp) (some k)) (some i) j =
      .ok (⟨ip.map (fun a => (a.1, a.2.mask (j :: (ip.map Prod.fst ++ lp.map Prod.fst)))), lp, none⟩,
        n.path ++ [(n.var, s)]) ∧ getParent (loaded ip lp) (some k) = some k := by
  have hlook : (loaded ip lp).inner.lookup k = some (n.mask (ip.map Prod.fst ++ lp.map Prod.fst)) := by
    unfold loaded
    simp only
    rw [lookup_map_val (fun m : Inner => m.mask (ip.map Prod.fst ++ lp.map Prod.fst)), hip]
    rfl
  have hgp : getParent (loaded ip lp) (some k) = some k := by
    unfold getParent
    simp [hlook]
  refine ⟨?_, hgp⟩
  rw [hgp]
  unfold hang Heap.attach
  simp only [hlook]
  have h1 : (n.mask (ip.map Prod.fst ++ lp.map Prod.fst)).splits = n.splits := rfl
  rw [h1, hsp]
  simp only
  have hlen : i < n.children.length := (List.getElem?_eq_some_iff.1 hi).1
  rw [if_pos (by unfold Inner.mask; simpa using hlen)]
  have hset : Dict.set (loaded ip lp).inner k
      ((n.mask (ip.map Prod.fst ++ lp.map Prod.fst)).setChild i j)
      = ip.map (fun a => (a.1, a.2.mask (j :: (ip.map Prod.fst ++ lp.map Prod.fst)))) := by
    unfold Dict.set loaded
    simp only
    rw [if_pos (by
      rw [List.map_map]
      exact List.mem_map.2 ⟨_, Dict.lookup_mem hip, rfl⟩), List.map_map]
    apply List.map_congr_left
    rintro ⟨k', m⟩ hm
    have hm' := hsub _ hm
    simp only [Function.comp] at hm' ⊢
    by_cases hkk : k' = k
    · subst hkk
      rw [hk] at hm'
      cases hm'
      rw [if_pos rfl]
      simp only [Prod.mk.injEq, true_and]
      unfold Inner.setChild Inner.mask
      simp only
      congr 1
      apply List.ext_getElem?
      intro t
      rw [List.getElem?_set, List.getElem?_map, List.getElem?_map, List.length_map]
      by_cases ht : i = t
      · subst ht
        rw [if_pos rfl, if_pos hlen, hi]
        simp [Option.filter]
      · rw [if_neg ht]
        cases hc : n.children[t]? with
        | none => rfl
        | some c =>
          cases c with
          | none => rfl
          | some j' =>
            have hne : j' ≠ j := by
              rintro rfl
              exact ht (hs.once k' n i t j' hk hi hc)
            simp only [Option.map_some, Option.filter, List.mem_cons, hne, false_or]
    · rw [if_neg hkk]
      simp only [Prod.mk.injEq, true_and]
      apply mask_congr
      intro j' hj'
      have hne : j' ≠ j := by
        rintro rfl
        obtain ⟨t, ht⟩ := List.getElem?_of_mem hj'
        obtain ⟨-, s', -, hn'⟩ := hs.kids k' m t j' hm' ht
        have := (nodeAt_unique hs hnode hn').1
        simp only [Option.some.injEq] at this
        exact hkk this.symm
      simp [hne]
  rw [hset]
  rfl

/-- Loading the next inner node. -/
theorem loadInner_step (hs : Shape h) (hsort : Sorted h) {ip rest : List (ℕ × Inner)} {a : ℕ × Inner}
    (hin : h.inner = ip ++ a :: rest) {cs : List ℕ} {i : Option ℕ}
    (hi : childIdx h a.2.parent a.1 = .ok i) :
    loadInner (loaded ip ([] : List (ℕ × Leaf D))) ⟨a.1, a.2.parent, a.2.splits, a.2.var, cs, a.2.samples, i⟩
      = .ok (loaded (ip ++ [a]) []) := by
  have hnd : (h.inner.map Prod.fst).Nodup := (List.nodup_append.1 hs.nodup).1
  have hsort' := hsort
  unfold Sorted at hsort'
  rw [hin, List.map_append, List.map_cons, List.pairwise_append, List.pairwise_cons] at hsort'
  obtain ⟨-, ⟨hs1, -⟩, hs2⟩ := hsort'
  have hsub : ∀ b ∈ ip, h.inner.lookup b.1 = some b.2 := by
    intro b hb
    exact Dict.mem_lookup hnd (by rw [hin]; simp [hb])
  have ha : h.inner.lookup a.1 = some a.2 := Dict.mem_lookup hnd (by rw [hin]; simp)
  have hfresh : a.1 ∉ ip.map Prod.fst := fun hc => by
    have := hs2 a.1 hc a.1 (by simp)
    omega
  have hlater : ∀ j, some j ∈ a.2.children → j ∉ ip.map Prod.fst ++ [a.1] := by
    intro j hj hc
    obtain ⟨t, ht⟩ := List.getElem?_of_mem hj
    have hlt := (hs.kids a.1 a.2 t j ha ht).1
    rcases List.mem_append.1 hc with hc | hc
    · have := hs2 j hc a.1 (by simp)
      omega
    · rw [List.mem_singleton] at hc
      omega
  have hnode : NodeAt h a.1 a.2.parent a.2.path := .inl ⟨a.2, ha, rfl, rfl⟩
  have hself : a.2.mask (ip.map Prod.fst ++ [a.1])
      = ⟨a.2.var, a.2.splits, List.replicate a.2.splits.length none, a.2.parent, a.2.samples, a.2.path⟩ := by
    rw [mask_none hlater, hs.arity a.1 a.2 ha]
  have hgoal : loaded (ip ++ [a]) ([] : List (ℕ × Leaf D))
      = ⟨ip.map (fun b => (b.1, b.2.mask (ip.map Prod.fst ++ [a.1]))) ++
        [(a.1, ⟨a.2.var, a.2.splits, List.replicate a.2.splits.length none, a.2.parent, a.2.samples,
          a.2.path⟩)], [], none⟩ := by
    unfold loaded
    simp only [List.map_append, List.map_cons, List.map_nil, List.append_nil, hself]
  rw [hgoal]
  unfold loadInner
  simp only
  cases hp : a.2.parent with
  | none =>
    rw [hp] at hnode hi
    have hpath := (hs.parents a.1 a.2.path hnode).2
    simp only [getParent, hang, bind, Except.bind, pure, Except.pure]
    have hset : Dict.set (loaded ip ([] : List (ℕ × Leaf D))).inner a.1
        (⟨a.2.var, a.2.splits, List.replicate a.2.splits.length none, none, a.2.samples, []⟩ : Inner)
        = ip.map (fun b => (b.1, b.2.mask (ip.map Prod.fst ++ [a.1]))) ++
        [(a.1, ⟨a.2.var, a.2.splits, List.replicate a.2.splits.length none, none, a.2.samples,
          a.2.path⟩)] := by
      unfold Dict.set loaded
      simp only
      rw [if_neg (by rw [List.map_map]; exact hfresh), hpath]
      congr 1
      apply List.map_congr_left
      intro b hb
      simp only [Prod.mk.injEq, true_and]
      apply mask_congr
      intro j hj
      have hne : j ≠ a.1 := by
        rintro rfl
        obtain ⟨t, ht⟩ := List.getElem?_of_mem hj
        obtain ⟨-, s', -, hn'⟩ := hs.kids b.1 b.2 t _ (hsub b hb) ht
        have := (nodeAt_unique hs hnode hn').1
        cases this
      simp [hne]
    rw [hset]
    rfl
  | some k =>
    rw [hp] at hnode hi
    obtain ⟨m, t, hk, ht⟩ := hs.parents' a.1 k _ hnode
    obtain ⟨hlt, s, hsp, hn2⟩ := hs.kids k m t a.1 hk ht
    have hpath := (nodeAt_unique hs hnode hn2).2
    rw [childIdx_some hs hk ht] at hi
    cases hi
    have hkm : k ∈ ip.map Prod.fst := by
      have h1 : k ∈ h.inner.map Prod.fst := List.mem_map.2 ⟨_, Dict.lookup_mem hk, rfl⟩
      rw [hin, List.map_append, List.map_cons] at h1
      rcases List.mem_append.1 h1 with h1 | h1
      · exact h1
      · rcases List.mem_cons.1 h1 with h1 | h1
        · omega
        · have := hs1 k h1
          omega
    have hip : ip.lookup k = some m := by
      obtain ⟨m', hm'⟩ := Dict.lookup_isSome.2 hkm
      have := hsub (k, m') (Dict.lookup_mem hm')
      rw [hk] at this
      cases this
      exact hm'
    obtain ⟨e1, e2⟩ := hang_loaded hs (lp := ([] : List (ℕ × Leaf D))) hsub hip hk ht hsp
      (by simpa using hfresh) hnode
    rw [e2] at e1 ⊢
    rw [e1]
    simp only [bind, Except.bind, pure, Except.pure, List.map_nil, List.append_nil]
    have hset : Dict.set (ip.map (fun b => (b.1, b.2.mask (a.1 :: ip.map Prod.fst)))) a.1
        (⟨a.2.var, a.2.splits, List.replicate a.2.splits.length none, some k, a.2.samples,
          m.path ++ [(m.var, s)]⟩ : Inner)
        = ip.map (fun b => (b.1, b.2.mask (ip.map Prod.fst ++ [a.1]))) ++
        [(a.1, ⟨a.2.var, a.2.splits, List.replicate a.2.splits.length none, some k, a.2.samples,
          a.2.path⟩)] := by
      unfold Dict.set
      rw [if_neg (by rw [List.map_map]; exact hfresh), hpath]
      congr 1
      apply List.map_congr_left
      intro b hb
      simp only [Prod.mk.injEq, true_and]
      apply mask_congr
      intro j hj
      simp only [List.mem_cons, List.mem_append, List.not_mem_nil, or_false]
      exact Or.comm
    rw [hset]

/-- Loading the next leaf. -/
theorem loadLeaf_step (hs : Shape h) {lp rest : List (ℕ × Leaf D)} {a : ℕ × Leaf D}
    (hin : h.leaves = lp ++ a :: rest) {i : Option ℕ} (hi : childIdx h a.2.parent a.1 = .ok i)
    (hre : ∀ d ∈ a.2.dists, o.reload d = .ok d) :
    loadLeaf o (loaded h.inner lp) ⟨a.1, a.2.dists, a.2.prior, a.2.samples, a.2.rows, a.2.parent, i⟩
      = .ok (loaded h.inner (lp ++ [a])) := by
  have hnd : (h.leaves.map Prod.fst).Nodup := (List.nodup_append.1 hs.nodup).2.1
  have hndi : (h.inner.map Prod.fst).Nodup := (List.nodup_append.1 hs.nodup).1
  have hsub : ∀ b ∈ h.inner, h.inner.lookup b.1 = some b.2 := fun b hb => Dict.mem_lookup hndi hb
  have ha : h.leaves.lookup a.1 = some a.2 := Dict.mem_lookup hnd (by rw [hin]; simp)
  have hfresh : a.1 ∉ lp.map Prod.fst := by
    rw [hin, List.map_append, List.nodup_append] at hnd
    intro hc
    exact hnd.2.2 a.1 hc a.1 (by simp) rfl
  have hfresh' : a.1 ∉ h.inner.map Prod.fst := by
    rw [← Dict.lookup_none]
    exact lookup_none_of hs ha
  have hnode : NodeAt h a.1 a.2.parent a.2.path := .inr ⟨a.2, ha, rfl, rfl⟩
  have hdists : a.2.dists.mapM o.reload = .ok a.2.dists := by
    have : ∀ ds : List D, (∀ d ∈ ds, o.reload d = .ok d) → ds.mapM o.reload = .ok ds := by
      intro ds
      induction ds with
      | nil => intro _; rfl
      | cons d ds ih =>
        intro hd
        rw [List.mapM_cons, hd d (by simp), ih (fun x hx => hd x (by simp [hx]))]
        rfl
    exact this _ hre
  have hset : ∀ l : Leaf D, Dict.set lp a.1 l = lp ++ [(a.1, l)] := by
    intro l
    unfold Dict.set
    rw [if_neg hfresh]
  have hgoal : loaded h.inner (lp ++ [a])
      = ⟨h.inner.map (fun b => (b.1, b.2.mask (h.inner.map Prod.fst ++ (lp.map Prod.fst ++ [a.1])))),
        lp ++ [a], none⟩ := by
    unfold loaded
    simp only [List.map_append, List.map_cons, List.map_nil]
  rw [hgoal]
  unfold loadLeaf
  simp only [hdists, bind, Except.bind]
  cases hp : a.2.parent with
  | none =>
    rw [hp] at hnode
    have hpath := (hs.parents a.1 a.2.path hnode).2
    simp only [getParent, hang, pure, Except.pure]
    have hl : (⟨none, [], a.2.dists, a.2.prior, a.2.samples, a.2.rows⟩ : Leaf D) = a.2 := by
      rw [← hpath, ← hp]
    rw [hl]
    simp only [loaded, hset]
    have : h.inner.map (fun b => (b.1, b.2.mask (h.inner.map Prod.fst ++ lp.map Prod.fst)))
        = h.inner.map (fun b => (b.1, b.2.mask (h.inner.map Prod.fst ++ (lp.map Prod.fst ++ [a.1])))) := by
      apply List.map_congr_left
      intro b hb
      simp only [Prod.mk.injEq, true_and]
      apply mask_congr
      intro j hj
      have hne : j ≠ a.1 := by
        rintro rfl
        obtain ⟨t, ht⟩ := List.getElem?_of_mem hj
        obtain ⟨-, s', -, hn'⟩ := hs.kids b.1 b.2 t _ (hsub b hb) ht
        have := (nodeAt_unique hs hnode hn').1
        cases this
      simp [hne]
    rw [this]
  | some k =>
    rw [hp] at hnode hi
    obtain ⟨m, t, hk, ht⟩ := hs.parents' a.1 k _ hnode
    obtain ⟨hlt, s, hsp, hn2⟩ := hs.kids k m t a.1 hk ht
    have hpath := (nodeAt_unique hs hnode hn2).2
    rw [childIdx_some hs hk ht] at hi
    cases hi
    obtain ⟨e1, e2⟩ := hang_loaded hs (lp := lp) hsub hk hk ht hsp
      (by simp only [List.mem_append, not_or]; exact ⟨hfresh', hfresh⟩) hnode
    rw [e2] at e1 ⊢
    rw [e1]
    simp only [pure, Except.pure]
    have hl : (⟨some k, m.path ++ [(m.var, s)], a.2.dists, a.2.prior, a.2.samples, a.2.rows⟩ : Leaf D) = a.2 := by
      rw [← hpath, ← hp]
    rw [hl, hset]
    have : h.inner.map (fun b => (b.1, b.2.mask (a.1 :: (h.inner.map Prod.fst ++ lp.map Prod.fst))))
        = h.inner.map (fun b => (b.1, b.2.mask (h.inner.map Prod.fst ++ (lp.map Prod.fst ++ [a.1])))) := by
      apply List.map_congr_left
      intro b hb
      simp only [Prod.mk.injEq, true_and]
      apply mask_congr
      intro j hj
      simp only [List.mem_cons, List.mem_append, List.not_mem_nil, or_false]
      tauto
    rw [this]

theorem childIdx_ok (hs : Shape h) {j : ℕ} {p : Option ℕ} {path : Path} (hj : NodeAt h j p path) :
    ∃ i, childIdx h p j = .ok i := by
  cases p with
  | none => exact ⟨none, rfl⟩
  | some k =>
    obtain ⟨n, i, h1, h2⟩ := hs.parents' j k path hj
    exact ⟨some i, childIdx_some hs h1 h2⟩

theorem children_ok {cs : List (Option ℕ)} (h : none ∉ cs) : ∃ l, cs.mapM (fun c => c) = some l := by
  induction cs with
  | nil => exact ⟨[], rfl⟩
  | cons c cs ih =>
    cases c with
    | none => exact absurd List.mem_cons_self h
    | some j =>
      obtain ⟨l, hl⟩ := ih (fun hc => h (List.mem_cons_of_mem _ hc))
      refine ⟨j :: l, ?_⟩
      rw [List.mapM_cons, hl]
      rfl

theorem load_inners (hs : Shape h) (hfull : Full h) (hsort : Sorted h) : ∀ (rest ip : List (ℕ × Inner)),
    h.inner = ip ++ rest → ∃ js, rest.mapM (innerToJson h) = .ok js ∧
      js.foldlM loadInner (loaded ip ([] : List (ℕ × Leaf D))) = .ok (loaded (ip ++ rest) []) := by
  intro rest
  induction rest with
  | nil =>
    intro ip _
    exact ⟨[], rfl, by rw [List.append_nil]; rfl⟩
  | cons a rest ih =>
    intro ip hin
    have ha : h.inner.lookup a.1 = some a.2 :=
      Dict.mem_lookup (List.nodup_append.1 hs.nodup).1 (by rw [hin]; simp)
    obtain ⟨i, hi⟩ := childIdx_ok hs (.inl ⟨a.2, ha, rfl, rfl⟩ : NodeAt h a.1 a.2.parent a.2.path)
    obtain ⟨cs, hcs⟩ := children_ok (hfull a.1 a.2 ha)
    obtain ⟨js, h1, h2⟩ := ih (ip ++ [a]) (by rw [hin, List.append_assoc]; rfl)
    refine ⟨⟨a.1, a.2.parent, a.2.splits, a.2.var, cs, a.2.samples, i⟩ :: js, ?_, ?_⟩
    · rw [List.mapM_cons]
      have : innerToJson h a = .ok ⟨a.1, a.2.parent, a.2.splits, a.2.var, cs, a.2.samples, i⟩ := by
        unfold innerToJson
        rw [hcs]
        simp only [hi, bind, Except.bind, pure, Except.pure]
      rw [this, h1]
      rfl
    · rw [List.foldlM_cons, loadInner_step hs hsort hin hi]
      simp only [bind, Except.bind]
      rw [h2, List.append_assoc]
      rfl

theorem load_leaves (hs : Shape h) (hre : ∀ l ∈ h.leaves, ∀ d ∈ l.2.dists, o.reload d = .ok d) :
    ∀ (rest lp : List (ℕ × Leaf D)),
    h.leaves = lp ++ rest → ∃ js, rest.mapM (leafToJson h) = .ok js ∧
      js.foldlM (loadLeaf o) (loaded h.inner lp) = .ok (loaded h.inner (lp ++ rest)) := by
  intro rest
  induction rest with
  | nil =>
    intro lp _
    exact ⟨[], rfl, by rw [List.append_nil]; rfl⟩
  | cons a rest ih =>
    intro lp hin
    have ha : h.leaves.lookup a.1 = some a.2 :=
      Dict.mem_lookup (List.nodup_append.1 hs.nodup).2.1 (by rw [hin]; simp)
    obtain ⟨i, hi⟩ := childIdx_ok hs (.inr ⟨a.2, ha, rfl, rfl⟩ : NodeAt h a.1 a.2.parent a.2.path)
    obtain ⟨js, h1, h2⟩ := ih (lp ++ [a]) (by rw [hin, List.append_assoc]; rfl)
    refine ⟨⟨a.1, a.2.dists, a.2.prior, a.2.samples, a.2.rows, a.2.parent, i⟩ :: js, ?_, ?_⟩
    · rw [List.mapM_cons]
      have : leafToJson h a = .ok ⟨a.1, a.2.dists, a.2.prior, a.2.samples, a.2.rows, a.2.parent, i⟩ := by
        unfold leafToJson
        simp only [hi, bind, Except.bind, pure, Except.pure]
      rw [this, h1]
      rfl
    · rw [List.foldlM_cons, loadLeaf_step hs hin hi (hre a (by rw [hin]; simp))]
      simp only [bind, Except.bind]
      rw [h2, List.append_assoc]
      rfl

/-- A stored tree is loaded unchanged. -/
theorem copy_eq (hs : Shape h) (hfull : Full h) (hsort : Sorted h)
    (hre : ∀ l ∈ h.leaves, ∀ d ∈ l.2.dists, o.reload d = .ok d) : copy o h = .ok h := by
  obtain ⟨js, h1, h2⟩ := load_inners hs hfull hsort h.inner [] rfl
  obtain ⟨ls, h3, h4⟩ := load_leaves hs hre h.leaves [] rfl
  have h5 : loaded h.inner h.leaves = ⟨h.inner, h.leaves, none⟩ := by
    unfold loaded
    have : h.inner.map (fun a => (a.1, a.2.mask (h.inner.map Prod.fst ++ h.leaves.map Prod.fst))) = h.inner := by
      conv => rhs; rw [← List.map_id h.inner]
      apply List.map_congr_left
      intro a ha
      have hk : h.inner.lookup a.1 = some a.2 := Dict.mem_lookup (List.nodup_append.1 hs.nodup).1 ha
      rw [mask_all]
      · rfl
      · intro j hj
        obtain ⟨t, ht⟩ := List.getElem?_of_mem hj
        obtain ⟨-, s', -, hn'⟩ := hs.kids a.1 a.2 t j hk ht
        exact nodeAt_mem hn'
    rw [this]
  unfold copy toJson fromJson
  rw [h3, h1]
  simp only [bind, Except.bind, pure, Except.pure]
  have h6 : (loaded [] [] : Heap D) = Heap.empty := rfl
  rw [← h6, h2]
  simp only [List.nil_append]
  rw [h4]
  simp only [List.nil_append]
  rw [h5]
  unfold loadRoot
  cases hr : h.root with
  | none =>
    simp only
    rw [← hr]
  | some r =>
    simp only
    have : (h.inner.lookup r).isSome = true ∨ (h.leaves.lookup r).isSome = true := by
      rcases hs.root r hr with ⟨n, h1, -⟩ | ⟨l, h1, -⟩
      · left; rw [h1]; rfl
      · right; rw [h1]; rfl
    rw [if_pos this, ← hr]

end Verif.Trees
