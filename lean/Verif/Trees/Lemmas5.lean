import Verif.Trees.Lemmas1

/-!
# `conditional_jpt`: the loop that removes leaves

At any time the tree is the original one without the removed nodes `R`, where the leaves `S` have got
their new prior.
-/

namespace Verif.Trees

variable {D E : Type}

/-! ## Selecting and changing the items of a dictionary -/

/-- The items whose keys are not in `R`, with changed values. -/
def pick {α β : Type} (R : List ℕ) (g : ℕ → α → β) (d : List (ℕ × α)) : List (ℕ × β) :=
  (d.filter (fun a => decide (a.1 ∉ R))).map (fun a => (a.1, g a.1 a.2))

section
variable {α β : Type} {R R' : List ℕ} {g g' : ℕ → α → β} {d : List (ℕ × α)}

theorem pick_cons (a : ℕ × α) : pick R g (a :: d)
    = if a.1 ∈ R then pick R g d else (a.1, g a.1 a.2) :: pick R g d := by
  unfold pick
  rw [List.filter_cons]
  by_cases h : a.1 ∈ R
  · simp [h]
  · simp [h]

theorem keys_pick : (pick R g d).map Prod.fst = (d.map Prod.fst).filter (fun k => decide (k ∉ R)) := by
  induction d with
  | nil => rfl
  | cons a d ih =>
    rw [pick_cons, List.map_cons, List.filter_cons]
    by_cases h : a.1 ∈ R
    · rw [if_pos h, ih, if_neg (by simp [h])]
    · rw [if_neg h, List.map_cons, ih, if_pos (by simp [h])]

theorem lookup_pick (k : ℕ) : (pick R g d).lookup k
    = if k ∈ R then none else (d.lookup k).map (g k) := by
  induction d with
  | nil => simp [pick]
  | cons a d ih =>
    rw [pick_cons]
    by_cases h : a.1 ∈ R
    · rw [if_pos h, ih, List.lookup_cons]
      by_cases hk : k = a.1
      · subst hk
        simp [h]
      · rw [show (k == a.1) = false by simpa using hk]
    · rw [if_neg h, List.lookup_cons, List.lookup_cons, ih]
      by_cases hk : k = a.1
      · subst hk
        simp [h]
      · rw [show (k == a.1) = false by simpa using hk]

theorem pick_congr (h : ∀ a ∈ d, (a.1 ∈ R ↔ a.1 ∈ R') ∧ (a.1 ∉ R → g a.1 a.2 = g' a.1 a.2)) :
    pick R g d = pick R' g' d := by
  induction d with
  | nil => rfl
  | cons a d ih =>
    rw [pick_cons, pick_cons, ih (fun b hb => h b (List.mem_cons_of_mem _ hb))]
    obtain ⟨h1, h2⟩ := h a List.mem_cons_self
    by_cases hR : a.1 ∈ R
    · rw [if_pos hR, if_pos (h1.1 hR)]
    · rw [if_neg hR, if_neg (fun hc => hR (h1.2 hc)), h2 hR]

theorem filter_pick (k : ℕ) : (pick R g d).filter (fun a => decide (a.1 ≠ k)) = pick (k :: R) g d := by
  induction d with
  | nil => rfl
  | cons a d ih =>
    rw [pick_cons, pick_cons]
    by_cases h : a.1 ∈ R
    · rw [if_pos h, if_pos (List.mem_cons_of_mem _ h), ih]
    · rw [if_neg h, List.filter_cons, ih]
      by_cases hk : a.1 = k
      · rw [if_neg (by simp [hk]), if_pos (by simp [hk])]
      · rw [if_pos (by simp [hk]), if_neg (by simp [hk, h])]

theorem set_pick {k : ℕ} {b : β} (hk : k ∈ d.map Prod.fst) (hR : k ∉ R) :
    Dict.set (pick R g d) k b = pick R (fun j x => if j = k then b else g j x) d := by
  unfold Dict.set
  rw [if_pos (by rw [keys_pick, List.mem_filter]; exact ⟨hk, by simpa using hR⟩)]
  unfold pick
  rw [List.map_map]
  apply List.map_congr_left
  intro a _
  simp only [Function.comp]
  split_ifs <;> rfl

end

/-! ## The tree during the loop -/

/-- The child has not been removed. -/
def keep (R : List ℕ) : Option ℕ → Bool
  | none => true
  | some j => decide (j ∉ R)

/-- A node without its removed children and their splits. -/
def Inner.strip (R : List ℕ) (n : Inner) : Inner :=
  { n with
    children := ((n.children.zip n.splits).filter (fun c => keep R c.1)).map Prod.fst
    splits := ((n.children.zip n.splits).filter (fun c => keep R c.1)).map Prod.snd }

/-- The new prior of the leaves in `S`. -/
def scaled (f : Leaf D → ℚ) (S : List ℕ) (id : ℕ) (l : Leaf D) : Leaf D :=
  if id ∈ S then l.scale (f l) else l

/-- The tree without the nodes in `R`, with new priors of the leaves in `S`. -/
def heapOf (f : Leaf D → ℚ) (h : Heap D) (R S : List ℕ) : Heap D :=
  ⟨pick R (fun _ => Inner.strip R) h.inner, pick R (scaled f S) h.leaves,
    h.root.filter (fun r => decide (r ∉ R))⟩

theorem zip_nodup {h : Heap D} (hs : Shape h) {k : ℕ} {n : Inner} (hk : h.inner.lookup k = some n) :
    (n.children.zip n.splits).Pairwise (fun a b => ∀ j, a.1 = some j → b.1 ≠ some j) := by
  rw [List.pairwise_iff_getElem]
  intro i i' hi hi' hlt j h1 h2
  have e1 : (n.children.zip n.splits)[i]? = some (n.children.zip n.splits)[i] :=
    List.getElem?_eq_getElem hi
  have e2 : (n.children.zip n.splits)[i']? = some (n.children.zip n.splits)[i'] :=
    List.getElem?_eq_getElem hi'
  rw [List.getElem?_zip_eq_some] at e1 e2
  have := hs.once k n i i' j hk (by rw [e1.1, h1]) (by rw [e2.1, h2])
  omega

/-- Removing the first occurrence from both lists. -/
theorem drop_zip : ∀ (z : List (Option ℕ × Region)) (R : List ℕ) (j : ℕ),
    z.Pairwise (fun a b => ∀ j, a.1 = some j → b.1 ≠ some j) → j ∉ R → (∃ c ∈ z, c.1 = some j) →
    ∃ i, ((z.filter (fun c => keep R c.1)).map Prod.fst).idxOf? (some j) = some i ∧
      ((z.filter (fun c => keep R c.1)).map Prod.fst).eraseIdx i
        = (z.filter (fun c => keep (j :: R) c.1)).map Prod.fst ∧
      ((z.filter (fun c => keep R c.1)).map Prod.snd).eraseIdx i
        = (z.filter (fun c => keep (j :: R) c.1)).map Prod.snd
  | [], _, _, _, _, h => by obtain ⟨c, hc, _⟩ := h; cases hc
  | c :: z, R, j, hp, hR, h => by
    rw [List.pairwise_cons] at hp
    by_cases hc : c.1 = some j
    · have hk : keep R c.1 = true := by rw [hc]; simpa [keep] using hR
      have hk' : ¬ keep (j :: R) c.1 = true := by rw [hc]; simp [keep]
      rw [List.filter_cons_of_pos (p := fun c : Option ℕ × Region => keep R c.1) hk,
        List.filter_cons_of_neg (p := fun c : Option ℕ × Region => keep (j :: R) c.1) hk']
      have hrest : z.filter (fun c => keep R c.1) = z.filter (fun c => keep (j :: R) c.1) := by
        apply List.filter_congr
        intro b hb
        have hne := hp.1 b hb j hc
        cases hb1 : b.1 with
        | none => rfl
        | some m =>
          have : m ≠ j := by rintro rfl; exact hne hb1
          simp [keep, this]
      refine ⟨0, ?_, ?_, ?_⟩
      · rw [List.map_cons, hc, List.idxOf?_cons]
        simp
      · rw [List.map_cons, List.eraseIdx_cons_zero, hrest]
      · rw [List.map_cons, List.eraseIdx_cons_zero, hrest]
    · have hex : ∃ b ∈ z, b.1 = some j := by
        obtain ⟨b, hb, hbj⟩ := h
        rcases List.mem_cons.1 hb with rfl | hb
        · exact absurd hbj hc
        · exact ⟨b, hb, hbj⟩
      obtain ⟨i, h1, h2, h3⟩ := drop_zip z R j hp.2 hR hex
      have hkk : keep (j :: R) c.1 = keep R c.1 := by
        cases hc1 : c.1 with
        | none => rfl
        | some m =>
          have : m ≠ j := by rintro rfl; exact hc hc1
          simp [keep, this]
      by_cases hk : keep R c.1 = true
      · rw [List.filter_cons_of_pos (p := fun c : Option ℕ × Region => keep R c.1) hk,
          List.filter_cons_of_pos (p := fun c : Option ℕ × Region => keep (j :: R) c.1) (by rw [hkk]; exact hk)]
        refine ⟨i + 1, ?_, ?_, ?_⟩
        · rw [List.map_cons, List.idxOf?_cons, h1]
          have : (c.1 == some j) = false := by simpa using hc
          simp [this]
        · rw [List.map_cons, List.eraseIdx_cons_succ, h2, List.map_cons]
        · rw [List.map_cons, List.eraseIdx_cons_succ, h3, List.map_cons]
      · rw [List.filter_cons_of_neg (p := fun c : Option ℕ × Region => keep R c.1) hk,
          List.filter_cons_of_neg (p := fun c : Option ℕ × Region => keep (j :: R) c.1) (by rw [hkk]; exact hk)]
        exact ⟨i, h1, h2, h3⟩

/-- Nothing changes for a node that does not have the child. -/
theorem strip_other {n : Inner} {R : List ℕ} {j : ℕ} (h : some j ∉ n.children) :
    n.strip (j :: R) = n.strip R := by
  unfold Inner.strip
  have : (n.children.zip n.splits).filter (fun c => keep (j :: R) c.1)
      = (n.children.zip n.splits).filter (fun c => keep R c.1) := by
    apply List.filter_congr
    rintro ⟨c, s⟩ hc
    have hmem := (List.of_mem_zip hc).1
    cases c with
    | none => rfl
    | some m =>
      have : m ≠ j := by rintro rfl; exact h hmem
      simp [keep, this]
  rw [this]

theorem strip_drop {h : Heap D} (hs : Shape h) {k j : ℕ} {n : Inner} (hk : h.inner.lookup k = some n)
    {R : List ℕ} (hj : some j ∈ n.children) (hR : j ∉ R) :
    (n.strip R).dropChild j = .ok (n.strip (j :: R)) := by
  have hex : ∃ c ∈ n.children.zip n.splits, c.1 = some j := by
    obtain ⟨i, hi⟩ := List.getElem?_of_mem hj
    have hlen := hs.arity k n hk
    have hi' : i < n.splits.length := by
      rw [← hlen]
      exact (List.getElem?_eq_some_iff.1 hi).1
    refine ⟨(some j, n.splits[i]), ?_, rfl⟩
    apply List.mem_of_getElem? (i := i)
    rw [List.getElem?_zip_eq_some]
    exact ⟨hi, List.getElem?_eq_getElem hi'⟩
  obtain ⟨i, h1, h2, h3⟩ := drop_zip _ R j (zip_nodup hs hk) hR hex
  unfold Inner.dropChild
  simp only [Inner.strip]
  rw [h1]
  simp only
  rw [h2, h3]

theorem child_iff {h : Heap D} (hs : Shape h) {k j : ℕ} {n : Inner} (hk : h.inner.lookup k = some n)
    {path : Path} {p : Option ℕ} (hj : NodeAt h j p path) : some j ∈ n.children ↔ p = some k := by
  constructor
  · intro hm
    obtain ⟨i, hi⟩ := List.getElem?_of_mem hm
    obtain ⟨_, s, _, h2⟩ := hs.kids k n i j hk hi
    exact (nodeAt_unique hs hj h2).1
  · rintro rfl
    obtain ⟨n', i, h1, h2⟩ := hs.parents' j k path hj
    rw [hk] at h1
    cases h1
    exact List.mem_of_getElem? h2

theorem root_filter (x : Option ℕ) {R : List ℕ} {id : ℕ} (hR : id ∉ R) :
    (if x.filter (fun r => decide (r ∉ R)) = some id then none else x.filter (fun r => decide (r ∉ R)))
      = x.filter (fun r => decide (r ∉ id :: R)) := by
  cases x with
  | none => simp
  | some r =>
    by_cases h1 : r ∈ R
    · simp [Option.filter, h1]
    · by_cases h2 : r = id
      · simp [Option.filter, h2, hR]
      · simp [Option.filter, h1, h2]

/-- The effect of removing a node. -/
theorem removed_eq {h : Heap D} (hs : Shape h) {f : Leaf D → ℚ} {R S : List ℕ} {id : ℕ} {p : Option ℕ}
    {path : Path} (hid : NodeAt h id p path) (hR : id ∉ R) (hp : ∀ k, p = some k → k ∉ R)
    (fringe : List ℕ) :
    removed ⟨(heapOf f h R S).inner.filter (fun a => decide (a.1 ≠ id)),
      (heapOf f h R S).leaves.filter (fun a => decide (a.1 ≠ id)), (heapOf f h R S).root⟩ fringe id p
      = .ok ⟨heapOf f h (id :: R) S, fringe ++ p.toList⟩ := by
  have hroot : (if (heapOf f h R S).root = some id then none else (heapOf f h R S).root)
      = (heapOf f h (id :: R) S).root := by
    exact root_filter h.root hR
  unfold removed
  simp only [hroot]
  simp only [heapOf, filter_pick]
  cases p with
  | none =>
    simp only [pure, Except.pure, Option.toList_none, List.append_nil]
    have hin : pick (id :: R) (fun _ => Inner.strip R) h.inner
        = pick (id :: R) (fun _ => Inner.strip (id :: R)) h.inner := by
      apply pick_congr
      intro a ha
      refine ⟨Iff.rfl, fun _ => ?_⟩
      have hk : h.inner.lookup a.1 = some a.2 :=
        Dict.mem_lookup (List.nodup_append.1 hs.nodup).1 ha
      have : some id ∉ a.2.children := by
        rw [child_iff hs hk hid]
        simp
      exact (strip_other this).symm
    rw [hin]
  | some k =>
    simp only
    have hkR := hp k rfl
    obtain ⟨n, i, h1, h2⟩ := hs.parents' id k path hid
    have hlt := (hs.kids k n i id h1 h2).1
    have hchild : some id ∈ n.children := List.mem_of_getElem? h2
    have hkid : k ≠ id := by omega
    rw [lookup_pick, if_neg (by simp [hkR, hkid]), h1]
    simp only [Option.map_some, strip_drop hs h1 hchild hR, bind, Except.bind, pure, Except.pure,
      Option.toList_some]
    rw [set_pick (List.mem_map.2 ⟨_, Dict.lookup_mem h1, rfl⟩) (by simp [hkR, hkid])]
    have hin : pick (id :: R) (fun j x => if j = k then n.strip (id :: R) else x.strip R) h.inner
        = pick (id :: R) (fun _ => Inner.strip (id :: R)) h.inner := by
      apply pick_congr
      intro a ha
      refine ⟨Iff.rfl, fun _ => ?_⟩
      have hk : h.inner.lookup a.1 = some a.2 :=
        Dict.mem_lookup (List.nodup_append.1 hs.nodup).1 ha
      by_cases hak : a.1 = k
      · rw [if_pos hak]
        rw [hak, h1] at hk
        cases hk
        rfl
      · rw [if_neg hak]
        have : some id ∉ a.2.children := by
          rw [child_iff hs hk hid]
          simp only [Option.some.injEq]
          exact fun hc => hak hc.symm
        exact (strip_other this).symm
    rw [hin]

/-- The effect of a new prior. -/
theorem scaled_eq {h : Heap D} {f : Leaf D → ℚ} {R S : List ℕ} {id : ℕ} {l : Leaf D}
    (hs : Shape h) (hid : h.leaves.lookup id = some l) (hR : id ∉ R) :
    (⟨(heapOf f h R S).inner, Dict.set (heapOf f h R S).leaves id (l.scale (f l)),
      (heapOf f h R S).root⟩ : Heap D) = heapOf f h R (id :: S) := by
  simp only [heapOf]
  rw [set_pick (List.mem_map.2 ⟨_, Dict.lookup_mem hid, rfl⟩) hR]
  have : pick R (fun j x => if j = id then l.scale (f l) else scaled f S j x) h.leaves
      = pick R (scaled f (id :: S)) h.leaves := by
    apply pick_congr
    intro a ha
    refine ⟨Iff.rfl, fun _ => ?_⟩
    have hk : h.leaves.lookup a.1 = some a.2 :=
      Dict.mem_lookup (List.nodup_append.1 hs.nodup).2.1 ha
    by_cases hai : a.1 = id
    · rw [if_pos hai]
      rw [hai, hid] at hk
      cases hk
      simp [scaled, hai]
    · rw [if_neg hai]
      simp [scaled, hai]
  rw [this]

/-! ## The loop -/

/-- What holds before every round. -/
structure CInv (f : Leaf D → ℚ) (h : Heap D) (R S V stack rev : List ℕ) : Prop where
  apart : Apart (qkids h []) stack
  nodes : ∀ a ∈ stack, ∃ p path, NodeAt h a p path
  fresh : ∀ j, (∃ a ∈ stack, Reach (qkids h []) a j) → j ∉ R ∧ j ∉ S ∧ j ∉ V
  leaves : ∀ id l, h.leaves.lookup id = some l → (∃ a ∈ stack, Reach (qkids h []) a id) ∨
    (0 < f l ∧ id ∈ S ∧ id ∉ R) ∨ (¬ 0 < f l ∧ id ∈ R)
  rm : ∀ k n, h.inner.lookup k = some n → k ∈ R → ∀ j, some j ∈ n.children → j ∈ R
  pend : ∀ k n, h.inner.lookup k = some n → k ∉ R → (∀ j, some j ∈ n.children → j ∈ R) → k ∈ rev
  revs : ∀ k ∈ rev, ∃ n, h.inner.lookup k = some n ∧ ∃ j, some j ∈ n.children ∧ j ∈ R
  ids : ∀ k ∈ R ++ V, k ∈ h.ids
  nodup : R.Nodup ∧ V.Nodup

theorem strip_all {n : Inner} {R : List ℕ} (hlen : n.children.length = n.splits.length)
    (h : ∀ j, some j ∈ n.children → j ∉ R) : (n.strip R).children = n.children := by
  unfold Inner.strip
  simp only
  rw [List.filter_eq_self.2]
  · rw [List.map_fst_zip (by omega)]
  · rintro ⟨c, s⟩ hc
    have hmem := (List.of_mem_zip hc).1
    cases c with
    | none => rfl
    | some m => simpa [keep] using h m hmem

theorem mem_strip {n : Inner} {R : List ℕ} (hlen : n.children.length = n.splits.length) {c : Option ℕ} :
    c ∈ (n.strip R).children ↔ c ∈ n.children ∧ keep R c = true := by
  unfold Inner.strip
  simp only [List.mem_map, List.mem_filter, Prod.exists]
  constructor
  · rintro ⟨a, s, ⟨h1, h2⟩, rfl⟩
    exact ⟨(List.of_mem_zip h1).1, h2⟩
  · rintro ⟨h1, h2⟩
    obtain ⟨i, hi⟩ := List.getElem?_of_mem h1
    have hi' : i < n.splits.length := by
      rw [← hlen]
      exact (List.getElem?_eq_some_iff.1 hi).1
    refine ⟨c, n.splits[i], ⟨?_, h2⟩, rfl⟩
    apply List.mem_of_getElem? (i := i)
    rw [List.getElem?_zip_eq_some]
    exact ⟨hi, List.getElem?_eq_getElem hi'⟩

theorem strip_length {n : Inner} {R : List ℕ} {j : ℕ} (hlen : n.children.length = n.splits.length)
    (h2 : n.children.length = 2) (hj : some j ∈ n.children) (hR : j ∈ R) :
    (n.strip R).children.length ≠ 2 := by
  unfold Inner.strip
  simp only [List.length_map]
  intro hc
  have hz : (n.children.zip n.splits).length = 2 := by simp [List.length_zip, ← hlen, h2]
  have hall : (n.children.zip n.splits).filter (fun c => keep R c.1) = n.children.zip n.splits :=
    List.Sublist.eq_of_length List.filter_sublist (by omega)
  rw [List.filter_eq_self] at hall
  obtain ⟨i, hi⟩ := List.getElem?_of_mem hj
  have hi' : i < n.splits.length := by
    rw [← hlen]
    exact (List.getElem?_eq_some_iff.1 hi).1
  have := hall (some j, n.splits[i]) (List.mem_of_getElem? (i := i) (by
    rw [List.getElem?_zip_eq_some]
    exact ⟨hi, List.getElem?_eq_getElem hi'⟩))
  simp [keep, hR] at this

theorem filterMap_some_of {cs : List (Option ℕ)} (h : none ∉ cs) :
    cs.mapM (fun c => c) = some (cs.filterMap (fun c => c)) := by
  induction cs with
  | nil => rfl
  | cons c cs ih =>
    cases c with
    | none => exact absurd List.mem_cons_self h
    | some j =>
      rw [List.mapM_cons, ih (fun hc => h (List.mem_cons_of_mem _ hc))]
      rfl

theorem qkids_nil {h : Heap D} (hs : Shape h) {k : ℕ} {n : Inner} (hk : h.inner.lookup k = some n) :
    qkids h [] k = (n.children.filterMap (fun c => c)).reverse := by
  unfold qkids Inner.visit
  rw [hk]
  simp only
  rw [List.filter_eq_self.2 (by intro a _; rfl), List.map_fst_zip (by rw [hs.arity k n hk]),
    List.filterMap_reverse]

theorem mem_qkids_nil {h : Heap D} (hs : Shape h) {k j : ℕ} {n : Inner} (hk : h.inner.lookup k = some n) :
    j ∈ qkids h [] k ↔ some j ∈ n.children := by
  rw [qkids_nil hs hk, List.mem_reverse, List.mem_filterMap]
  constructor
  · rintro ⟨c, h1, rfl⟩; exact h1
  · intro h1; exact ⟨some j, h1, rfl⟩

theorem qkids_leaf {h : Heap D} (hs : Shape h) {k : ℕ} {l : Leaf D} (hk : h.leaves.lookup k = some l) :
    qkids h [] k = [] := by
  unfold qkids
  rw [lookup_none_of hs hk]

variable {o : DistOps D E} {e : Query} {f : Leaf D → ℚ} {h : Heap D}

theorem leaf_none {h : Heap D} (hs : Shape h) {k : ℕ} {n : Inner} (hk : h.inner.lookup k = some n) :
    h.leaves.lookup k = none := by
  cases hl : h.leaves.lookup k with
  | none => rfl
  | some l => rw [lookup_none_of hs hl] at hk; cases hk

/-- Removing a node keeps the invariant. -/
theorem CInv.remove (hs : Shape h) {R S V stack rev : List ℕ} {id : ℕ} {p : Option ℕ} {path : Path}
    (hI : CInv f h R S V stack rev) (hid : NodeAt h id p path) (hR : id ∉ R)
    (hfresh : ¬ ∃ a ∈ stack, Reach (qkids h []) a id)
    (hleaf : ∀ l, h.leaves.lookup id = some l → ¬ 0 < f l)
    (hinner : ∀ n, h.inner.lookup id = some n → ∀ j, some j ∈ n.children → j ∈ R) :
    CInv f h (id :: R) S V stack (rev ++ p.toList) where
  apart := hI.apart
  nodes := hI.nodes
  fresh j hj := by
    obtain ⟨h1, h2, h3⟩ := hI.fresh j hj
    refine ⟨?_, h2, h3⟩
    intro hc
    rcases List.mem_cons.1 hc with rfl | hc
    · exact hfresh hj
    · exact h1 hc
  leaves i l hl := by
    by_cases hi : i = id
    · subst hi
      exact .inr (.inr ⟨hleaf l hl, by simp⟩)
    · rcases hI.leaves i l hl with h1 | ⟨h1, h2, h3⟩ | ⟨h1, h2⟩
      · exact .inl h1
      · exact .inr (.inl ⟨h1, h2, by simp [hi, h3]⟩)
      · exact .inr (.inr ⟨h1, by simp [h2]⟩)
  rm k n hk hkR j hj := by
    rcases List.mem_cons.1 hkR with rfl | hkR
    · exact List.mem_cons_of_mem _ (hinner n hk j hj)
    · exact List.mem_cons_of_mem _ (hI.rm k n hk hkR j hj)
  pend k n hk hkR hall := by
    rw [List.mem_append]
    by_cases hc : some id ∈ n.children
    · right
      rw [child_iff hs hk hid] at hc
      rw [hc]
      simp
    · left
      refine hI.pend k n hk (fun hc' => hkR (List.mem_cons_of_mem _ hc')) ?_
      intro j hj
      rcases List.mem_cons.1 (hall j hj) with rfl | h1
      · exact absurd hj hc
      · exact h1
  revs k hk := by
    rcases List.mem_append.1 hk with hk | hk
    · obtain ⟨n, h1, j, h2, h3⟩ := hI.revs k hk
      exact ⟨n, h1, j, h2, List.mem_cons_of_mem _ h3⟩
    · cases p with
      | none => cases hk
      | some k' =>
        rw [Option.toList_some, List.mem_singleton] at hk
        subst hk
        obtain ⟨n, i, h1, h2⟩ := hs.parents' id k path hid
        exact ⟨n, h1, id, List.mem_of_getElem? h2, by simp⟩
  ids k hk := by
    rcases List.mem_append.1 hk with hk | hk
    · rcases List.mem_cons.1 hk with rfl | hk
      · exact nodeAt_mem hid
      · exact hI.ids k (by simp [hk])
    · exact hI.ids k (by simp [hk])
  nodup := ⟨List.nodup_cons.2 ⟨hR, hI.nodup.1⟩, hI.nodup.2⟩

/-- Taking a node from the stack keeps the invariant, if the node itself is dealt with. -/
theorem CInv.take (hs : Shape h) {R S S' V stack rev : List ℕ} {id : ℕ}
    (hI : CInv f h R S V (id :: stack) rev)
    (hS : ∀ j, j ∈ S' ↔ j ∈ S ∨ j = id ∧ ∃ l, h.leaves.lookup id = some l ∧ 0 < f l)
    (hid : ∀ l, h.leaves.lookup id = some l → 0 < f l ∧ id ∉ R ∨ ¬ 0 < f l ∧ id ∈ R) :
    CInv f h R S' (id :: V) (qkids h [] id ++ stack) rev := by
  have hf := forest_qkids hs ([] : Query)
  have hnb := not_below_step hf hI.apart
  have hbel := fun j => below_step (kids := qkids h []) (id := id) (fr := stack) j
  refine ⟨hI.apart.step hf, ?_, ?_, ?_, hI.rm, hI.pend, hI.revs, ?_, hI.nodup.1, ?_⟩
  · intro a ha
    rcases List.mem_append.1 ha with ha | ha
    · exact qkids_node hs ha
    · exact hI.nodes a (by simp [ha])
  · intro j hj
    have hne : j ≠ id := by rintro rfl; exact hnb hj
    obtain ⟨h1, h2, h3⟩ := hI.fresh j ((hbel j).2 (.inr hj))
    refine ⟨h1, ?_, by simp [hne, h3]⟩
    rw [hS]
    rintro (hc | hc)
    · exact h2 hc
    · exact hne hc.1
  · intro i l hl
    rcases hI.leaves i l hl with h1 | ⟨h1, h2, h3⟩ | h1
    · rcases (hbel i).1 h1 with rfl | h2
      · rcases hid l hl with h3 | h3
        · exact .inr (.inl ⟨h3.1, (hS i).2 (.inr ⟨rfl, l, hl, h3.1⟩), h3.2⟩)
        · exact .inr (.inr h3)
      · exact .inl h2
    · exact .inr (.inl ⟨h1, (hS i).2 (.inl h2), h3⟩)
    · exact .inr (.inr h1)
  · intro k hk
    rcases List.mem_append.1 hk with hk | hk
    · exact hI.ids k (by simp [hk])
    · rcases List.mem_cons.1 hk with rfl | hk
      · obtain ⟨p, path, hn⟩ := hI.nodes k (by simp)
        exact nodeAt_mem hn
      · exact hI.ids k (by simp [hk])
  · exact List.nodup_cons.2 ⟨(hI.fresh id ⟨id, by simp, Reach.refl id⟩).2.2, hI.nodup.2⟩

theorem condLoop_eq (hs : Shape h) (hfull : Full h) (hbin : Binary h)
    (hf : ∀ id l, h.leaves.lookup id = some l → l.probability o e = .ok (f l)) :
    ∀ (fuel : ℕ) (R S V stack rev : List ℕ), CInv f h R S V stack rev →
      2 * h.ids.length + rev.length < fuel + V.length + R.length →
      ∃ R' S' V', condLoop o e fuel ⟨heapOf f h R S, stack ++ rev⟩ = .ok (heapOf f h R' S') ∧
        CInv f h R' S' V' [] [] := by
  intro fuel
  induction fuel with
  | zero =>
    intro R S V stack rev hI hlt
    have h1 : R.length ≤ h.ids.length :=
      (hI.nodup.1.subperm (fun k hk => hI.ids k (by simp [hk]))).length_le
    have h2 : V.length ≤ h.ids.length :=
      (hI.nodup.2.subperm (fun k hk => hI.ids k (by simp [hk]))).length_le
    omega
  | succ fuel ih =>
    intro R S V stack rev hI hlt
    have hforest := forest_qkids hs ([] : Query)
    cases stack with
    | nil =>
      cases rev with
      | nil => exact ⟨R, S, V, rfl, hI⟩
      | cons k rev =>
        obtain ⟨n, hk, j, hj, hjR⟩ := hI.revs k (by simp)
        rw [List.nil_append]
        have hlen := hs.arity k n hk
        simp only [condLoop, condStep]
        have hl : (heapOf f h R S).leaves.lookup k = none := by
          simp only [heapOf]
          rw [lookup_pick, leaf_none hs hk]
          simp
        have hi : (heapOf f h R S).inner.lookup k = if k ∈ R then none else some (n.strip R) := by
          simp only [heapOf]
          rw [lookup_pick, hk]
          rfl
        simp only [hl, hi]
        have hdrop : (k ∈ R ∨ (n.strip R).children ≠ []) → CInv f h R S V [] rev := by
          intro hor
          refine ⟨hI.apart, hI.nodes, hI.fresh, hI.leaves, hI.rm, ?_, fun m hm => hI.revs m (by simp [hm]),
            hI.ids, hI.nodup⟩
          intro k' n' hk' hR' hall
          rcases List.mem_cons.1 (hI.pend k' n' hk' hR' hall) with rfl | hm
          · rcases hor with hor | hor
            · exact absurd hor hR'
            · exfalso
              rw [hk] at hk'
              cases hk'
              apply hor
              rw [List.eq_nil_iff_forall_not_mem]
              intro c hc
              rw [mem_strip hlen] at hc
              cases c with
              | none => exact hfull _ _ hk hc.1
              | some m =>
                have := hall m hc.1
                simp [keep, this] at hc
          · exact hm
        by_cases hkR : k ∈ R
        · rw [if_pos hkR]
          simp only [bind, Except.bind]
          exact ih R S V [] rev (hdrop (.inl hkR)) (by simp only [List.length_cons] at hlt; omega)
        · rw [if_neg hkR]
          simp only
          by_cases hnil : (n.strip R).children = []
          · rw [if_pos hnil]
            have hlf : (heapOf f h R S).leaves = (heapOf f h R S).leaves.filter (fun a => decide (a.1 ≠ k)) := by
              rw [eq_comm, List.filter_eq_self]
              intro a ha
              rw [decide_eq_true_eq]
              intro hak
              rw [Dict.lookup_none] at hl
              exact hl (List.mem_map.2 ⟨a, ha, hak⟩)
            rw [hlf]
            have hnode : NodeAt h k n.parent n.path := .inl ⟨n, hk, rfl, rfl⟩
            have hpar : ∀ k', n.parent = some k' → k' ∉ R := by
              intro k' hp hc
              rw [hp] at hnode
              obtain ⟨n', i, h1, h2⟩ := hs.parents' k k' _ hnode
              exact hkR (hI.rm k' n' h1 hc k (List.mem_of_getElem? h2))
            have hrm := removed_eq (f := f) (S := S) hs hnode hkR hpar rev
            have hp' : (n.strip R).parent = n.parent := rfl
            rw [hp', hrm]
            simp only [bind, Except.bind]
            have hall : ∀ j, some j ∈ n.children → j ∈ R := by
              intro j hj
              by_contra hc
              have : some j ∈ (n.strip R).children := (mem_strip hlen).2 ⟨hj, by simp [keep, hc]⟩
              rw [hnil] at this
              cases this
            have hnew := hI.remove hs hnode hkR (by simp) (fun l hl' => by
                rw [leaf_none hs hk] at hl'; cases hl') (fun n' hn' => by
                rw [hk] at hn'; cases hn'; exact hall)
            have hnew' : CInv f h (k :: R) S V [] (rev ++ n.parent.toList) := by
              refine ⟨hnew.apart, hnew.nodes, hnew.fresh, hnew.leaves, hnew.rm, ?_,
                fun m hm => hnew.revs m (by
                  rcases List.mem_append.1 hm with hm | hm
                  · simp [hm]
                  · simp only [List.mem_append]; exact .inr hm), hnew.ids, hnew.nodup⟩
              intro k' n' hk' hR' hall'
              have hm := hnew.pend k' n' hk' hR' hall'
              rw [List.cons_append, List.mem_cons] at hm
              rcases hm with rfl | hm
              · exact absurd List.mem_cons_self hR'
              · exact hm
            have := ih (k :: R) S V [] (rev ++ n.parent.toList) hnew' (by
              have : n.parent.toList.length ≤ 1 := by cases n.parent <;> simp
              simp only [List.length_cons, List.length_append] at hlt ⊢
              omega)
            exact this
          · rw [if_neg hnil, if_neg (strip_length hlen (hbin k n hk) hj hjR)]
            simp only [bind, Except.bind]
            exact ih R S V [] rev (hdrop (.inr hnil)) (by simp only [List.length_cons] at hlt; omega)
    | cons id stack =>
      obtain ⟨hidR, hidS, hidV⟩ := hI.fresh id ⟨id, by simp, Reach.refl id⟩
      obtain ⟨p, path, hnode⟩ := hI.nodes id (by simp)
      have hnb := not_below_step hforest hI.apart
      rw [List.cons_append]
      simp only [condLoop, condStep]
      cases hleaf : h.leaves.lookup id with
      | some l =>
        have hl : (heapOf f h R S).leaves.lookup id = some l := by
          simp only [heapOf]
          rw [lookup_pick, if_neg hidR, hleaf]
          simp [scaled, hidS]
        have hkids := qkids_leaf hs hleaf
        simp only [hl, hf id l hleaf, bind, Except.bind]
        by_cases hpos : f l > 0
        · rw [if_pos hpos, scaled_eq hs hleaf hidR]
          simp only [pure, Except.pure]
          have hnew := hI.take hs (S' := id :: S) (by
            intro j
            rw [List.mem_cons]
            constructor
            · rintro (rfl | hj)
              · exact .inr ⟨rfl, l, hleaf, hpos⟩
              · exact .inl hj
            · rintro (hj | ⟨rfl, _⟩)
              · exact .inr hj
              · exact .inl rfl) (by
            intro l' hl'
            rw [hleaf] at hl'
            cases hl'
            exact .inl ⟨hpos, hidR⟩)
          rw [hkids, List.nil_append] at hnew
          exact ih R (id :: S) (id :: V) stack rev hnew (by simp only [List.length_cons]; omega)
        · rw [if_neg hpos]
          have hif : (heapOf f h R S).inner = (heapOf f h R S).inner.filter (fun a => decide (a.1 ≠ id)) := by
            rw [eq_comm, List.filter_eq_self]
            intro a ha
            rw [decide_eq_true_eq]
            intro hak
            have h0 : (heapOf f h R S).inner.lookup id = none := by
              simp only [heapOf]
              rw [lookup_pick, lookup_none_of hs hleaf]
              simp
            rw [Dict.lookup_none] at h0
            exact h0 (List.mem_map.2 ⟨a, ha, hak⟩)
          rw [hif]
          have hpl : NodeAt h id l.parent l.path := .inr ⟨l, hleaf, rfl, rfl⟩
          have hpar : ∀ k', l.parent = some k' → k' ∉ R := by
            intro k' hp hc
            rw [hp] at hpl
            obtain ⟨n', i, h1, h2⟩ := hs.parents' id k' _ hpl
            exact hidR (hI.rm k' n' h1 hc id (List.mem_of_getElem? h2))
          rw [removed_eq (f := f) (S := S) hs hpl hidR hpar (stack ++ rev)]
          simp only
          -- first take the leaf from the stack, then remove it
          have hstack : ¬ ∃ a ∈ stack, Reach (qkids h []) a id := by
            rintro ⟨a, ha, hr⟩
            exact hnb ⟨a, by simp [ha], hr⟩
          have hnew : CInv f h (id :: R) S (id :: V) stack (rev ++ l.parent.toList) := by
            have hbel := fun j => below_step (kids := qkids h []) (id := id) (fr := stack) j
            rw [hkids, List.nil_append] at hbel
            refine ⟨?_, fun a ha => hI.nodes a (by simp [ha]), ?_, ?_, ?_, ?_, ?_, ?_, ?_, ?_⟩
            · have := hI.apart.step hforest
              rw [hkids, List.nil_append] at this
              exact this
            · intro j hj
              have hne : j ≠ id := by rintro rfl; exact hstack hj
              obtain ⟨h1, h2, h3⟩ := hI.fresh j ((hbel j).2 (.inr hj))
              exact ⟨by simp [hne, h1], h2, by simp [hne, h3]⟩
            · intro i l' hl'
              by_cases hi : i = id
              · subst hi
                rw [hleaf] at hl'
                cases hl'
                exact .inr (.inr ⟨hpos, by simp⟩)
              · rcases hI.leaves i l' hl' with h1 | ⟨h1, h2, h3⟩ | ⟨h1, h2⟩
                · rcases (hbel i).1 h1 with h1 | h1
                  · exact absurd h1 hi
                  · exact .inl h1
                · exact .inr (.inl ⟨h1, h2, by simp [hi, h3]⟩)
                · exact .inr (.inr ⟨h1, by simp [h2]⟩)
            · intro k n hk hkR j hj
              rcases List.mem_cons.1 hkR with rfl | hkR
              · rw [lookup_none_of hs hleaf] at hk; cases hk
              · exact List.mem_cons_of_mem _ (hI.rm k n hk hkR j hj)
            · intro k n hk hkR hall
              rw [List.mem_append]
              by_cases hc : some id ∈ n.children
              · right
                rw [child_iff hs hk hpl] at hc
                rw [hc]
                simp
              · left
                refine hI.pend k n hk (fun hc' => hkR (List.mem_cons_of_mem _ hc')) ?_
                intro j hj
                rcases List.mem_cons.1 (hall j hj) with rfl | h1
                · exact absurd hj hc
                · exact h1
            · intro k hk
              rcases List.mem_append.1 hk with hk | hk
              · obtain ⟨n, h1, j, h2, h3⟩ := hI.revs k hk
                exact ⟨n, h1, j, h2, List.mem_cons_of_mem _ h3⟩
              · cases hp : l.parent with
                | none => rw [hp] at hk; cases hk
                | some k' =>
                  rw [hp, Option.toList_some, List.mem_singleton] at hk
                  subst hk
                  rw [hp] at hpl
                  obtain ⟨n, i, h1, h2⟩ := hs.parents' id k _ hpl
                  exact ⟨n, h1, id, List.mem_of_getElem? h2, by simp⟩
            · intro k hk
              have hidmem := nodeAt_mem hnode
              simp only [List.mem_append, List.mem_cons] at hk
              rcases hk with (rfl | hk) | (rfl | hk)
              · exact hidmem
              · exact hI.ids k (by simp [hk])
              · exact hidmem
              · exact hI.ids k (by simp [hk])
            · exact List.nodup_cons.2 ⟨hidR, hI.nodup.1⟩
            · exact List.nodup_cons.2 ⟨hidV, hI.nodup.2⟩
          have := ih (id :: R) S (id :: V) stack (rev ++ l.parent.toList) hnew (by
            have : l.parent.toList.length ≤ 1 := by cases l.parent <;> simp
            simp only [List.length_cons, List.length_append] at hlt ⊢
            omega)
          rw [← List.append_assoc] at this
          exact this
      | none =>
        rcases hnode with ⟨n, hk, hpa, hpath⟩ | ⟨l, hl, _⟩
        · have hl : (heapOf f h R S).leaves.lookup id = none := by
            simp only [heapOf]
            rw [lookup_pick, leaf_none hs hk]
            simp
          have hi : (heapOf f h R S).inner.lookup id = some (n.strip R) := by
            simp only [heapOf]
            rw [lookup_pick, if_neg hidR, hk]
            rfl
          have hch : (n.strip R).children = n.children := by
            apply strip_all (hs.arity id n hk)
            intro j hj
            have hjk : j ∈ qkids h [] id := (mem_qkids_nil hs hk).2 hj
            exact (hI.fresh j ⟨id, by simp, Reach.head hjk (Reach.refl j)⟩).1
          have h2 := hbin id n hk
          simp only [hl, hi, hch]
          have hne : n.children ≠ [] := by intro hc; rw [hc] at h2; cases h2
          rw [if_neg hne, if_pos h2, filterMap_some_of (hfull id n hk)]
          simp only [bind, Except.bind]
          rw [← qkids_nil hs hk]
          have hnew := hI.take hs (S' := S) (by
            intro j
            constructor
            · exact .inl
            · rintro (hj | ⟨_, l, hl', _⟩)
              · exact hj
              · rw [hleaf] at hl'; cases hl') (by
            intro l' hl'
            rw [hleaf] at hl'
            cases hl')
          have := ih R S (id :: V) (qkids h [] id ++ stack) rev hnew (by
            simp only [List.length_cons]; omega)
          rw [List.append_assoc] at this
          exact this
        · rw [hl] at hleaf
          cases hleaf

end Verif.Trees
