import Verif.Trees.Lemmas4
import Verif.Trees.Lemmas5

/-!
# `conditional_jpt`: the resulting tree
-/

namespace Verif.Trees

variable {D E K : Type} {o : DistOps D E} {ok : K → D → Prop} {fits : K → Region → Prop}
  {P : D → Region → ℚ} {kind : ℕ → K} {full : ℕ → Region} {n : ℕ} {h : Heap D}

/-! ## The tree without the removed nodes -/

/-- The tree without the nodes in `R`, with changed leaves. -/
def without (h : Heap D) (R : List ℕ) (g : ℕ → Leaf D → Leaf D) : Heap D :=
  ⟨pick R (fun _ => Inner.strip R) h.inner, pick R g h.leaves, h.root.filter (fun r => decide (r ∉ R))⟩

section without

variable {R : List ℕ} {g : ℕ → Leaf D → Leaf D}

theorem without_inner {k : ℕ} {m : Inner} (hk : (without h R g).inner.lookup k = some m) :
    k ∉ R ∧ ∃ n, h.inner.lookup k = some n ∧ m = n.strip R := by
  unfold without at hk
  simp only at hk
  rw [lookup_pick] at hk
  by_cases hR : k ∈ R
  · rw [if_pos hR] at hk; cases hk
  · rw [if_neg hR] at hk
    cases hn : h.inner.lookup k with
    | none => rw [hn] at hk; cases hk
    | some n =>
      rw [hn] at hk
      simp only [Option.map_some, Option.some.injEq] at hk
      exact ⟨hR, n, rfl, hk.symm⟩

theorem without_leaf {k : ℕ} {m : Leaf D} (hk : (without h R g).leaves.lookup k = some m) :
    k ∉ R ∧ ∃ n, h.leaves.lookup k = some n ∧ m = g k n := by
  unfold without at hk
  simp only at hk
  rw [lookup_pick] at hk
  by_cases hR : k ∈ R
  · rw [if_pos hR] at hk; cases hk
  · rw [if_neg hR] at hk
    cases hn : h.leaves.lookup k with
    | none => rw [hn] at hk; cases hk
    | some n =>
      rw [hn] at hk
      simp only [Option.map_some, Option.some.injEq] at hk
      exact ⟨hR, n, rfl, hk.symm⟩

theorem without_node (hg : ∀ k l, (g k l).parent = l.parent ∧ (g k l).path = l.path) {j : ℕ}
    {p : Option ℕ} {path : Path} :
    NodeAt (without h R g) j p path ↔ NodeAt h j p path ∧ j ∉ R := by
  constructor
  · rintro (⟨m, h1, h2, h3⟩ | ⟨m, h1, h2, h3⟩)
    · obtain ⟨hR, n, hn, rfl⟩ := without_inner h1
      exact ⟨.inl ⟨n, hn, h2, h3⟩, hR⟩
    · obtain ⟨hR, l, hn, rfl⟩ := without_leaf h1
      rw [(hg j l).1] at h2
      rw [(hg j l).2] at h3
      exact ⟨.inr ⟨l, hn, h2, h3⟩, hR⟩
  · rintro ⟨⟨m, h1, h2, h3⟩ | ⟨m, h1, h2, h3⟩, hR⟩
    · refine .inl ⟨m.strip R, ?_, h2, h3⟩
      unfold without
      simp only
      rw [lookup_pick, if_neg hR, h1]
      rfl
    · refine .inr ⟨g j m, ?_, (hg j m).1.trans h2, (hg j m).2.trans h3⟩
      unfold without
      simp only
      rw [lookup_pick, if_neg hR, h1]
      rfl

theorem strip_get {m : Inner} {i : ℕ} {c : Option ℕ} (hc : (m.strip R).children[i]? = some c) :
    ∃ (i' : ℕ) (s : Region), (m.strip R).splits[i]? = some s ∧ m.children[i']? = some c ∧
      m.splits[i']? = some s ∧ keep R c = true := by
  unfold Inner.strip at hc ⊢
  simp only at hc ⊢
  rw [List.getElem?_map] at hc
  cases hz : ((m.children.zip m.splits).filter (fun c => keep R c.1))[i]? with
  | none => rw [hz] at hc; cases hc
  | some cs =>
    rw [hz] at hc
    simp only [Option.map_some, Option.some.injEq] at hc
    subst hc
    have hm := List.mem_of_getElem? hz
    rw [List.mem_filter] at hm
    obtain ⟨i', hi'⟩ := List.getElem?_of_mem hm.1
    rw [List.getElem?_zip_eq_some] at hi'
    refine ⟨i', cs.2, ?_, hi'.1, hi'.2, hm.2⟩
    rw [List.getElem?_map, hz]
    rfl

/-- The rest of the tree is a tree, if with a node everything below it is removed. -/
theorem without_shape (hs : Shape h) (hfull : Full h)
    (hg : ∀ k l, (g k l).parent = l.parent ∧ (g k l).path = l.path)
    (hrm : ∀ k n, h.inner.lookup k = some n → k ∈ R → ∀ j, some j ∈ n.children → j ∈ R) :
    Shape (without h R g) ∧ Full (without h R g) := by
  refine ⟨⟨?_, ?_, ?_, ?_, ?_, ?_, ?_⟩, ?_⟩
  · unfold without
    simp only
    rw [keys_pick, keys_pick, ← List.filter_append]
    exact hs.nodup.filter _
  · intro k m hk
    obtain ⟨-, n, hn, rfl⟩ := without_inner hk
    unfold Inner.strip
    simp
  · intro k m i j hk hi
    obtain ⟨hR, n, hn, rfl⟩ := without_inner hk
    obtain ⟨i', s, h1, h2, h3, h4⟩ := strip_get hi
    obtain ⟨hlt, s', h5, h6⟩ := hs.kids k n i' j hn h2
    rw [h3] at h5
    cases h5
    exact ⟨hlt, s, h1, (without_node hg).2 ⟨h6, by simpa [keep] using h4⟩⟩
  · intro j path hj
    obtain ⟨hj, hR⟩ := (without_node hg).1 hj
    obtain ⟨h1, h2⟩ := hs.parents j path hj
    refine ⟨?_, h2⟩
    unfold without
    simp only
    rw [h1]
    simp [Option.filter, hR]
  · intro j k path hj
    obtain ⟨hj, hR⟩ := (without_node hg).1 hj
    obtain ⟨m, i, h1, h2⟩ := hs.parents' j k path hj
    have hmem := List.mem_of_getElem? h2
    have hkR : k ∉ R := fun hc => hR (hrm k m h1 hc j hmem)
    have hm' : some j ∈ (m.strip R).children :=
      (mem_strip (hs.arity k m h1)).2 ⟨hmem, by simpa [keep] using hR⟩
    obtain ⟨i', hi'⟩ := List.getElem?_of_mem hm'
    refine ⟨m.strip R, i', ?_, hi'⟩
    unfold without
    simp only
    rw [lookup_pick, if_neg hkR, h1]
    rfl
  · intro k m i i' j hk hi hi'
    obtain ⟨hR, n, hn, rfl⟩ := without_inner hk
    have hp := (zip_nodup hs hn).filter (fun c => keep R c.1)
    rw [List.pairwise_iff_getElem] at hp
    have aux : ∀ (i i' : ℕ), (n.strip R).children[i]? = some (some j) →
        (n.strip R).children[i']? = some (some j) → ¬ i < i' := by
      intro i i' hi hi' hlt
      unfold Inner.strip at hi hi'
      simp only [List.getElem?_map, Option.map_eq_some_iff] at hi hi'
      obtain ⟨a, ha, ha'⟩ := hi
      obtain ⟨b, hb, hb'⟩ := hi'
      rw [List.getElem?_eq_some_iff] at ha hb
      obtain ⟨l1, ha⟩ := ha
      obtain ⟨l2, hb⟩ := hb
      have := hp i i' l1 l2 hlt j
      rw [ha, hb] at this
      exact this ha' hb'
    have h1 := aux i i' hi hi'
    have h2 := aux i' i hi' hi
    omega
  · intro r hr
    unfold without at hr
    simp only [Option.filter_eq_some_iff, decide_eq_true_eq] at hr
    exact (without_node hg).2 ⟨hs.root r hr.1, hr.2⟩
  · intro k m hk hc
    obtain ⟨hR, n, hn, rfl⟩ := without_inner hk
    rw [mem_strip (hs.arity k n hn)] at hc
    exact hfull k n hn hc.1

/-- A removed root leaves nothing. -/
theorem without_root (hs : Shape h)
    (hrm : ∀ k n, h.inner.lookup k = some n → k ∈ R → ∀ j, some j ∈ n.children → j ∈ R)
    {r : ℕ} (hr : h.root = some r) (hR : r ∈ R) : (without h R g).leaves = [] := by
  rw [List.eq_nil_iff_forall_not_mem]
  rintro ⟨k, m⟩ hm
  unfold without at hm
  simp only [pick, List.mem_map, List.mem_filter, decide_eq_true_eq, Prod.mk.injEq, Prod.exists] at hm
  obtain ⟨k', l, ⟨h1, h2⟩, rfl, rfl⟩ := hm
  have hl : h.leaves.lookup k' = some l := Dict.mem_lookup (List.nodup_append.1 hs.nodup).2.1 h1
  have hreach : Reach (qkids h []) r k' :=
    (reach_iff hs hr k' l.parent l.path (.inr ⟨l, hl, rfl, rfl⟩)).2 (fun _ _ => rfl)
  apply h2
  clear hl h1 h2
  induction hreach with
  | refl => exact hR
  | @tail b c hb hc ih =>
    obtain ⟨n, i, s, g1, g2, -⟩ := mem_qkids.1 hc
    exact hrm b n g1 ih c (List.mem_of_getElem? g2)

end without

/-! ## The whole loop -/

/-- The loop removes the leaves without probability and changes the priors of the others. -/
theorem condLoop_all {e : Query} {f : Leaf D → ℚ} (hs : Shape h) (hfull : Full h) (hbin : Binary h)
    {r : ℕ} (hr : h.root = some r)
    (hf : ∀ id l, h.leaves.lookup id = some l → l.probability o e = .ok (f l)) :
    ∃ R S, condLoop o e (2 * (h.inner.length + h.leaves.length) + 1) ⟨h, [r]⟩
        = .ok (without h R (scaled f S)) ∧
      (∀ l ∈ h.leaves, 0 < f l.2 → l.1 ∉ R ∧ l.1 ∈ S) ∧ (∀ l ∈ h.leaves, ¬ 0 < f l.2 → l.1 ∈ R) ∧
      (∀ k n, h.inner.lookup k = some n → k ∈ R → ∀ j, some j ∈ n.children → j ∈ R) ∧
      (∀ k n, h.inner.lookup k = some n → k ∉ R → ∃ j, some j ∈ n.children ∧ j ∉ R) := by
  have hids : h.ids.length = h.inner.length + h.leaves.length := by
    unfold Heap.ids
    simp
  have h0 : heapOf f h [] [] = h := by
    unfold heapOf
    have h1 : pick [] (fun _ => Inner.strip []) h.inner = h.inner := by
      unfold pick
      rw [List.filter_eq_self.2 (by simp)]
      conv => rhs; rw [← List.map_id h.inner]
      apply List.map_congr_left
      rintro ⟨k, n⟩ hm
      have hk : h.inner.lookup k = some n := Dict.mem_lookup (List.nodup_append.1 hs.nodup).1 hm
      have hlen := hs.arity k n hk
      have hst : n.strip [] = n := by
        unfold Inner.strip
        have : (n.children.zip n.splits).filter (fun c => keep [] c.1) = n.children.zip n.splits := by
          rw [List.filter_eq_self]
          rintro ⟨c, s⟩ -
          cases c <;> rfl
        rw [this, List.map_fst_zip (by omega), List.map_snd_zip (by omega)]
      simp [hst]
    have h2 : pick [] (scaled f []) h.leaves = h.leaves := by
      unfold pick
      rw [List.filter_eq_self.2 (by simp)]
      conv => rhs; rw [← List.map_id h.leaves]
      apply List.map_congr_left
      rintro ⟨k, n⟩ -
      simp [scaled]
    rw [h1, h2]
    have h3 : h.root.filter (fun r => decide (r ∉ ([] : List ℕ))) = h.root := by
      cases h.root <;> simp [Option.filter]
    rw [h3]
  have hI : CInv f h [] [] [] [r] [] := by
    refine ⟨⟨by simp, ?_⟩, ?_, by simp, ?_, by simp, ?_, by simp, by simp, by simp⟩
    · intro a ha b hb _
      rw [List.mem_singleton.1 ha, List.mem_singleton.1 hb]
    · intro a ha
      rw [List.mem_singleton.1 ha]
      exact ⟨_, _, hs.root r hr⟩
    · intro id l hl
      left
      exact ⟨r, by simp, (reach_iff hs hr id l.parent l.path (.inr ⟨l, hl, rfl, rfl⟩)).2
        (fun _ _ => rfl)⟩
    · intro k n hk _ hall
      exfalso
      have h2 := hbin k n hk
      cases hc : n.children with
      | nil => rw [hc] at h2; cases h2
      | cons c cs =>
        cases c with
        | none => exact hfull k n hk (by rw [hc]; simp)
        | some j => exact absurd (hall j (by rw [hc]; simp)) (by simp)
  obtain ⟨R, S, V, h1, h2⟩ := condLoop_eq hs hfull hbin hf (2 * (h.inner.length + h.leaves.length) + 1)
    [] [] [] [r] [] hI (by simp only [List.length_nil]; omega)
  rw [h0, List.append_nil] at h1
  have hlv : ∀ l ∈ h.leaves, (0 < f l.2 ∧ l.1 ∈ S ∧ l.1 ∉ R) ∨ (¬ 0 < f l.2 ∧ l.1 ∈ R) := by
    rintro ⟨k, l⟩ hm
    have hl : h.leaves.lookup k = some l := Dict.mem_lookup (List.nodup_append.1 hs.nodup).2.1 hm
    rcases h2.leaves k l hl with ⟨a, ha, -⟩ | h3
    · cases ha
    · exact h3
  refine ⟨R, S, h1, ?_, ?_, h2.rm, ?_⟩
  · intro l hl hp
    rcases hlv l hl with h3 | h3
    · exact ⟨h3.2.2, h3.2.1⟩
    · exact absurd hp h3.1
  · intro l hl hp
    rcases hlv l hl with h3 | h3
    · exact absurd h3.1 hp
    · exact h3.2
  · intro k m hk hR
    by_contra hc
    push Not at hc
    have := h2.pend k m hk hR hc
    cases this

/-- The leaves that are left. -/
theorem without_leaves {R S : List ℕ} {f : Leaf D → ℚ} {c : Leaf D → Leaf D}
    (h1 : ∀ l ∈ h.leaves, 0 < f l.2 → l.1 ∉ R ∧ l.1 ∈ S) (h2 : ∀ l ∈ h.leaves, ¬ 0 < f l.2 → l.1 ∈ R) :
    (without h R (fun k l => c (scaled f S k l))).leaves =
      (h.leaves.filter (fun l => decide (0 < f l.2))).map (fun l => (l.1, c (l.2.scale (f l.2)))) := by
  unfold without
  simp only [pick]
  have hfil : h.leaves.filter (fun a => decide (a.1 ∉ R)) = h.leaves.filter (fun l => decide (0 < f l.2)) := by
    apply List.filter_congr
    intro l hl
    rw [decide_eq_decide]
    constructor
    · intro hR
      by_contra hc
      exact hR (h2 l hl hc)
    · intro hp
      exact (h1 l hl hp).1
  rw [hfil]
  apply List.map_congr_left
  intro l hl
  rw [List.mem_filter, decide_eq_true_eq] at hl
  simp only [scaled]
  rw [if_pos (h1 l hl.1 hl.2).2]

/-! ## The probability of the evidence in a leaf -/

theorem probability_eq (L : PLaws o ok fits P) {l : Leaf D} (hlen : l.dists.length = n)
    (hok : ∀ (v : ℕ) (d : D), l.dists[v]? = some d → ok (kind v) d) (e : Query)
    (he : ∀ i ∈ e, i.1 < n ∧ fits (kind i.1) i.2 ∧ i.2.OK) (hpt : ∀ i ∈ e, i.2.point = none) :
    l.probability o e = .ok (leafProb P l e) := by
  have aux : ∀ (e : Query) (p : ℚ), (∀ i ∈ e, i.1 < n ∧ fits (kind i.1) i.2 ∧ i.2.OK) →
      (∀ i ∈ e, i.2.point = none) → e.foldlM (fun p i => do
        let d ← l.dist i.1
        let x ← factor o d i.2
        return p * x) p = (.ok (p * leafProb P l e) : Except Err ℚ) := by
    intro e
    induction e with
    | nil => intro p _ _; simp [leafProb, pure, Except.pure]
    | cons i e ih =>
      intro p he hpt
      obtain ⟨hi, hfit, hOK⟩ := he i (by simp)
      have hp := hpt i (by simp)
      obtain ⟨d, hd⟩ : ∃ d, l.dists[i.1]? = some d := ⟨_, List.getElem?_eq_getElem (by omega)⟩
      have hx : factor o d i.2 = .ok (P d i.2) := by
        have hpp := L.p_ok _ _ _ (hok _ _ hd) hfit
        obtain ⟨v, r⟩ := i
        cases r with
        | num c =>
          simp only [factor] at hp hpp hOK ⊢
          rw [riEmpty_iff hOK]
          simp only [Bool.false_eq_true, if_false]
          unfold lik
          rw [hp]
          exact hpp
        | set s => exact hpp
      rw [List.foldlM_cons]
      unfold Leaf.dist
      simp only [hd, bind, Except.bind, hx, pure, Except.pure]
      have := ih (p * P d i.2) (fun j hj => he j (by simp [hj])) (fun j hj => hpt j (by simp [hj]))
      unfold Leaf.dist at this
      simp only [bind, Except.bind, pure, Except.pure] at this
      rw [this]
      congr 1
      unfold leafProb
      rw [List.map_cons, List.prod_cons]
      simp only [hd]
      ring
  have := aux e 1 he hpt
  rw [one_mul] at this
  exact this

/-! ## Cropping the distributions -/

theorem leafProb_factor {l : Leaf D} {e : Query} (hne : leafProb P l e ≠ 0) {i : ℕ × Region} (hi : i ∈ e)
    {d : D} (hd : l.dists[i.1]? = some d) : P d i.2 ≠ 0 := by
  intro hc
  apply hne
  unfold leafProb
  apply prod_zero
  refine List.mem_map.2 ⟨i, hi, ?_⟩
  simp only [hd]
  exact hc

/-- Conditioning the distributions of a leaf, if every one of the evidence can be conditioned. -/
theorem crops_each (e : Query) : ∀ (ds : List D),
    (∀ (v : ℕ) (d : D), ds[v]? = some d → ok (kind v) d) → (e.map Prod.fst).Nodup →
    (∀ i ∈ e, i.1 < ds.length) →
    (∀ i ∈ e, ∀ d, ds[i.1]? = some d → ∃ d', o.crop d i.2 = .ok d' ∧ ok (kind i.1) d' ∧
      ∀ s, fits (kind i.1) s → P d' s = P d (s.inter i.2) / P d i.2) →
    ∃ ds', e.foldlM (cropAt o) ds = .ok ds' ∧ ds'.length = ds.length ∧
      ∀ (v : ℕ) (d : D), ds[v]? = some d → ∃ d', ds'[v]? = some d' ∧ ok (kind v) d' ∧
        (e.lookup v = none → d' = d) ∧ ∀ S, fits (kind v) S → P d' S = match e.lookup v with
          | none => P d S
          | some r => P d (S.inter r) / P d r := by
  induction e with
  | nil =>
    intro ds hok _ _ _
    exact ⟨ds, rfl, rfl, fun v d hd => ⟨d, hd, hok v d hd, fun _ => rfl, fun S _ => rfl⟩⟩
  | cons i e ih =>
    intro ds hok hnd hfit hne
    obtain ⟨v0, r0⟩ := i
    rw [List.map_cons, List.nodup_cons] at hnd
    have hlt := hfit (v0, r0) (by simp)
    simp only at hlt hnd
    obtain ⟨d0, hd0⟩ : ∃ d, ds[v0]? = some d := ⟨_, List.getElem?_eq_getElem hlt⟩
    obtain ⟨d1, hc, hok1, hP1⟩ := hne (v0, r0) (by simp) d0 hd0
    have hget : ∀ v : ℕ, (ds.set v0 d1)[v]? = if v = v0 then some d1 else ds[v]? := by
      intro v
      rw [List.getElem?_set]
      by_cases hv : v = v0
      · subst hv
        simp [hlt]
      · rw [if_neg (fun hc => hv hc.symm), if_neg hv]
    obtain ⟨ds', h1, h2, h3⟩ := ih (ds.set v0 d1)
      (by
        intro v d hd
        rw [hget] at hd
        by_cases hv : v = v0
        · rw [if_pos hv] at hd
          cases hd
          rw [hv]
          exact hok1
        · rw [if_neg hv] at hd
          exact hok v d hd)
      hnd.2
      (by
        intro i hi
        rw [List.length_set]
        exact hfit i (by simp [hi]))
      (by
        intro i hi d hd
        have hiv : i.1 ≠ v0 := by
          rintro rfl
          exact hnd.1 (List.mem_map.2 ⟨i, hi, rfl⟩)
        rw [hget, if_neg hiv] at hd
        exact hne i (by simp [hi]) d hd)
    refine ⟨ds', ?_, by rw [h2, List.length_set], ?_⟩
    · rw [List.foldlM_cons]
      unfold cropAt
      simp only [hd0, hc, bind, Except.bind, pure, Except.pure]
      exact h1
    · intro v d hd
      by_cases hv : v = v0
      · subst hv
        rw [hd0] at hd
        cases hd
        obtain ⟨d', g1, g2, -, g3⟩ := h3 v d1 (by rw [hget, if_pos rfl])
        refine ⟨d', g1, g2, (fun h => by simp at h), ?_⟩
        intro S hS
        have hl : e.lookup v = none := by rw [Dict.lookup_none]; exact hnd.1
        rw [g3 S hS, hl]
        simp only
        rw [hP1 S hS, List.lookup_cons]
        simp
      · obtain ⟨d', g1, g2, g4, g3⟩ := h3 v d (by rw [hget, if_neg hv]; exact hd)
        refine ⟨d', g1, g2, ?_, ?_⟩
        · rw [List.lookup_cons, show (v == v0) = false by simpa using hv]
          exact g4
        intro S hS
        rw [g3 S hS, List.lookup_cons, show (v == v0) = false by simpa using hv]

theorem crops {A : K → Prop} (L : LawsOn o ok fits P A) (e : Query) (ds : List D) (hA : ∀ i ∈ e, A (kind i.1))
    (hok : ∀ (v : ℕ) (d : D), ds[v]? = some d → ok (kind v) d) (hnd : (e.map Prod.fst).Nodup)
    (hfit : ∀ i ∈ e, i.1 < ds.length ∧ fits (kind i.1) i.2)
    (hne : ∀ i ∈ e, ∀ d, ds[i.1]? = some d → P d i.2 ≠ 0) :
    ∃ ds', e.foldlM (cropAt o) ds = .ok ds' ∧ ds'.length = ds.length ∧
      ∀ (v : ℕ) (d : D), ds[v]? = some d → ∃ d', ds'[v]? = some d' ∧ ok (kind v) d' ∧
        (e.lookup v = none → d' = d) ∧ ∀ S, fits (kind v) S → P d' S = match e.lookup v with
          | none => P d S
          | some r => P d (S.inter r) / P d r :=
  crops_each e ds hok hnd (fun i hi => (hfit i hi).1) (fun i hi d hd =>
    L.crop _ _ _ (hA i hi) (hok i.1 d hd) (hfit i hi).2 (hne i hi d hd))

end Verif.Trees
