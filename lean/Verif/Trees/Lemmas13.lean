import Verif.Trees.Lemmas12
import Mathlib.Tactic.Ring
import Mathlib.Tactic.Linarith

/-! # Lemmas on pruning: the loop -/

namespace Verif.Trees

variable {D E K : Type} {o : DistOps D E} {ok : K → D → Prop} {fits : K → Region → Prop}
  {P : D → Region → ℚ} {kind : ℕ → K} {full : ℕ → Region} {n : ℕ} {h : Heap D}
  {id il ir : ℕ} {nd : Inner} {l r m : Leaf D}

theorem sum_remove {α M : Type} [AddCommMonoid M] (f : α → M) {k : ℕ} {a : α} : ∀ {d : List (ℕ × α)}, Dict.WF d →
    d.lookup k = some a → (d.map (fun e => f e.2)).sum
      = f a + ((d.filter (fun e => decide (e.1 ≠ k))).map (fun e => f e.2)).sum
  | [], _, hk => by cases hk
  | b :: d, hd, hk => by
    have hd' : b.1 ∉ d.map Prod.fst ∧ (d.map Prod.fst).Nodup := by
      unfold Dict.WF at hd
      rw [List.map_cons, List.nodup_cons] at hd
      exact hd
    rw [List.lookup_cons] at hk
    by_cases hb : k = b.1
    · subst hb
      simp only [beq_self_eq_true, Option.some.injEq] at hk
      subst hk
      have : (b :: d).filter (fun e => decide (e.1 ≠ b.1)) = d := by
        rw [List.filter_cons]
        simp only [ne_eq, not_true_eq_false, decide_false, Bool.false_eq_true, if_false]
        rw [List.filter_eq_self]
        intro e he
        simp only [decide_eq_true_eq]
        intro e1
        exact hd'.1 (List.mem_map.2 ⟨e, he, e1⟩)
      rw [this, List.map_cons, List.sum_cons]
    · rw [show (k == b.1) = false by simpa using hb] at hk
      have : (b :: d).filter (fun e => decide (e.1 ≠ k)) = b :: d.filter (fun e => decide (e.1 ≠ k)) := by
        rw [List.filter_cons]
        rw [if_pos (by simpa using Ne.symm hb)]
      rw [this, List.map_cons, List.sum_cons, List.map_cons, List.sum_cons, sum_remove f hd'.2 hk,
        add_left_comm]

theorem leaves_wf (hs : Shape h) : Dict.WF h.leaves := (List.nodup_append.1 hs.nodup).2.1

theorem collapse_sum {M : Type} [AddCommMonoid M] (S : Siblings h id il ir nd l r) (hs : Shape h)
    (f : Leaf D → M) (hf : f m = f l + f r) :
    ((collapse h id il ir m).leaves.map (fun e => f e.2)).sum = (h.leaves.map (fun e => f e.2)).sum := by
  have h1 := sum_remove f (leaves_wf hs) S.left
  have h2 := sum_remove (k := ir) (a := r) f (Dict.wf_filter (leaves_wf hs) il)
    (by rw [Dict.lookup_filter, if_neg (S.ne hs).symm]; exact S.right)
  rw [h1, h2]
  unfold collapse
  simp only [List.map_append, List.sum_append, List.map_cons, List.map_nil, List.sum_cons, List.sum_nil, add_zero]
  rw [hf, add_comm, add_assoc]

theorem mem_collapse {e : ℕ × Leaf D} (he : e ∈ (collapse h id il ir m).leaves) :
    e ∈ h.leaves ∨ e = (h.newIdx, m) := by
  unfold collapse at he
  simp only at he
  rcases List.mem_append.1 he with he | he
  · exact .inl ((List.filter_sublist.trans List.filter_sublist).subset he)
  · exact .inr (by simpa using he)

/-- What holds for the restriction of a leaf holds for that of its parent. -/
theorem support_up (L : Laws o ok fits P) {path : Path} {v : ℕ} {s : Region}
    (hpath : ∀ t ∈ path ++ [(v, s)], t.1 < n ∧ fits (kind t.1) t.2 ∧ t.2.OK)
    (hvals : ∀ v, v < n → fits (kind v) (full v) ∧ ∀ r x, fits (kind v) r → r.Mem x → (full v).Mem x)
    {u : ℕ} {R : Region} (hR : (pathMap full path).lookup u = some R) {d : D} (hd : ok (kind u) d)
    (hsup : ∀ R', (pathMap full (path ++ [(v, s)])).lookup u = some R' → P d R' = 1) : P d R = 1 := by
  have hf := (pathMap_fits L.toPLaws path (fun t ht => hpath t (List.mem_append.2 (.inl ht))) hvals u R hR).2
  rw [pathMap_snoc] at hsup
  simp only [Dict.lookup_set] at hsup
  by_cases hu : u = v
  · subst hu
    have hs := (hpath (u, s) (by simp)).2.1
    rw [if_pos rfl] at hsup
    have h1 := hsup _ rfl
    rw [hR, Option.getD_some] at h1
    have h2 := L.mono (kind u) d (R.inter s) R hd (L.inter _ _ _ hf hs) hf (fun x hx => ((Region.mem_inter x).1 hx).1)
    have h3 := L.le_one (kind u) d R hd hf
    linarith
  · rw [if_neg hu] at hsup
    exact hsup R hR

/-- A step of pruning keeps the invariants of trees. -/
theorem collapse_ok (L : Laws o ok fits P) (hT : TreeOK ok fits P kind full n h) (S : Siblings h id il ir nd l r)
    (hp : m.parent = nd.parent) (hpath : m.path = nd.path) (hpl : 0 < l.prior) (hpr : 0 < r.prior)
    (hprior : m.prior = l.prior + r.prior) (hlen : m.dists.length = n)
    (hok : ∀ (v : ℕ) (d : D), m.dists[v]? = some d → ok (kind v) d)
    (hmix : ∀ (v : ℕ) (d dl dr : D), m.dists[v]? = some d → l.dists[v]? = some dl → r.dists[v]? = some dr →
        ∀ s, fits (kind v) s → P d s * (l.prior + r.prior) = l.prior * P dl s + r.prior * P dr s) :
    TreeOK ok fits P kind full n (collapse h id il ir m) := by
  have hs := hT.shape
  have hlm := Dict.lookup_mem S.left
  have hrm := Dict.lookup_mem S.right
  obtain ⟨sl, -, hl⟩ := S.leftAt hs
  obtain ⟨sr, -, hr⟩ := S.rightAt hs
  refine ⟨collapse_shape S hs hp hpath, ?_, ?_, ?_, ?_, ?_, hT.values, ?_⟩
  · intro k x hk hc
    rw [collapse_inner] at hk
    split_ifs at hk with hki
    obtain ⟨x', h1, rfl⟩ := Option.map_eq_some_iff.1 hk
    obtain ⟨i, hi⟩ := List.getElem?_of_mem hc
    obtain ⟨c', h2, h3⟩ := swap_get hi
    rcases h3 with ⟨-, h3⟩ | ⟨-, rfl⟩
    · cases h3
    · exact hT.noNone k x' h1 (List.mem_of_getElem? h2)
  · show (if h.root = some id then some h.newIdx else h.root) ≠ none
    split_ifs
    · simp
    · exact hT.fitted
  · intro e he
    rcases mem_collapse he with he | rfl
    · exact hT.dists e he
    · exact ⟨hlen, hok⟩
  · intro e he
    rcases mem_collapse he with he | rfl
    · exact hT.prior e he
    · show 0 ≤ m.prior
      linarith
  · intro e he s hse
    rcases mem_collapse he with he | rfl
    · exact hT.path e he s hse
    · refine hT.path _ hlm s ?_
      have hse' : s ∈ m.path := hse
      rw [hpath] at hse'
      show s ∈ l.path
      rw [hl]
      exact List.mem_append.2 (.inl hse')
  · intro e he v d R hR hd
    rcases mem_collapse he with he | rfl
    · exact hT.support e he v d R hR hd
    · have hR' : (pathMap full nd.path).lookup v = some R := by rw [← hpath]; exact hR
      have hd' : m.dists[v]? = some d := hd
      have hv : v < n := by
        by_contra hc
        rw [List.getElem?_eq_none (by omega)] at hd'
        cases hd'
      obtain ⟨dl, -, e1⟩ := dist_of (hT.dists _ hlm).1 hv
      obtain ⟨dr, -, e2⟩ := dist_of (hT.dists _ hrm).1 hv
      have hfit := (pathMap_fits L.toPLaws nd.path (fun t ht => hT.path _ hlm t (by
        show t ∈ l.path
        rw [hl]; exact List.mem_append.2 (.inl ht))) hT.values v R hR').2
      have p1 : P dl R = 1 := by
        refine support_up L (path := nd.path) (v := nd.var) (s := sl) (by rw [← hl]; exact hT.path _ hlm) hT.values
          hR' ((hT.dists _ hlm).2 v dl e1) ?_
        intro R' hR'
        rw [← hl] at hR'
        exact hT.support _ hlm v dl R' hR' e1
      have p2 : P dr R = 1 := by
        refine support_up L (path := nd.path) (v := nd.var) (s := sr) (by rw [← hr]; exact hT.path _ hrm) hT.values
          hR' ((hT.dists _ hrm).2 v dr e2) ?_
        intro R' hR'
        rw [← hr] at hR'
        exact hT.support _ hrm v dr R' hR' e2
      have := hmix v d dl dr hd' e1 e2 R hfit
      rw [p1, p2] at this
      have hpos : (0 : ℚ) < l.prior + r.prior := by linarith
      have h1 : (P d R - 1) * (l.prior + r.prior) = 0 := by linarith
      rcases mul_eq_zero.1 h1 with h2 | h2 <;> linarith

/-- What pruning keeps. -/
structure PInv (ok : K → D → Prop) (fits : K → Region → Prop) (P : D → Region → ℚ) (kind : ℕ → K)
    (full : ℕ → Region) (n : ℕ) (h h' : Heap D) : Prop where
  tree : TreeOK ok fits P kind full n h'
  binary : Binary h'
  sorted : Sorted h'
  pos : ∀ e ∈ h'.leaves, 0 < e.2.prior
  priors : (h'.leaves.map (fun e => e.2.prior)).sum = (h.leaves.map (fun e => e.2.prior)).sum
  samples : (h'.leaves.map (fun e => e.2.samples)).sum = (h.leaves.map (fun e => e.2.samples)).sum
  fewer : h'.leaves.length + h.inner.length = h.leaves.length + h'.inner.length
  less : h'.inner.length ≤ h.inner.length
  marginal : ∀ v S, v < n → fits (kind v) S → mass P h' [(v, S)] = mass P h [(v, S)]

theorem length_remove {α : Type} {d : List (ℕ × α)} {k : ℕ} {a : α} (hd : Dict.WF d) (hk : d.lookup k = some a) :
    (d.filter (fun e => decide (e.1 ≠ k))).length + 1 = d.length := by
  have := sum_remove (fun _ : α => (1 : ℕ)) hd hk
  simp only [List.map_const', List.sum_replicate, nsmul_eq_mul, Nat.cast_id, mul_one] at this
  omega

theorem collapse_lengths (S : Siblings h id il ir nd l r) (hs : Shape h) :
    (collapse h id il ir m).inner.length + 1 = h.inner.length ∧
    (collapse h id il ir m).leaves.length + 1 = h.leaves.length := by
  have h1 := length_remove (List.nodup_append.1 hs.nodup).1 S.node
  have h2 := length_remove (leaves_wf hs) S.left
  have h3 := length_remove (k := ir) (a := r) (Dict.wf_filter (leaves_wf hs) il)
    (by rw [Dict.lookup_filter, if_neg (S.ne hs).symm]; exact S.right)
  unfold collapse
  simp only [List.length_map, List.length_append, List.length_cons, List.length_nil]
  omega

/-- Merging two leaves keeps what pruning keeps. -/
theorem PInv.merge (L : Laws o ok fits P) {h0 : Heap D} (I : PInv ok fits P kind full n h0 h)
    (S : Siblings h id il ir nd l r)
    (hp : m.parent = nd.parent) (hpath : m.path = nd.path)
    (hprior : m.prior = l.prior + r.prior) (hsamp : m.samples = l.samples + r.samples) (hlen : m.dists.length = n)
    (hok : ∀ (v : ℕ) (d : D), m.dists[v]? = some d → ok (kind v) d)
    (hmix : ∀ (v : ℕ) (d dl dr : D), m.dists[v]? = some d → l.dists[v]? = some dl → r.dists[v]? = some dr →
        ∀ s, fits (kind v) s → P d s * (l.prior + r.prior) = l.prior * P dl s + r.prior * P dr s) :
    PInv ok fits P kind full n h0 (collapse h id il ir m) := by
  have hT := I.tree
  have hs := hT.shape
  have hlm := Dict.lookup_mem S.left
  have hrm := Dict.lookup_mem S.right
  have hpl := I.pos _ hlm
  have hpr := I.pos _ hrm
  obtain ⟨hn1, hn2⟩ := collapse_lengths (m := m) S hs
  refine ⟨collapse_ok L hT S hp hpath hpl hpr hprior hlen hok hmix, ?_, ?_, ?_, ?_, ?_, ?_, ?_, ?_⟩
  · intro k x hk
    rw [collapse_inner] at hk
    split_ifs at hk with hki
    obtain ⟨x', h1, rfl⟩ := Option.map_eq_some_iff.1 hk
    have := I.binary k x' h1
    simpa [Inner.swap] using this
  · have h1 : (collapse h id il ir m).inner.map Prod.fst
        = (h.inner.filter (fun a => decide (a.1 ≠ id))).map Prod.fst := by
      unfold collapse
      simp only [List.map_map]
      rfl
    unfold Sorted
    rw [h1]
    exact I.sorted.sublist (List.filter_sublist.map _)
  · intro e he
    rcases mem_collapse he with he | rfl
    · exact I.pos e he
    · show 0 < m.prior
      have : 0 < l.prior := hpl
      have : 0 < r.prior := hpr
      linarith
  · rw [collapse_sum S hs (fun x => x.prior) hprior, I.priors]
  · rw [collapse_sum S hs (fun x => x.samples) hsamp, I.samples]
  · have := I.fewer
    omega
  · have := I.less
    omega
  · intro v Q hv hQ
    rw [← I.marginal v Q hv hQ]
    unfold mass
    refine collapse_sum S hs (fun x => x.prior * leafProb P x [(v, Q)]) ?_
    obtain ⟨dl, -, e1⟩ := dist_of (hT.dists _ hlm).1 hv
    obtain ⟨dr, -, e2⟩ := dist_of (hT.dists _ hrm).1 hv
    obtain ⟨d, -, e3⟩ := dist_of hlen hv
    have := hmix v d dl dr e3 e1 e2 Q hQ
    have f1 : l.dists[v]? = some dl := e1
    have f2 : r.dists[v]? = some dr := e2
    unfold leafProb
    simp only [List.map_cons, List.map_nil, List.prod_cons, List.prod_nil, mul_one, f1, f2, e3]
    rw [hprior]
    linarith

/-- The two leaves differ too much to be merged. -/
def Differ (o : DistOps D E) (n : ℕ) (θ : ℚ) (v : ℕ) (l r : Leaf D) : Prop :=
  ∃ s, leafSim o n v l r = .ok s ∧ differ θ s = true

theorem leafSim_ok (hsim : ∀ k d e, ok k d → ok k e → ∃ x, o.similarity d e = .ok x)
    (hl : l.dists.length = n ∧ ∀ (v : ℕ) (d : D), l.dists[v]? = some d → ok (kind v) d)
    (hr : r.dists.length = n ∧ ∀ (v : ℕ) (d : D), r.dists[v]? = some d → ok (kind v) d) (v : ℕ) :
    ∃ s, leafSim o n v l r = .ok s := by
  obtain ⟨ss, h1, -⟩ := mapM_forall (f := simAt o l r) (R := fun _ _ => True)
    (l := (List.range n).filter (fun u => decide (u ≠ v))) (by
      intro u hu
      have hu' := List.mem_range.1 (List.mem_filter.1 hu).1
      obtain ⟨d, e1, e2⟩ := dist_of hl.1 hu'
      obtain ⟨e, e3, e4⟩ := dist_of hr.1 hu'
      obtain ⟨x, hx⟩ := hsim (kind u) d e (hl.2 u d e2) (hr.2 u e e4)
      refine ⟨x, ?_, trivial⟩
      unfold simAt
      rw [e1, e3]
      exact hx)
  refine ⟨meanSim ss, ?_⟩
  · unfold leafSim
    rw [h1]
    rfl

/-- Two similar leaves have been merged. -/
def MergeStep (o : DistOps D E) (ok : K → D → Prop) (fits : K → Region → Prop) (P : D → Region → ℚ) (kind : ℕ → K)
    (n : ℕ) (θ : ℚ) (h h' : Heap D) : Prop :=
  ∃ id il ir nd l r m s, Siblings h id il ir nd l r ∧ leafSim o n nd.var l r = .ok s ∧ differ θ s = false ∧
    h' = collapse h id il ir m ∧ m.prior = l.prior + r.prior ∧ m.dists.length = n ∧
    (∀ (v : ℕ) (d : D), m.dists[v]? = some d → ok (kind v) d) ∧
    (∀ (v : ℕ) (d dl dr : D), m.dists[v]? = some d → l.dists[v]? = some dl → r.dists[v]? = some dr →
        ∀ s, fits (kind v) s → P d s * (l.prior + r.prior) = l.prior * P dl s + r.prior * P dr s)

/-- One round. -/
theorem pruneStep_spec (L : Laws o ok fits P) (hsim : ∀ k d e, ok k d → ok k e → ∃ x, o.similarity d e = .ok x)
    (θ : ℚ) {h0 : Heap D} (I : PInv ok fits P kind full n h0 h) (id : ℕ) :
    ∃ h' q, pruneStep o n θ h id = .ok (h', q) ∧ PInv ok fits P kind full n h0 h' ∧
      h'.inner.length + q.length ≤ h.inner.length ∧
      (h' = h ∨ MergeStep o ok fits P kind n θ h h') ∧
      ∀ k il ir nd l r, Siblings h' k il ir nd l r → k ∈ q ∨ Differ o n θ nd.var l r ∨
        (k ≠ id ∧ Siblings h k il ir nd l r) := by
  have hT := I.tree
  have hs := hT.shape
  unfold pruneStep
  cases hid : h.inner.lookup id with
  | none =>
    refine ⟨h, [], rfl, I, by simp, .inl rfl, ?_⟩
    intro k il ir nd l r S
    refine .inr (.inr ⟨?_, S⟩)
    rintro rfl
    rw [S.node] at hid
    cases hid
  | some nd =>
    have hlen := I.binary id nd hid
    obtain ⟨a, b, hab⟩ : ∃ a b, nd.children = [a, b] := by
      match hc : nd.children, hlen with
      | [a, b], _ => exact ⟨a, b, rfl⟩
    simp only [hab]
    cases ha : leafChild h a with
    | none =>
      refine ⟨h, [], rfl, I, by simp, .inl rfl, ?_⟩
      intro k il ir nd' l r S
      refine .inr (.inr ⟨?_, S⟩)
      rintro rfl
      have := S.node
      rw [hid] at this
      cases this
      have h1 := S.children
      rw [hab] at h1
      injection h1 with h1 _
      subst h1
      simp [leafChild, S.left] at ha
    | some x =>
      cases hb : leafChild h b with
      | none =>
        refine ⟨h, [], rfl, I, by simp, .inl rfl, ?_⟩
        intro k il ir nd' l r S
        refine .inr (.inr ⟨?_, S⟩)
        rintro rfl
        have := S.node
        rw [hid] at this
        cases this
        have h1 := S.children
        rw [hab] at h1
        injection h1 with _ h1
        injection h1 with h1 _
        subst h1
        simp [leafChild, S.right] at hb
      | some y =>
        obtain ⟨il, l⟩ := x
        obtain ⟨ir, r⟩ := y
        have S : Siblings h id il ir nd l r := by
          cases a with
          | none => cases ha
          | some a =>
            cases b with
            | none => cases hb
            | some b =>
              simp only [leafChild, Option.map_eq_some_iff, Prod.mk.injEq] at ha hb
              obtain ⟨l', h1, rfl, rfl⟩ := ha
              obtain ⟨r', h2, rfl, rfl⟩ := hb
              exact ⟨hid, hab, h1, h2⟩
        have hlm := Dict.lookup_mem S.left
        have hrm := Dict.lookup_mem S.right
        simp only
        unfold mergeStep
        obtain ⟨s, hsm⟩ := leafSim_ok hsim (hT.dists _ hlm) (hT.dists _ hrm) nd.var
        have hsm' : leafSim o n nd.var l r = .ok s := hsm
        rw [hsm']
        simp only [bind, Except.bind]
        by_cases hdif : differ θ s = true
        · rw [if_pos hdif]
          refine ⟨h, [], rfl, I, by simp, .inl rfl, ?_⟩
          intro k il' ir' nd' l' r' S'
          by_cases hk : k = id
          · subst hk
            have e1 := S'.node
            rw [S.node] at e1
            cases e1
            have e2 := S'.children
            rw [S.children] at e2
            simp only [List.cons.injEq, Option.some.injEq, and_true] at e2
            obtain ⟨rfl, rfl⟩ := e2
            have e3 := S'.left
            rw [S.left] at e3
            cases e3
            have e4 := S'.right
            rw [S.right] at e4
            cases e4
            exact .inr (.inl ⟨s, hsm', hdif⟩)
          · exact .inr (.inr ⟨hk, S'⟩)
        · rw [if_neg hdif]
          obtain ⟨m, m1, m2, m3, m4, m5, m6, m7, m8⟩ := merged_spec L (hT.dists _ hlm) (hT.dists _ hrm)
            (I.pos _ hlm) (I.pos _ hrm) nd
          have m1' : mergedLeaf o n nd l r = .ok m := m1
          rw [m1']
          simp only
          rw [replace_eq S hs m2 m3]
          refine ⟨_, _, rfl, ?_, ?_, .inr ?_, ?_⟩
          · exact I.merge L (m := { m with path := nd.path }) S m2 rfl m4 m5 m6 m7 m8
          · have := (collapse_lengths (m := { m with path := nd.path }) S hs).1
            have : nd.parent.toList.length ≤ 1 := by cases nd.parent <;> simp
            omega
          · exact ⟨id, il, ir, nd, l, r, { m with path := nd.path }, s, S, hsm', by simpa using hdif, rfl, m4, m6,
              m7, m8⟩
          · intro k il' ir' nd' l' r' S'
            have e1 := S'.node
            rw [collapse_inner] at e1
            split_ifs at e1 with hk
            obtain ⟨x, x1, rfl⟩ := Option.map_eq_some_iff.1 e1
            by_cases hc : some id ∈ x.children
            · left
              rw [(child_iff hs x1 S.idAt).1 hc]
              simp
            · right; right
              rw [swap_none hc] at S' ⊢
              refine ⟨hk, x1, S'.children, ?_, ?_⟩
              · have h1 := S'.left
                rw [collapse_leaf] at h1
                obtain ⟨-, s, -, h2⟩ := hs.kids k x 0 il' x1 (by rw [S'.children]; rfl)
                have h3 : il' ≠ h.newIdx := fun e => newIdx_not_mem (h := h) (e ▸ nodeAt_mem h2)
                rw [if_neg h3] at h1
                split_ifs at h1 with h4
                exact h1
              · have h1 := S'.right
                rw [collapse_leaf] at h1
                obtain ⟨-, s, -, h2⟩ := hs.kids k x 1 ir' x1 (by rw [S'.children]; rfl)
                have h3 : ir' ≠ h.newIdx := fun e => newIdx_not_mem (h := h) (e ▸ nodeAt_mem h2)
                rw [if_neg h3] at h1
                split_ifs at h1 with h4
                exact h1

/-- The loop. -/
theorem pruneLoop_spec (L : Laws o ok fits P) (hsim : ∀ k d e, ok k d → ok k e → ∃ x, o.similarity d e = .ok x)
    (θ : ℚ) {h0 : Heap D} (J : Heap D → Prop)
    (hJ : ∀ h h', PInv ok fits P kind full n h0 h → MergeStep o ok fits P kind n θ h h' → J h → J h') :
    ∀ (fuel : ℕ) (h : Heap D) (q : List ℕ), PInv ok fits P kind full n h0 h → J h →
    h.inner.length + q.length ≤ fuel →
    (∀ k il ir nd l r, Siblings h k il ir nd l r → k ∈ q ∨ Differ o n θ nd.var l r) →
    ∃ h', pruneLoop o n θ fuel h q = .ok h' ∧ PInv ok fits P kind full n h0 h' ∧ J h' ∧
      ∀ k il ir nd l r, Siblings h' k il ir nd l r → Differ o n θ nd.var l r := by
  intro fuel
  induction fuel with
  | zero =>
    intro h q I hj hf hd
    have hq : q = [] := List.length_eq_zero_iff.1 (by omega)
    subst hq
    exact ⟨h, rfl, I, hj, fun k il ir nd l r S => (hd k il ir nd l r S).resolve_left (by simp)⟩
  | succ fuel ih =>
    intro h q I hj hf hd
    cases q with
    | nil => exact ⟨h, rfl, I, hj, fun k il ir nd l r S => (hd k il ir nd l r S).resolve_left (by simp)⟩
    | cons id q =>
      obtain ⟨h', q', h1, h2, h3, hm, h4⟩ := pruneStep_spec L hsim θ I id
      have hj' : J h' := by
        rcases hm with rfl | hm
        · exact hj
        · exact hJ h h' I hm hj
      obtain ⟨h'', h5, h6⟩ := ih h' (q ++ q') h2 hj'
        (by
          rw [List.length_append]
          rw [List.length_cons] at hf
          omega)
        (by
          intro k il ir nd l r S
          rcases h4 k il ir nd l r S with h5 | h5 | ⟨h5, h6⟩
          · exact .inl (List.mem_append.2 (.inr h5))
          · exact .inr h5
          · rcases hd k il ir nd l r h6 with h7 | h7
            · rcases List.mem_cons.1 h7 with h7 | h7
              · exact absurd h7 h5
              · exact .inl (List.mem_append.2 (.inl h7))
            · exact .inr h7)
      refine ⟨h'', ?_, h6⟩
      unfold pruneLoop
      rw [h1]
      exact h5

theorem mem_mapM_some {l : List (Option ℚ)} {q : List ℚ} (h : l.mapM (fun x => x) = some q) :
    l = q.map some := by
  induction l generalizing q with
  | nil => cases h; rfl
  | cons a l ih =>
    rw [List.mapM_cons] at h
    cases a with
    | none => cases h
    | some a =>
      cases hl : l.mapM (fun x => x) with
      | none => rw [hl] at h; cases h
      | some q' =>
        rw [hl] at h
        cases h
        rw [List.map_cons, ih hl]

theorem all_one : ∀ {q : List ℚ}, (∀ x ∈ q, x ≤ 1) → (q.length : ℚ) ≤ q.sum → ∀ x ∈ q, x = 1
  | [], _, _ => by simp
  | a :: q, h1, h2 => by
    have ha := h1 a (by simp)
    have hq : ∀ x ∈ q, x ≤ 1 := fun x hx => h1 x (by simp [hx])
    have hsum : q.sum ≤ (q.length : ℚ) := by
      clear h1 h2
      induction q with
      | nil => simp
      | cons b q ih =>
        rw [List.sum_cons, List.length_cons]
        have := ih (fun x hx => hq x (by simp [hx]))
        have := hq b (by simp)
        push_cast
        linarith
    rw [List.sum_cons, List.length_cons] at h2
    push_cast at h2
    intro x hx
    rcases List.mem_cons.1 hx with rfl | hx
    · linarith
    · exact all_one hq (by linarith) x hx

theorem forall₂_left {α β : Type} {R : α → β → Prop} {l : List α} {k : List β} (h : List.Forall₂ R l k) {a : α}
    (ha : a ∈ l) : ∃ b ∈ k, R a b := by
  induction h with
  | nil => cases ha
  | cons hr _ ih =>
    rcases List.mem_cons.1 ha with rfl | ha
    · exact ⟨_, List.mem_cons_self, hr⟩
    · obtain ⟨b, hb, hab⟩ := ih ha
      exact ⟨b, List.mem_cons_of_mem _ hb, hab⟩

/-- Leaves that count as similar for the threshold 1 agree in all other variables. -/
theorem similar_same (hsame : ∀ k d e x, ok k d → ok k e → o.similarity d e = .ok (some x) →
      x ≤ 1 ∧ (x = 1 → ∀ s, fits k s → P d s = P e s))
    (hl : l.dists.length = n ∧ ∀ (v : ℕ) (d : D), l.dists[v]? = some d → ok (kind v) d)
    (hr : r.dists.length = n ∧ ∀ (v : ℕ) (d : D), r.dists[v]? = some d → ok (kind v) d)
    {v : ℕ} {s : Option ℚ} {θ : ℚ} (hs : leafSim o n v l r = .ok s) (hd : differ θ s = false) (hθ : 1 ≤ θ)
    {u : ℕ} (huv : u ≠ v) {d e : D} (h1 : l.dists[u]? = some d) (h2 : r.dists[u]? = some e)
    {R : Region} (hR : fits (kind u) R) : P d R = P e R := by
  cases s with
  | none => cases hd
  | some s =>
    have hge : θ ≤ s := by simpa [differ] using hd
    unfold leafSim at hs
    cases hss : ((List.range n).filter (fun u => decide (u ≠ v))).mapM (simAt o l r) with
    | error err => rw [hss] at hs; cases hs
    | ok ss =>
      rw [hss] at hs
      simp only [bind, Except.bind, pure, Except.pure, Except.ok.injEq] at hs
      unfold meanSim at hs
      split_ifs at hs with hnil
      obtain ⟨q, hq, hqs⟩ := Option.map_eq_some_iff.1 hs
      have hss' := mem_mapM_some hq
      have hlen : ss.length = q.length := by rw [hss', List.length_map]
      have hf2 : List.Forall₂ (fun u x => simAt o l r u = .ok x)
          ((List.range n).filter (fun u => decide (u ≠ v))) ss := by
        clear hs hqs hq hss' hlen hnil hge
        generalize (List.range n).filter (fun u => decide (u ≠ v)) = us at hss
        induction us generalizing ss with
        | nil => cases hss; exact .nil
        | cons a us ih =>
          rw [List.mapM_cons] at hss
          cases ha : simAt o l r a with
          | error err => rw [ha] at hss; cases hss
          | ok x =>
            rw [ha] at hss
            cases hus : us.mapM (simAt o l r) with
            | error err => rw [hus] at hss; cases hss
            | ok xs =>
              rw [hus] at hss
              cases hss
              exact .cons ha (ih xs hus)
      have hval : ∀ w x, simAt o l r w = .ok (some x) → x ≤ 1 := by
        intro w x hw
        unfold simAt at hw
        cases hdl : l.dist w with
        | error err => rw [hdl] at hw; cases hw
        | ok dl =>
          cases hdr : r.dist w with
          | error err => rw [hdl, hdr] at hw; cases hw
          | ok dr =>
            rw [hdl, hdr] at hw
            have e1 : l.dists[w]? = some dl := by
              unfold Leaf.dist at hdl
              cases hx : l.dists[w]? with
              | none => rw [hx] at hdl; cases hdl
              | some y => rw [hx] at hdl; cases hdl; rfl
            have e2 : r.dists[w]? = some dr := by
              unfold Leaf.dist at hdr
              cases hx : r.dists[w]? with
              | none => rw [hx] at hdr; cases hdr
              | some y => rw [hx] at hdr; cases hdr; rfl
            exact (hsame (kind w) dl dr x (hl.2 w dl e1) (hr.2 w dr e2) hw).1
      have hle : ∀ x ∈ q, x ≤ 1 := by
        intro x hx
        have hxs : some x ∈ ss := by rw [hss']; exact List.mem_map_of_mem hx
        obtain ⟨w, -, hw⟩ := forall₂_mem_right hf2 hxs
        exact hval w x hw
      have hpos : (0 : ℚ) < (ss.length : ℚ) := by
        have : 0 < ss.length := List.length_pos_iff.2 hnil
        exact_mod_cast this
      have hone := all_one hle (by
        rw [← hlen]
        have h3 : q.sum = s * (ss.length : ℚ) := by rw [← hqs, div_mul_cancel₀ _ hpos.ne']
        rw [h3]
        have : 1 ≤ s := le_trans hθ hge
        nlinarith)
      have hun : u < n := by
        rw [← hl.1]
        by_contra hc
        rw [List.getElem?_eq_none (by omega)] at h1
        cases h1
      have hmem : u ∈ (List.range n).filter (fun u => decide (u ≠ v)) := by
        rw [List.mem_filter]
        exact ⟨List.mem_range.2 hun, by simpa using huv⟩
      obtain ⟨y, hy, hyu⟩ := forall₂_left hf2 hmem
      rw [hss'] at hy
      obtain ⟨x, hx, rfl⟩ := List.mem_map.1 hy
      have hx1 := hone x hx
      subst hx1
      unfold simAt Leaf.dist at hyu
      rw [h1, h2] at hyu
      exact (hsame (kind u) d e 1 (hl.2 u d h1) (hr.2 u e h2) hyu).2 rfl R hR

/-- A merge at the threshold 1 keeps all probabilities. -/
theorem merge_lossless (hsame : ∀ k d e x, ok k d → ok k e → o.similarity d e = .ok (some x) →
      x ≤ 1 ∧ (x = 1 → ∀ s, fits k s → P d s = P e s)) {θ : ℚ} (hθ : 1 ≤ θ)
    {h' : Heap D} (hT : TreeOK ok fits P kind full n h) (hpos : ∀ e ∈ h.leaves, 0 < e.2.prior)
    (hm : MergeStep o ok fits P kind n θ h h') {q : Query}
    (hq : QueryOK fits kind n q) : mass P h' q = mass P h q := by
  obtain ⟨id, il, ir, nd, l, r, m, s, S, hs, hd, rfl, hprior, hlen, hok, hmix⟩ := hm
  have hlm := Dict.lookup_mem S.left
  have hrm := Dict.lookup_mem S.right
  have hpl : 0 < l.prior := hpos _ hlm
  have hpr : 0 < r.prior := hpos _ hrm
  have hne : l.prior + r.prior ≠ 0 := by linarith
  unfold mass
  refine collapse_sum S hT.shape (fun x => x.prior * leafProb P x q) ?_
  show m.prior * leafProb P m q = l.prior * leafProb P l q + r.prior * leafProb P r q
  rw [hprior]
  have key : ∀ (q : Query), (q.map Prod.fst).Nodup → (∀ i ∈ q, i.1 < n ∧ fits (kind i.1) i.2 ∧ i.2.OK) →
      (nd.var ∉ q.map Prod.fst → leafProb P m q = leafProb P l q ∧ leafProb P m q = leafProb P r q) ∧
      (l.prior + r.prior) * leafProb P m q = l.prior * leafProb P l q + r.prior * leafProb P r q := by
    intro q
    induction q with
    | nil =>
      intro _ _
      refine ⟨fun _ => ⟨rfl, rfl⟩, ?_⟩
      unfold leafProb
      simp
    | cons i q ih =>
      intro hn hq
      rw [List.map_cons, List.nodup_cons] at hn
      obtain ⟨ih1, ih2⟩ := ih hn.2 (fun j hj => hq j (by simp [hj]))
      obtain ⟨hi, hf, -⟩ := hq i (by simp)
      obtain ⟨dl, -, e1⟩ := dist_of (hT.dists _ hlm).1 hi
      obtain ⟨dr, -, e2⟩ := dist_of (hT.dists _ hrm).1 hi
      obtain ⟨d, -, e3⟩ := dist_of hlen hi
      have f1 : l.dists[i.1]? = some dl := e1
      have f2 : r.dists[i.1]? = some dr := e2
      have hmx := hmix i.1 d dl dr e3 e1 e2 i.2 hf
      have c1 : leafProb P m (i :: q) = P d i.2 * leafProb P m q := by
        unfold leafProb; simp only [List.map_cons, List.prod_cons, e3]
      have c2 : leafProb P l (i :: q) = P dl i.2 * leafProb P l q := by
        unfold leafProb; simp only [List.map_cons, List.prod_cons, f1]
      have c3 : leafProb P r (i :: q) = P dr i.2 * leafProb P r q := by
        unfold leafProb; simp only [List.map_cons, List.prod_cons, f2]
      rw [c1, c2, c3]
      by_cases hv : i.1 = nd.var
      · have hnv : nd.var ∉ q.map Prod.fst := by rw [← hv]; exact hn.1
        obtain ⟨g1, g2⟩ := ih1 hnv
        refine ⟨fun hc => absurd (by rw [List.map_cons, hv]; exact List.mem_cons_self) hc, ?_⟩
        rw [← g1, ← g2]
        calc (l.prior + r.prior) * (P d i.2 * leafProb P m q)
            = (P d i.2 * (l.prior + r.prior)) * leafProb P m q := by ring
          _ = _ := by rw [hmx]; ring
      · have hsm := similar_same hsame (hT.dists _ hlm) (hT.dists _ hrm) hs hd hθ hv e1 e2 hf
        have hd1 : P d i.2 = P dl i.2 := by
          rw [← hsm, ← add_mul, mul_comm] at hmx
          exact mul_left_cancel₀ hne hmx
        rw [← hsm, hd1]
        refine ⟨?_, ?_⟩
        · intro hc
          rw [List.map_cons, List.mem_cons] at hc
          push Not at hc
          obtain ⟨g1, g2⟩ := ih1 hc.2
          exact ⟨by rw [g1], by rw [g2]⟩
        · calc (l.prior + r.prior) * (P dl i.2 * leafProb P m q)
              = P dl i.2 * ((l.prior + r.prior) * leafProb P m q) := by ring
            _ = _ := by rw [ih2]; ring
  exact (key q hq.1 hq.2).2

end Verif.Trees
