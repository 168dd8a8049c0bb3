import Verif.Seq.Lemmas4

/-!
# The fitted template is a tree in the sense of the query theorems
-/

namespace Verif.Seq

open Trees Learn

variable {D K : Type} {ok : K → D → Prop} {fits : K → Region → Prop}
  {P : D → Region → ℚ} {kind kind' : ℕ → K} {full full' : ℕ → Region} {n N : ℕ} {h : Heap D}

/-- A tree with the first `n` variables only. -/
def keepHeap (n : ℕ) (h : Heap D) : Heap D :=
  ⟨h.inner, h.leaves.map (fun e => (e.1, keepLeaf n e.2)), h.root⟩

theorem keep_lookup (n k : ℕ) (ls : List (ℕ × Leaf D)) :
    (ls.map (fun e => (e.1, keepLeaf n e.2))).lookup k = (ls.lookup k).map (keepLeaf n) := by
  induction ls with
  | nil => rfl
  | cons a ls ih =>
    obtain ⟨i, l⟩ := a
    rw [List.map_cons, List.lookup_cons, List.lookup_cons, ih]
    cases hk : (k == i) <;> rfl

theorem keep_nodeAt (n : ℕ) {j : ℕ} {p : Option ℕ} {path : Path} :
    NodeAt (keepHeap n h) j p path ↔ NodeAt h j p path := by
  unfold NodeAt keepHeap
  simp only [keep_lookup]
  refine or_congr Iff.rfl ?_
  constructor
  · rintro ⟨l, h1, h2, h3⟩
    obtain ⟨l', h4, rfl⟩ := Option.map_eq_some_iff.1 h1
    exact ⟨l', h4, h2, h3⟩
  · rintro ⟨l, h1, h2, h3⟩
    exact ⟨keepLeaf n l, by rw [h1]; rfl, h2, h3⟩

theorem keep_shape (n : ℕ) (hs : Shape h) : Shape (keepHeap n h) where
  nodup := by
    have := hs.nodup
    unfold keepHeap
    simpa [Function.comp_def] using this
  arity := hs.arity
  kids := by
    intro k nd i j h1 h2
    obtain ⟨h3, s, h4, h5⟩ := hs.kids k nd i j h1 h2
    exact ⟨h3, s, h4, (keep_nodeAt n).2 h5⟩
  parents := fun j path hj => hs.parents j path ((keep_nodeAt n).1 hj)
  parents' := fun j k path hj => hs.parents' j k path ((keep_nodeAt n).1 hj)
  once := hs.once
  root := fun r hr => (keep_nodeAt n).2 (hs.root r hr)

theorem pathMap_congr {path : Path} (hf : ∀ s ∈ path, full s.1 = full' s.1) :
    pathMap full path = pathMap full' path := by
  induction path using List.reverseRecOn with
  | nil => rfl
  | append_singleton l r ih =>
    rw [pathMap_snoc, pathMap_snoc, ih (fun s hs => hf s (by simp [hs])), hf r (by simp)]

theorem keep_tree (hT : TreeOK ok fits P kind' full' N h) (hn : n ≤ N) (hk : ∀ v, v < n → kind' v = kind v)
    (hf : ∀ v, v < n → full' v = full v) (hpath : ∀ e ∈ h.leaves, ∀ s ∈ e.2.path, s.1 < n) :
    TreeOK ok fits P kind full n (keepHeap n h) where
  shape := keep_shape n hT.shape
  noNone := hT.noNone
  fitted := hT.fitted
  dists := by
    intro e he
    obtain ⟨e', he', rfl⟩ := List.mem_map.1 he
    obtain ⟨h1, h2⟩ := hT.dists e' he'
    refine ⟨?_, ?_⟩
    · show (e'.2.dists.take n).length = n
      rw [List.length_take, h1]
      omega
    · intro v d hd
      change (e'.2.dists.take n)[v]? = some d at hd
      rw [List.getElem?_take] at hd
      split_ifs at hd with hv
      rw [← hk v hv]
      exact h2 v d hd
  prior := by
    intro e he
    obtain ⟨e', he', rfl⟩ := List.mem_map.1 he
    exact hT.prior e' he'
  path := by
    intro e he s hs
    obtain ⟨e', he', rfl⟩ := List.mem_map.1 he
    have h1 := hpath e' he' s hs
    obtain ⟨-, h2, h3⟩ := hT.path e' he' s hs
    rw [hk _ h1] at h2
    exact ⟨h1, h2, h3⟩
  values := by
    intro v hv
    have := hT.values v (by omega)
    rw [hk v hv, hf v hv] at this
    exact this
  support := by
    intro e he v d R hR hd
    obtain ⟨e', he', rfl⟩ := List.mem_map.1 he
    change (e'.2.dists.take n)[v]? = some d at hd
    rw [List.getElem?_take] at hd
    split_ifs at hd with hv
    refine hT.support e' he' v d R ?_ hd
    rw [← hR]
    congr 1
    exact pathMap_congr (fun s hs => hf _ (hpath e' he' s hs))

theorem adopt_fresh {old new : Heap D} (hold : old.leaves = []) (hnd : (new.leaves.map Prod.fst).Nodup) :
    adopt n old new = keepHeap n new := by
  unfold adopt keepHeap
  rw [hold, update_disjoint (keepLeaf_wf hnd) (by simp), List.nil_append]

/-! ## Symbolic and integer variables -/

variable {L : Type} [DecidableEq L]

/-- The domains of the expanded variables: copies have the domain of their original. -/
def expandedKind (a : Args) (w : ℕ) (kind : ℕ → Bool × Disc.Dom L) (i : ℕ) : Bool × Disc.Dom L :=
  kind ((dataIndices a w).getD i 0 % a.vars.length)

omit [DecidableEq L] in
theorem expandedKind_eq (a : Args) (w : ℕ) (kind : ℕ → Bool × Disc.Dom L) {v : ℕ} (hv : v < a.vars.length) :
    expandedKind a w kind v = kind v := by
  unfold expandedKind dataIndices
  rw [List.getD_eq_getElem?_getD, List.getElem?_append_left (by simpa using hv),
    List.getElem?_eq_getElem (by simpa using hv), List.getElem_range, Option.getD_some, Nat.mod_eq_of_lt hv]

omit [DecidableEq L] in
theorem expanded_discrete {a : Args} {w total : ℕ} {kind : ℕ → Bool × Disc.Dom L}
    (hk : Discrete (a.cfg 0) kind) : Discrete ((expanded a w).cfg total) (expandedKind a w kind) := by
  intro v hv
  have hv' : v < (expanded a w).vars.length := hv
  have hvars : ((expanded a w).cfg total).vars = (expanded a w).vars := rfl
  rw [expanded_vars, List.length_map] at hv'
  have hpos : 0 < a.vars.length := by
    rcases Nat.eq_zero_or_pos a.vars.length with h0 | h0
    · exfalso
      have h2 : (dataIndices a w).length = 0 := by
        have := expanded_length a w
        rw [expanded_vars, List.length_map] at this
        rw [this, h0]
        have h3 : targetIndices a = [] := by
          unfold targetIndices
          rw [h0]
          rfl
        rw [h3]
        rfl
      omega
    · exact h0
  have hlt : (dataIndices a w)[v] % a.vars.length < a.vars.length := Nat.mod_lt _ hpos
  have hget : (expanded a w).vars[v]? = a.vars[(dataIndices a w)[v] % a.vars.length]? := by
    rw [expanded_vars, List.getElem?_map, List.getElem?_eq_getElem hv', Option.map_some,
      List.getD_eq_getElem?_getD, List.getElem?_eq_getElem hlt]
    rfl
  have hkind : expandedKind a w kind v = kind ((dataIndices a w)[v] % a.vars.length) := by
    unfold expandedKind
    rw [List.getD_eq_getElem?_getD, List.getElem?_eq_getElem hv']
    rfl
  unfold Trees.DiscreteAt
  rw [hvars, hget, hkind]
  exact hk _ hlt

/-- After fitting a new template over symbolic and integer variables, it is a proper tree with its leaves
in the order of their numbers. -/
theorem fit_tree {a : Args} {w : ℕ} {ss : List Sequence} {kind : ℕ → Bool × Disc.Dom L}
    (hk : Discrete (a.cfg 0) kind) (old : Heap (DD L)) (hw : 1 ≤ w) (h0 : ss ≠ [])
    (hlen : ∀ s ∈ ss, w ≤ s.length ∧ 2 ≤ s.length) (hfit : ∀ s ∈ ss, ∀ x ∈ s, Fits a.vars x)
    (hold : old.leaves = []) :
    ∃ h m, fit a (fullOf (a.cfg 0)) (fitDisc (expandedKind a w kind)) old w ss = .ok (h, m) ∧
      TreeOK discOk discFits discP kind (fullOf (a.cfg 0)) a.vars.length h ∧ Binary h ∧ Sorted h ∧
      (h.leaves.map (fun l => l.2.prior)).sum = 1 ∧ (h.leaves.map Prod.fst).Pairwise (· < ·) := by
  obtain ⟨new, h1, -, -, hnd, m, -, hf⟩ := fit_eq (fitDisc (expandedKind a w kind)) old hw h0 hlen hfit
    (by rw [hold]; exact List.nodup_nil)
  rw [adopt_fresh hold hnd] at hf
  have hdata := rowsOf_ok hw hfit (rowsOf a w ss).length
  have hT := learned_ok (expanded_discrete hk) hdata h1
  obtain ⟨hb, hs⟩ := learned_binary hdata h1
  have hlen' : ((expanded a w).cfg (rowsOf a w ss).length).vars.length
      = a.vars.length + (w - 1) * (targetIndices a).length := expanded_length a w
  have hpos := rowsOf_ne (a := a) h0 (fun s hs => (hlen s hs).1)
  obtain ⟨new', h2, -, -, -, h6⟩ := C40_partition ((expanded a w).cfg (rowsOf a w ss).length)
    (tableData (rowsOf a w ss)) (rowsOf a w ss).length
    (fitDisc (expandedKind a w kind) (tableData (rowsOf a w ss))) hdata hpos
  rw [h1] at h2
  cases h2
  refine ⟨_, m, hf, ?_, hb, hs, ?_, ?_⟩
  · apply keep_tree hT
    · omega
    · intro v hv
      exact expandedKind_eq a w kind hv
    · intro v hv
      unfold fullOf
      have h3 : ((expanded a w).cfg (rowsOf a w ss).length).vars[v]? = a.vars[v]? := expanded_var hv
      have h4 : (a.cfg 0).vars[v]? = a.vars[v]? := rfl
      rw [h3, h4]
    · intro e he s hs
      have := (C69_only_features _ _ _ _ h1).2 e.1 e.2 (Dict.mem_lookup hnd he) s hs
      exact expanded_features this.1 this.2
  · rw [← h6]
    unfold keepHeap
    rw [List.map_map]
    rfl
  · have := learn_sorted h1
    unfold keepHeap
    rw [List.map_map]
    exact this

end Verif.Seq
