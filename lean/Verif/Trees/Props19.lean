import Verif.Trees.Size
import Verif.Trees.Props18

/-!
# C95: size statistics of trees
-/

namespace Verif.Trees

open Learn (Cfg Data learn DataOK NodeAt Shape exists_ok)

variable {D : Type}

/-! ## Specification -/

/-- A node is reached from the root in `n` steps to a child. -/
inductive Steps (h : Heap D) : ℕ → ℕ → Prop
  | root (r : ℕ) : h.root = some r → Steps h r 0
  | child (k j n : ℕ) (nd : Inner) : Steps h k n → h.inner.lookup k = some nd → some j ∈ nd.children → Steps h j (n + 1)

/-! ## Lemmas -/

theorem node_same {h : Heap D} (hs : Shape h) {j : ℕ} {p p' : Option ℕ} {q q' : Path} (h1 : NodeAt h j p q)
    (h2 : NodeAt h j p' q') : p = p' ∧ q = q' := by
  have hno : ∀ a b, h.inner.lookup j = some a → h.leaves.lookup j = some b → False := by
    intro a b ha hb
    have := (List.nodup_append.1 hs.nodup).2.2
    exact this j (Dict.lookup_isSome.1 ⟨a, ha⟩) j (Dict.lookup_isSome.1 ⟨b, hb⟩) rfl
  rcases h1 with ⟨a, ha, rfl, rfl⟩ | ⟨a, ha, rfl, rfl⟩ <;> rcases h2 with ⟨b, hb, rfl, rfl⟩ | ⟨b, hb, rfl, rfl⟩
  · rw [ha] at hb
    cases hb
    exact ⟨rfl, rfl⟩
  · exact (hno _ _ ha hb).elim
  · exact (hno _ _ hb ha).elim
  · rw [ha] at hb
    cases hb
    exact ⟨rfl, rfl⟩

theorem steps_path {h : Heap D} (hs : Shape h) {j n : ℕ} (hst : Steps h j n) :
    ∃ p path, NodeAt h j p path ∧ path.length = n := by
  induction hst with
  | root r hr => exact ⟨none, [], hs.root r hr, rfl⟩
  | child k j n nd _ hk hj ih =>
    obtain ⟨p, path, h1, h2⟩ := ih
    obtain ⟨i, hi, hget⟩ := List.getElem_of_mem hj
    obtain ⟨-, s, -, h3⟩ := hs.kids k nd i j hk (by rw [List.getElem?_eq_getElem hi, hget])
    have := (node_same hs h1 (.inl ⟨nd, hk, rfl, rfl⟩)).2
    refine ⟨_, _, h3, ?_⟩
    rw [List.length_append, ← this, h2]
    rfl

theorem steps_exist {h : Heap D} (hs : Shape h) : ∀ (b j : ℕ), j < b → ∀ p path, NodeAt h j p path → ∃ n, Steps h j n
  | 0, _, hj => by omega
  | b + 1, j, hj => by
    intro p path hn
    cases p with
    | none => exact ⟨0, .root j (hs.parents j path hn).1⟩
    | some k =>
      obtain ⟨nd, i, h1, h2⟩ := hs.parents' j k path hn
      have hlt := (hs.kids k nd i j h1 h2).1
      obtain ⟨n, h3⟩ := steps_exist hs b k (by omega) _ _ (.inl ⟨nd, h1, rfl, rfl⟩)
      exact ⟨n + 1, .child k j n nd h3 h1 (List.mem_of_getElem? h2)⟩

theorem foldl_max (ds : List ℕ) : ∀ d : ℕ, (ds.foldl max d = d ∨ ds.foldl max d ∈ ds) ∧ d ≤ ds.foldl max d ∧
    ∀ x ∈ ds, x ≤ ds.foldl max d := by
  induction ds with
  | nil => simp
  | cons a t ih =>
    intro d
    rw [List.foldl_cons]
    obtain ⟨h1, h2, h3⟩ := ih (max d a)
    refine ⟨?_, by omega, ?_⟩
    · rcases h1 with h1 | h1
      · rw [h1]
        rcases le_total d a with h | h
        · rw [max_eq_right h]
          exact .inr (by simp)
        · rw [max_eq_left h]
          exact .inl rfl
      · exact .inr (by simp [h1])
    · intro x hx
      rcases List.mem_cons.1 hx with rfl | hx
      · omega
      · exact h3 x hx

theorem kids_perm {h : Heap D} (hs : Shape h) (hfull : Full h) {r : ℕ} (hr : h.root = some r) :
    (r :: h.inner.flatMap (fun e => e.2.children.filterMap id)).Perm
      (h.inner.map Prod.fst ++ h.leaves.map Prod.fst) := by
  have hwf : Dict.WF h.inner := (List.nodup_append.1 hs.nodup).1
  have hwf' : Dict.WF h.leaves := (List.nodup_append.1 hs.nodup).2.1
  have hin : ∀ {e}, e ∈ h.inner → h.inner.lookup e.1 = some e.2 := fun he => Dict.mem_lookup hwf he
  have hkid : ∀ e ∈ h.inner, ∀ j ∈ e.2.children.filterMap id, ∃ path, NodeAt h j (some e.1) path := by
    intro e he j hj
    obtain ⟨x, hx, hxj⟩ := List.mem_filterMap.1 hj
    obtain rfl : x = some j := hxj
    obtain ⟨i, hi, hget⟩ := List.getElem_of_mem hx
    obtain ⟨-, s, -, h3⟩ := hs.kids e.1 e.2 i j (hin he) (by rw [List.getElem?_eq_getElem hi, hget])
    exact ⟨_, h3⟩
  refine (List.perm_ext_iff_of_nodup ?_ hs.nodup).2 ?_
  · rw [List.nodup_cons, List.nodup_flatMap]
    refine ⟨?_, ?_, ?_⟩
    · intro hm
      obtain ⟨e, he, hj⟩ := List.mem_flatMap.1 hm
      obtain ⟨path, hp⟩ := hkid e he r hj
      cases (node_same hs hp (hs.root r hr)).1
    · intro e he
      refine List.Nodup.filterMap (fun a a' b h1 h2 => by
        obtain rfl : a = some b := h1
        obtain rfl : a' = some b := h2
        rfl) ?_
      rw [List.Nodup, List.pairwise_iff_getElem]
      intro i j hi hj hij heq
      cases hx : e.2.children[i] with
      | none => exact hfull _ _ (hin he) (by rw [← hx]; exact List.getElem_mem hi)
      | some c =>
        have := hs.once e.1 e.2 i j c (hin he) (by rw [List.getElem?_eq_getElem hi, hx])
          (by rw [List.getElem?_eq_getElem hj, ← heq, hx])
        omega
    · refine List.Pairwise.imp_of_mem ?_ (List.pairwise_map.1 hwf)
      intro a b ha hb hab
      rw [Function.onFun, List.disjoint_left]
      intro j h1 h2
      obtain ⟨p1, h3⟩ := hkid a ha j h1
      obtain ⟨p2, h4⟩ := hkid b hb j h2
      exact hab (Option.some.inj (node_same hs h3 h4).1)
  · intro j
    constructor
    · intro hj
      have hn : ∃ p path, NodeAt h j p path := by
        rcases List.mem_cons.1 hj with rfl | hj
        · exact ⟨_, _, hs.root j hr⟩
        · obtain ⟨e, he, hj⟩ := List.mem_flatMap.1 hj
          obtain ⟨path, hp⟩ := hkid e he j hj
          exact ⟨_, _, hp⟩
      obtain ⟨p, path, hn⟩ := hn
      rw [List.mem_append]
      rcases hn with ⟨n, h1, -⟩ | ⟨n, h1, -⟩
      · exact .inl (Dict.lookup_isSome.1 ⟨n, h1⟩)
      · exact .inr (Dict.lookup_isSome.1 ⟨n, h1⟩)
    · intro hj
      have hn : ∃ p path, NodeAt h j p path := by
        rcases List.mem_append.1 hj with hj | hj
        · obtain ⟨n, hn⟩ := Dict.lookup_isSome.2 hj
          exact ⟨_, _, .inl ⟨n, hn, rfl, rfl⟩⟩
        · obtain ⟨n, hn⟩ := Dict.lookup_isSome.2 hj
          exact ⟨_, _, .inr ⟨n, hn, rfl, rfl⟩⟩
      obtain ⟨p, path, hn⟩ := hn
      cases p with
      | none =>
        have := (hs.parents j path hn).1
        rw [hr] at this
        simp [Option.some.inj this]
      | some k =>
        obtain ⟨nd, i, h1, h2⟩ := hs.parents' j k path hn
        exact List.mem_cons_of_mem _ (List.mem_flatMap.2 ⟨(k, nd), Dict.lookup_mem h1,
          List.mem_filterMap.2 ⟨some j, List.mem_of_getElem? h2, rfl⟩⟩)

theorem filterMap_id_length {l : List (Option ℕ)} (h : none ∉ l) : (l.filterMap id).length = l.length := by
  induction l with
  | nil => rfl
  | cons a t ih =>
    cases a with
    | none => simp at h
    | some x =>
      simp only [List.mem_cons, reduceCtorEq, false_or] at h
      exact congrArg (· + 1) (ih h)

/-! ## C95 -/

section

variable (c : Cfg) (data : Data) (total : ℕ) (fit : List ℕ → ℕ → D) (hdata : DataOK c data total) {h : Heap D}
  (hl : learn c data total fit = .ok h)

include hdata hl in
/-- A learned tree represents all training rows. -/
theorem C95_total_samples : totalSamples h = total := by
  obtain ⟨idx, hI⟩ := Learn.learn_inv hdata hl
  have h1 := hI.rows.length_eq
  simp only [List.flatMap_nil, List.append_nil, List.length_range, List.length_flatMap] at h1
  rw [← h1]
  unfold totalSamples
  congr 1
  apply List.map_congr_left
  intro l hle
  exact (hI.leaf l hle).samples

/-- A tree without leaves (one that was not learned) has no depth: `ValueError`. -/
theorem C95_no_leaves (h : Heap D) : treeDepth h = .error .valueError ↔ h.leaves = [] := by
  unfold treeDepth
  cases h.leaves with
  | nil => simp
  | cons a l => simp

include hdata hl in
/-- The depth of a learned tree is the greatest number of steps from the root to a leaf, and `max_depth` bounds it. -/
theorem C95_depth : ∃ d, treeDepth h = .ok d ∧ (∃ l ∈ h.leaves, Steps h l.1 d) ∧
    (∀ l ∈ h.leaves, ∀ n, Steps h l.1 n → n ≤ d) ∧ ∀ m, c.maxDepth = some m → d ≤ m := by
  obtain ⟨idx, hI⟩ := Learn.learn_inv hdata hl
  have hs := hI.shape
  have hwf' : Dict.WF h.leaves := (List.nodup_append.1 hs.nodup).2.1
  have hat : ∀ l ∈ h.leaves, NodeAt h l.1 l.2.parent l.2.path := fun l hle =>
    .inr ⟨l.2, Dict.mem_lookup hwf' hle, rfl, rfl⟩
  have hlen : ∀ l ∈ h.leaves, ∀ n, Steps h l.1 n → n = l.2.path.length := by
    intro l hle n hst
    obtain ⟨p, path, h1, h2⟩ := steps_path hs hst
    rw [← h2, (node_same hs h1 (hat l hle)).2]
  have hex : ∀ l ∈ h.leaves, Steps h l.1 l.2.path.length := by
    intro l hle
    obtain ⟨n, hst⟩ := steps_exist hs (l.1 + 1) l.1 (by omega) _ _ (hat l hle)
    rw [← hlen l hle n hst]
    exact hst
  have hne : h.leaves ≠ [] := by
    intro hc
    have := C95_total_samples c data total fit hdata hl
    rw [totalSamples, hc] at this
    subst this
    cases hl
  cases hls : h.leaves with
  | nil => exact absurd hls hne
  | cons a t =>
    obtain ⟨h1, h2, h3⟩ := foldl_max (t.map (fun l => l.2.depth)) a.2.depth
    have hd : treeDepth h = .ok ((t.map (fun l => l.2.depth)).foldl max a.2.depth) := by
      unfold treeDepth
      rw [hls]
      rfl
    have hmem : ∃ l ∈ h.leaves, l.2.path.length = (t.map (fun l => l.2.depth)).foldl max a.2.depth := by
      rcases h1 with h1 | h1
      · exact ⟨a, by rw [hls]; simp, h1.symm⟩
      · obtain ⟨l, hl1, hl2⟩ := List.mem_map.1 h1
        exact ⟨l, by rw [hls]; simp [hl1], hl2⟩
    obtain ⟨l, hle, hlm⟩ := hmem
    refine ⟨_, hd, ⟨l, by rw [← hls]; exact hle, by rw [← hlm]; exact hex l hle⟩, ?_, ?_⟩
    · intro l' hle' n hst
      rw [← hls] at hle'
      rw [hlen l' hle' n hst]
      rw [hls] at hle'
      rcases List.mem_cons.1 hle' with rfl | hle'
      · exact h2
      · exact h3 _ (List.mem_map.2 ⟨l', hle', rfl⟩)
    · intro m hm
      rw [← hlm]
      exact (hI.leaf l hle).depth m hm

include hdata hl in
/-- A learned tree has one leaf more than decision nodes, and at most as many leaves as training rows. -/
theorem C95_nodes : h.leaves.length = h.inner.length + 1 ∧ h.leaves.length ≤ total := by
  obtain ⟨hs, hfull, hroot⟩ := learned_shape hdata hl
  obtain ⟨hbin, -⟩ := learned_binary hdata hl
  obtain ⟨idx, hI⟩ := Learn.learn_inv hdata hl
  obtain ⟨r, hr⟩ := Option.ne_none_iff_exists'.1 hroot
  have hwf : Dict.WF h.inner := (List.nodup_append.1 hs.nodup).1
  constructor
  · have h1 := (kids_perm hs hfull hr).length_eq
    rw [List.length_cons, List.length_flatMap, List.length_append, List.length_map, List.length_map] at h1
    have h2 : h.inner.map (fun e => (e.2.children.filterMap id).length) = h.inner.map (fun _ => 2) := by
      apply List.map_congr_left
      intro e he
      have hlk := Dict.mem_lookup hwf (k := e.1) (b := e.2) he
      rw [filterMap_id_length (hfull _ _ hlk), hbin _ _ hlk]
    rw [h2, List.map_const', List.sum_replicate, smul_eq_mul] at h1
    omega
  · rw [← C95_total_samples c data total fit hdata hl]
    unfold totalSamples
    have h1 : ∀ ls : List (ℕ × Leaf D), (∀ l ∈ ls, 1 ≤ l.2.samples) → ls.length ≤ (ls.map (fun l => l.2.samples)).sum := by
      intro ls
      induction ls with
      | nil => simp
      | cons a t ih =>
        intro ha
        have := ih (fun l hle => ha l (by simp [hle]))
        have := ha a (by simp)
        simp only [List.length_cons, List.map_cons, List.sum_cons]
        omega
    apply h1
    intro l hle
    have := (hI.leaf l hle).nonempty
    rw [(hI.leaf l hle).samples]
    exact List.length_pos_iff.2 this

end

section

variable {L : Type}

theorem segs_length (val : ℤ → ℚ) : ∀ pts : List (ℤ × ℚ), pts ≠ [] → (Num.segs val pts).length + 1 = pts.length
  | [], h => absurd rfl h
  | [_], _ => rfl
  | a :: b :: r, _ => by
    have := segs_length val (b :: r) (by simp)
    simp only [Num.segs, List.length_cons] at this ⊢
    omega

/-- The number of parameters that a leaf of a learned tree counts for a variable: for symbolic variables one if all rows of
the leaf have the same label and the number of labels otherwise, for integer variables the number of labels, for numeric
variables one if all numbers are the same and otherwise one for each piece of the cdf: at least three, and at most one
more than there are different numbers. -/
theorem C95_leaf_parameters {val : ℤ → ℚ} (hval : StrictMono val) {idx : ℚ → ℤ} (hidx : ∀ n, idx (val n) = n)
    (eps : ℚ) (c : Cfg) (kind : ℕ → MK L) (data : Data) (total : ℕ) (hk : Kinds c kind)
    (hdata : DataOK c data total) (hfl : Floats val c data total) (h : Heap (MD L))
    (hl : learn c data total (fitMix val idx eps kind data) = .ok h) (l : ℕ × Leaf (MD L)) (hle : l ∈ h.leaves)
    (v : ℕ) (hv : v < c.vars.length) :
    ∃ d, l.2.dists[v]? = some d ∧
      (kind v = .inl () → ((∀ r ∈ l.2.rows, ∀ r' ∈ l.2.rows, data r v = data r' v) → distParams d = 1) ∧
        (¬ (∀ r ∈ l.2.rows, ∀ r' ∈ l.2.rows, data r v = data r' v) →
          3 ≤ distParams d ∧ distParams d ≤ (l.2.rows.map (fun r => data r v)).dedup.length + 1)) ∧
      (∀ dom, kind v = .inr (true, dom) → distParams d = dom.labels.length) ∧
      (∀ dom, kind v = .inr (false, dom) →
        ((∀ r ∈ l.2.rows, ∀ r' ∈ l.2.rows, data r v = data r' v) → distParams d = 1) ∧
        (¬ (∀ r ∈ l.2.rows, ∀ r' ∈ l.2.rows, data r v = data r' v) → distParams d = dom.labels.length)) := by
  obtain ⟨ix, hI⟩ := Learn.learn_inv hdata hl
  have hrow : ∀ r ∈ l.2.rows, r < total := by
    intro r hr
    have := hI.rows.mem_iff (a := r)
    simp only [List.flatMap_nil, List.append_nil, List.mem_flatMap, List.mem_range] at this
    exact this.1 ⟨l, hle, hr⟩
  have hne := (hI.leaf l hle).nonempty
  obtain ⟨r0, hr0⟩ := List.exists_mem_of_ne_nil _ hne
  have hd : l.2.dists[v]? = some (fitMix val idx eps kind data l.2.rows v) := by
    rw [(hI.leaf l hle).dists, List.getElem?_map, List.getElem?_range hv]
    rfl
  refine ⟨_, hd, ?_, ?_, ?_⟩
  · intro hkv
    have hnum := hk.numeric hv hkv
    have hf : ∀ r ∈ l.2.rows, data r v = val (idx (data r v)) := by
      intro r hr
      obtain ⟨n, hn⟩ := hfl v hnum r r (hrow r hr) (hrow r hr)
      have : data r v = val n := by rw [← hn]; ring
      rw [this, hidx]
    have hfit : fitMix val idx eps kind data l.2.rows v = .inl (fitNum val idx eps data l.2.rows v) := by
      unfold fitMix
      rw [hkv]
    rw [hfit]
    have hspec := (fitNum_spec (data := data) (v := v) (eps := eps) hval hidx hne (fun r hr => ⟨_, hf r hr⟩)).1
    set s := l.2.rows.map (fun r => idx (data r v)) with hs
    have hload : Num.loadBuffer s none none = .ok s := by simp [Num.loadBuffer]
    constructor
    · intro hall
      rw [Num.fit_single hload (x := idx (data r0 v)) (List.mem_map.2 ⟨r0, hr0, rfl⟩) (by
        intro y hy
        obtain ⟨r, hr, rfl⟩ := List.mem_map.1 hy
        rw [hall r hr r0 hr0])] at hspec
      rw [← Except.ok.inj hspec]
      rfl
    · intro hnot
      have hsne : s ≠ [] := by simpa [hs] using hne
      obtain ⟨lo, hlo, hmin⟩ := Num.exists_least hsne
      obtain ⟨hi, hhi, hmax⟩ := Num.exists_greatest hsne
      have hlt : lo < hi := by
        rcases (hmin hi hhi).lt_or_eq with hlt | heq
        · exact hlt
        · exfalso
          apply hnot
          have : ∀ r ∈ l.2.rows, idx (data r v) = lo := by
            intro r hr
            have hm : idx (data r v) ∈ s := List.mem_map.2 ⟨r, hr, rfl⟩
            have := hmin _ hm
            have := hmax _ hm
            omega
          intro r hr r' hr'
          rw [hf r hr, hf r' hr', this r hr, this r' hr']
      obtain ⟨pts, p, F, hp, hshape, -, -, hrise, hlen, -, -, hpts⟩ := Num.fit_spec hval (eps := eps) hload hlo hhi hlt hmin hmax
      rw [hp] at hspec
      rw [← Except.ok.inj hspec]
      have hplen : p.length = pts.length + 1 := by
        rw [hshape, Num.tile_length, List.length_append]
        have := segs_length val pts (by intro hc; rw [hc] at hlen; simp at hlen)
        simp only [List.length_cons, List.length_nil]
        omega
      have hnd : Num.isDirac p = false := by
        unfold Num.isDirac
        rw [hplen]
        simp only [beq_eq_false_iff_ne, ne_eq]
        omega
      have hcount : distParams (.inl p : MD L) = pts.length + 1 := by
        simp only [distParams, hnd, Bool.false_eq_true, if_false, hplen]
      rw [hcount]
      refine ⟨by omega, ?_⟩
      have h1 : (pts.map (fun q => val q.1)).Nodup := by
        rw [List.Nodup, List.pairwise_map]
        exact hrise.imp (fun hab => ne_of_lt (hval hab.1))
      have h2 : pts.map (fun q => val q.1) ⊆ (l.2.rows.map (fun r => data r v)).dedup := by
        intro x hx
        obtain ⟨q, hq, rfl⟩ := List.mem_map.1 hx
        obtain ⟨r, hr, hrq⟩ := List.mem_map.1 (hpts q hq).1
        rw [List.mem_dedup]
        exact List.mem_map.2 ⟨r, hr, by rw [hf r hr, hrq]⟩
      have := (h1.subperm h2).length_le
      rw [List.length_map] at this
      omega
  all_goals
    intro dom hkv
    obtain ⟨hat, hdom⟩ := hk.discrete hv hkv
    obtain ⟨h1, h2⟩ := fitDisc_spec hat (rows := l.2.rows) (fun r hr => hdata r (hrow r hr)) hne
    have hfit : fitMix val idx eps kind data l.2.rows v = .inr (fitDisc (domOf kind) data l.2.rows v) := by
      unfold fitMix
      rw [hkv]
    rw [hfit]
    set d := fitDisc (domOf kind) data l.2.rows v with hdd
    have hlen : d.2.params.length = dom.labels.length := by
      rw [h1.2.2.2.1, h1.2.1, hdom]
    obtain ⟨b, d'⟩ := d
  · obtain rfl : b = true := by
      have := h1.1
      rw [hdom] at this
      exact this
    exact hlen
  · obtain rfl : b = false := by
      have := h1.1
      rw [hdom] at this
      exact this
    simp only at hlen h1 h2
    have hpos : (0 : ℚ) < (l.2.rows.length : ℚ) := by
      have := List.length_pos_iff.2 hne
      exact_mod_cast this
    have hval' : ∀ r ∈ l.2.rows, ∃ i : ℕ, i < dom.labels.length ∧ data r v = (i : ℚ) := by
      intro r hr
      obtain ⟨-, h3⟩ := hat
      rw [hdom] at h3
      rcases h3 with h3 | h3
      · exact hdata r (hrow r hr) v _ (.inl h3.1)
      · exact hdata r (hrow r hr) v _ (.inr h3.1)
    have hmem : ∀ (i : ℕ) (q : ℚ), (Region.set [(i : ℤ)]).Mem (.fin q) ↔ q = i := by
      intro i q
      simp [Region.Mem]
    have hone : (d'.params.any (fun p => decide (p = 1)) = true) ↔ ∀ r ∈ l.2.rows, ∀ r' ∈ l.2.rows, data r v = data r' v := by
      rw [List.any_eq_true]
      constructor
      · rintro ⟨p, hp, hp1⟩
        obtain ⟨i, hi, rfl⟩ := List.getElem_of_mem hp
        have h3 := discP_single h1 (i := i) hi
        rw [h2, of_decide_eq_true hp1, div_eq_one_iff_eq (ne_of_gt hpos)] at h3
        have h4 : l.2.rows.countP (fun r => decide ((Region.set [(i : ℤ)]).Mem (.fin (data r v)))) = l.2.rows.length := by
          exact_mod_cast h3
        rw [List.countP_eq_length] at h4
        intro r hr r' hr'
        have h5 := h4 r hr
        have h6 := h4 r' hr'
        rw [decide_eq_true_eq, hmem] at h5 h6
        rw [h5, h6]
      · intro hall
        obtain ⟨i, hi, hri⟩ := hval' r0 hr0
        have hi' : i < d'.params.length := by omega
        refine ⟨d'.params[i], List.getElem_mem hi', ?_⟩
        have h3 := discP_single h1 (i := i) hi'
        rw [decide_eq_true_eq, ← h3, h2, div_eq_one_iff_eq (ne_of_gt hpos)]
        have : l.2.rows.countP (fun r => decide ((Region.set [(i : ℤ)]).Mem (.fin (data r v)))) = l.2.rows.length := by
          rw [List.countP_eq_length]
          intro r hr
          rw [decide_eq_true_eq, hmem, hall r hr r0 hr0, hri]
        rw [this]
    constructor
    · intro hall
      simp only [distParams, hone.2 hall, if_true]
    · intro hnot
      simp only [distParams]
      rw [if_neg (fun hc => hnot (hone.1 hc))]
      exact hlen

end

/-- The number of parameters is not the documented one: a leaf should count one more for its prior, and the tree should
count all of its nodes, decision nodes with two parameters each.  After learning from six rows the tree counts 9, and
should count 13. -/
theorem C95_violated_parameters : ∃ (c : Cfg) (kind : ℕ → MK ℤ) (data : Data) (h : Heap (MD ℤ)),
    learn c data 6 (fitMix Fun.ival Rat.floor (1 / 100) kind data) = .ok h ∧ h.inner.length = 1 ∧
    h.leaves.map (fun l => l.2.numParams) = [5, 4] ∧ treeParams h = 9 ∧
    (h.leaves.map (fun l => 1 + (l.2.dists.map distParams).sum)).sum + (h.inner.map (fun n => n.2.numParams)).sum = 13 := by
  obtain ⟨h, h1, h2⟩ : ∃ h, learn (exM.cfg 6) exMData 6 (fitMix Fun.ival Rat.floor (1 / 100) exMKind exMData) = .ok h ∧
      (h.inner.length = 1 ∧ h.leaves.map (fun l => l.2.numParams) = [5, 4] ∧ treeParams h = 9 ∧
      (h.leaves.map (fun l => 1 + (l.2.dists.map distParams).sum)).sum + (h.inner.map (fun n => n.2.numParams)).sum = 13) :=
    exists_ok (by decide +kernel)
  exact ⟨_, _, _, h, h1, h2⟩

example : ∃ h, learn (exM.cfg 6) exMData 6 (fitMix Fun.ival Rat.floor (1 / 100) exMKind exMData) = .ok h ∧
    totalSamples h = 6 ∧ treeDepth h = .ok 1 ∧ h.leaves.length = 2 ∧ h.inner.length = 1 :=
  exists_ok (by decide +kernel)

end Verif.Trees
