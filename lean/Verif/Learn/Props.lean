import Verif.Learn.Lemmas7
import Verif.Trees.Path

/-!
# Properties of the learner

`fit rows v` stands for the distribution fitted to the rows; the theorems hold for every `fit`.
-/

namespace Verif.Learn

open Trees

variable {D : Type}

/-! ## Small data sets for the examples -/

/-- One numeric variable with the values 0, 2. -/
def exNum : Args := ⟨[.numeric], [], [], .int 1, none, none, none, fun _ => false⟩

def exNumData : Data := fun r _ => if r = 0 then 0 else 2

/-- A symbolic, an integer and a numeric variable. -/
def exMix : Args := ⟨[.symbolic 2, .integer 3, .numeric], [], [], .int 1, none, none, none,
  fun _ => false⟩

def exMixData : Data := fun r v =>
  (([[0, 0, 1/2], [1, 2, 5], [0, 1, 3/2], [1, 2, 7]] : List (List ℚ)).getD r []).getD v 0

theorem exMix_ok : DataOK (exMix.cfg 4) exMixData 4 := by
  intro r hr v n hv
  have hcases : r = 0 ∨ r = 1 ∨ r = 2 ∨ r = 3 := by omega
  match v, hv with
  | 0, hv =>
    have : n = 2 := by
      rcases hv with hv | hv
      · exact absurd hv (by simp [exMix, Args.cfg])
      · injection hv with hv; injection hv with hv; exact hv.symm
    subst this
    rcases hcases with rfl | rfl | rfl | rfl
    · exact ⟨0, by decide, by decide +kernel⟩
    · exact ⟨1, by decide, by decide +kernel⟩
    · exact ⟨0, by decide, by decide +kernel⟩
    · exact ⟨1, by decide, by decide +kernel⟩
  | 1, hv =>
    have : n = 3 := by
      rcases hv with hv | hv
      · injection hv with hv; injection hv with hv; exact hv.symm
      · exact absurd hv (by simp [exMix, Args.cfg])
    subst this
    rcases hcases with rfl | rfl | rfl | rfl
    · exact ⟨0, by decide, by decide +kernel⟩
    · exact ⟨2, by decide, by decide +kernel⟩
    · exact ⟨1, by decide, by decide +kernel⟩
    · exact ⟨2, by decide, by decide +kernel⟩
  | 2, hv => exact absurd hv (by rintro (h | h) <;> exact absurd h (by simp [exMix, Args.cfg]))
  | v + 3, hv => exact absurd hv (by rintro (h | h) <;> exact absurd h (by simp [exMix, Args.cfg]))

/-- A symbolic feature and a numeric target. -/
def exSym : Args := ⟨[.symbolic 3, .numeric], [1], [], .int 2, none, none, none, fun _ => false⟩

def exSymData : Data := fun r v =>
  (([[0, 9], [0, 9], [1, 0], [2, 9], [2, 9]] : List (List ℚ)).getD r []).getD v 0

theorem exSym_ok : DataOK (exSym.cfg 5) exSymData 5 := by
  intro r hr v n hv
  have hcases : r = 0 ∨ r = 1 ∨ r = 2 ∨ r = 3 ∨ r = 4 := by omega
  match v, hv with
  | 0, hv =>
    have : n = 3 := by
      rcases hv with hv | hv
      · exact absurd hv (by simp [exSym, Args.cfg])
      · injection hv with hv; injection hv with hv; exact hv.symm
    subst this
    rcases hcases with rfl | rfl | rfl | rfl | rfl
    · exact ⟨0, by decide, by decide +kernel⟩
    · exact ⟨0, by decide, by decide +kernel⟩
    · exact ⟨1, by decide, by decide +kernel⟩
    · exact ⟨2, by decide, by decide +kernel⟩
    · exact ⟨2, by decide, by decide +kernel⟩
  | 1, hv => exact absurd hv (by rintro (h | h) <;> exact absurd h (by simp [exSym, Args.cfg]))
  | v + 2, hv => exact absurd hv (by rintro (h | h) <;> exact absurd h (by simp [exSym, Args.cfg]))

/-- A computation that succeeds with a result we can check. -/
theorem exists_ok {ε α : Type} {x : Except ε α} {P : α → Prop} [DecidablePred P]
    (h : (match x with | .ok a => decide (P a) | .error _ => false) = true) :
    ∃ a, x = .ok a ∧ P a := by
  cases x with
  | error e => cases h
  | ok a => exact ⟨a, rfl, by simpa using h⟩

/-! ## C40: learning partitions the rows -/

/-- Learning from at least one row of valid data succeeds. The rows of the leaves are together
exactly the rows of the data; every leaf has its number of rows as sample count, its fraction of the
rows as prior, and the distributions fitted to its rows; counts add up to the number of rows and
priors to one. -/
theorem C40_partition (c : Cfg) (data : Data) (total : ℕ) (fit : List ℕ → ℕ → D)
    (hdata : DataOK c data total) (ht : 0 < total) :
    ∃ h, learn c data total fit = .ok h ∧
      (h.leaves.flatMap (fun e => e.2.rows)).Perm (List.range total) ∧
      (∀ e ∈ h.leaves, e.2.rows ≠ [] ∧ e.2.samples = e.2.rows.length ∧
        e.2.prior = (e.2.rows.length : ℚ) / (total : ℚ) ∧
        e.2.dists = (List.range c.vars.length).map (fit e.2.rows)) ∧
      (h.leaves.map (fun e => e.2.samples)).sum = total ∧
      (h.leaves.map (fun e => e.2.prior)).sum = 1 := by
  obtain ⟨h, idx, hl, hI⟩ := learn_ok fit hdata ht
  have hrows := hI.rows
  simp only [List.flatMap_nil, List.append_nil] at hrows
  have hleaf := hI.leaf
  simp only at hleaf
  have hsum : (h.leaves.map (fun e => e.2.samples)).sum = total := by
    have h1 := hrows.length_eq
    rw [List.length_range, List.length_flatMap] at h1
    rw [← h1]
    congr 1
    apply List.map_congr_left
    intro e he
    exact (hleaf e he).samples
  refine ⟨h, hl, hrows, ?_, hsum, ?_⟩
  · intro e he
    exact ⟨(hleaf e he).nonempty, (hleaf e he).samples, (hleaf e he).prior, (hleaf e he).dists⟩
  · have h2 : h.leaves.map (fun e => e.2.prior)
        = h.leaves.map (fun e => (e.2.samples : ℚ) * (1 / (total : ℚ))) := by
      apply List.map_congr_left
      intro e he
      rw [(hleaf e he).prior, (hleaf e he).samples]
      ring
    have h3 : ∀ l : List (ℕ × Leaf D), (l.map (fun e => (e.2.samples : ℚ) * (1 / (total : ℚ)))).sum
        = ((l.map (fun e => e.2.samples)).sum : ℕ) * (1 / (total : ℚ)) := by
      intro l
      induction l with
      | nil => simp
      | cons a l ih =>
        simp only [List.map_cons, List.sum_cons, ih]
        push_cast
        ring
    rw [h2, h3, hsum]
    have : (total : ℚ) ≠ 0 := by
      have : total ≠ 0 := by omega
      exact_mod_cast this
    field_simp

theorem learn_inv {c : Cfg} {data : Data} {total : ℕ} {fit : List ℕ → ℕ → D}
    (hdata : DataOK c data total) {h : Heap D} (hl : learn c data total fit = .ok h) :
    ∃ idx, LInv c data total fit ⟨h, idx, []⟩ := by
  have ht : 0 < total := by
    rcases Nat.eq_zero_or_pos total with h0 | h0
    · unfold learn at hl
      rw [if_pos h0] at hl
      cases hl
    · exact h0
  obtain ⟨h', idx, hl', hI⟩ := learn_ok fit hdata ht
  rw [hl] at hl'
  cases hl'
  exact ⟨idx, hI⟩

/-- Every row of the data lies in exactly one leaf, once. -/
theorem C40_one_leaf (c : Cfg) (data : Data) (total : ℕ) (fit : List ℕ → ℕ → D)
    (hdata : DataOK c data total) {h : Heap D} (hl : learn c data total fit = .ok h) :
    ∀ r, r < total ↔ ∃ k l, h.leaves.lookup k = some l ∧ l.rows.count r = 1 ∧
      ∀ k' l', h.leaves.lookup k' = some l' → r ∈ l'.rows → k' = k := by
  obtain ⟨idx, hI⟩ := learn_inv hdata hl
  have hrows := hI.rows
  simp only [List.flatMap_nil, List.append_nil] at hrows
  have hwf : Dict.WF h.leaves := (List.nodup_append.1 hI.shape.nodup).2.1
  intro r
  constructor
  · intro hr
    have hcount : (h.leaves.flatMap (fun e => e.2.rows)).count r = 1 := by
      rw [hrows.count_eq]
      exact List.count_eq_one_of_mem List.nodup_range (List.mem_range.2 hr)
    rw [List.count_flatMap] at hcount
    have hmem : r ∈ h.leaves.flatMap (fun e => e.2.rows) := by
      rw [hrows.mem_iff]
      exact List.mem_range.2 hr
    obtain ⟨e, he, hre⟩ := List.mem_flatMap.1 hmem
    obtain ⟨pre, post, hsplit⟩ := List.append_of_mem he
    rw [hsplit, List.map_append, List.sum_append, List.map_cons, List.sum_cons] at hcount
    have hpos : 0 < e.2.rows.count r := List.count_pos_iff.2 hre
    refine ⟨e.1, e.2, Dict.mem_lookup hwf he, by simp only [Function.comp] at hcount; omega, ?_⟩
    intro k' l' hk' hr'
    have hm := Dict.lookup_mem hk'
    rw [hsplit] at hm
    have hzero : ∀ a ∈ pre ++ post, a.2.rows.count r = 0 := by
      intro a ha
      have h1 : (pre.map (List.count r ∘ fun x => x.2.rows)).sum = 0 := by
        have : 0 < (List.count r ∘ fun x : ℕ × Leaf D => x.2.rows) e := hpos
        omega
      have h2 : (post.map (List.count r ∘ fun x => x.2.rows)).sum = 0 := by
        have : 0 < (List.count r ∘ fun x : ℕ × Leaf D => x.2.rows) e := hpos
        omega
      rcases List.mem_append.1 ha with ha | ha
      · exact List.sum_eq_zero_iff.1 h1 _ (List.mem_map.2 ⟨a, ha, rfl⟩)
      · exact List.sum_eq_zero_iff.1 h2 _ (List.mem_map.2 ⟨a, ha, rfl⟩)
    rcases List.mem_append.1 hm with hm | hm
    · have := hzero _ (List.mem_append_left _ hm)
      rw [List.count_eq_zero] at this
      exact absurd hr' this
    · rcases List.mem_cons.1 hm with hm | hm
      · exact congrArg Prod.fst hm
      · have := hzero _ (List.mem_append_right _ hm)
        rw [List.count_eq_zero] at this
        exact absurd hr' this
  · rintro ⟨k, l, hk, hc, -⟩
    have : r ∈ l.rows := List.count_pos_iff.1 (by omega)
    have : r ∈ List.range total := by
      rw [← hrows.mem_iff]
      exact List.mem_flatMap.2 ⟨(k, l), Dict.lookup_mem hk, this⟩
    exact List.mem_range.1 this

/-- Without data, `learn` raises `ValueError`. -/
theorem C40_no_data (c : Cfg) (data : Data) (fit : List ℕ → ℕ → D) :
    learn c data 0 fit = .error .valueError := rfl

example : ∃ h : Heap ℕ, learn (exMix.cfg 4) exMixData 4 (fun rows _ => rows.length) = .ok h :=
  let ⟨h, hl, _⟩ := C40_partition (exMix.cfg 4) exMixData 4 (fun rows _ => rows.length) exMix_ok
    (by decide)
  ⟨h, hl⟩

/-! ## C41: leaf size and depth -/

/-- The size limit, where it holds: there are symbolic targets, or no symbolic features.  Missing: a
symbolic feature without symbolic targets, see `C41_violated_size`. -/
theorem C41_size_partial (c : Cfg) (data : Data) (total : ℕ) (fit : List ℕ → ℕ → D)
    (hdata : DataOK c data total) (hresp : Respects c) {h : Heap D}
    (hl : learn c data total fit = .ok h) (hmany : 2 ≤ h.leaves.length) :
    ∀ e ∈ h.leaves, c.minSamples ≤ (e.2.samples : ℚ) := by
  obtain ⟨idx, hI⟩ := learn_inv hdata hl
  have hwf : Dict.WF h.leaves := (List.nodup_append.1 hI.shape.nodup).2.1
  intro e he
  have hleaf := hI.leaf e he
  rw [hleaf.samples]
  rcases hleaf.enough hresp with hp | hp
  · exfalso
    have hnode : NodeAt h e.1 none e.2.path :=
      .inr ⟨e.2, Dict.mem_lookup hwf he, hp, rfl⟩
    have hpath : e.2.path = [] := (hI.shape.parents e.1 e.2.path hnode).2
    -- another leaf would be met by the same sample
    obtain ⟨pre, post, hsplit⟩ := List.append_of_mem he
    have hne : ∃ o, o ∈ pre ++ post := by
      apply List.exists_mem_of_length_pos
      rw [hsplit] at hmany
      simp only [List.length_append, List.length_cons] at hmany ⊢
      omega
    obtain ⟨o, ho⟩ := hne
    have ho' : o ∈ h.leaves := by
      rw [hsplit]
      rcases List.mem_append.1 ho with ho | ho <;> simp [ho]
    have holeaf := hI.leaf o ho'
    obtain ⟨r, hr⟩ := List.exists_mem_of_ne_nil _ holeaf.nonempty
    have hrt : r < total := by
      have : r ∈ List.range total := by
        rw [← hI.rows.mem_iff]
        exact List.mem_append_left _ (List.mem_flatMap.2 ⟨o, ho', hr⟩)
      exact List.mem_range.1 this
    have hc := hI.cover (data r) (hdata r hrt)
    simp only [List.map_nil, List.append_nil, List.countP_map] at hc
    rw [hsplit, List.countP_append, List.countP_cons_of_pos (by simp [hpath, Sat])] at hc
    have hop : 0 < pre.countP ((fun p => decide (Sat p (data r))) ∘ fun e => e.2.path) +
        post.countP ((fun p => decide (Sat p (data r))) ∘ fun e => e.2.path) := by
      rw [← List.countP_append, List.countP_pos_iff]
      exact ⟨o, ho, by simpa using holeaf.sat r hr⟩
    omega
  · exact hp

/-- The depth limit. -/
theorem C41_depth (c : Cfg) (data : Data) (total : ℕ) (fit : List ℕ → ℕ → D)
    (hdata : DataOK c data total) {h : Heap D} (hl : learn c data total fit = .ok h)
    {m : ℕ} (hm : c.maxDepth = some m) : ∀ e ∈ h.leaves, e.2.path.length ≤ m := by
  obtain ⟨idx, hI⟩ := learn_inv hdata hl
  intro e he
  exact (hI.leaf e he).depth m hm

/-- The argument `max_depth` is respected unless it is 0. -/
theorem C41_depth_arg (a : Args) (data : Data) (total : ℕ) (fit : List ℕ → ℕ → D)
    (hdata : DataOK (a.cfg total) data total) {h : Heap D}
    (hl : learn (a.cfg total) data total fit = .ok h)
    {m : ℕ} (hm : a.maxDepth = some m) (h0 : m ≠ 0) : ∀ e ∈ h.leaves, e.2.path.length ≤ m := by
  refine C41_depth (a.cfg total) data total fit hdata hl ?_
  unfold Args.cfg
  simp [hm, h0]


/-- A float is a fraction of the rows, but never less than one row. -/
theorem C41_fraction (q : ℚ) (total : ℕ) (h0 : 0 < q) (h1 : q < 1) :
    minSamplesOf (.float q) total = max 1 ((q * total).floor : ℚ) := by
  unfold minSamplesOf toInt
  simp only
  rw [if_pos ⟨h0, h1⟩, if_pos (by positivity)]
  push_cast
  rfl

/-- `min_samples_leaf` is violated: one numeric target, one symbolic feature. The values of the
feature have 2, 1 and 2 rows, and a leaf with one row is made although 2 are required. -/
theorem C41_violated_size : ∃ (a : Args) (data : Data) (total : ℕ) (h : Heap Unit),
    DataOK (a.cfg total) data total ∧ (a.cfg total).minSamples = 2 ∧
    learn (a.cfg total) data total (fun _ _ => ()) = .ok h ∧ ∃ e ∈ h.leaves, e.2.samples = 1 := by
  obtain ⟨h, h1, h2⟩ : ∃ h, learn (exSym.cfg 5) exSymData 5 (fun _ _ => ()) = .ok h ∧
      ∃ e ∈ h.leaves, e.2.samples = 1 := exists_ok (by decide +kernel)
  refine ⟨exSym, exSymData, 5, h, exSym_ok, by decide +kernel, h1, h2⟩

/-- `max_depth = 0` is ignored. -/
theorem C41_violated_zero : ∃ (a : Args) (data : Data) (h : Heap Unit),
    a.maxDepth = some 0 ∧ learn (a.cfg 2) data 2 (fun _ _ => ()) = .ok h ∧
    ∃ e ∈ h.leaves, 0 < e.2.path.length := by
  let a : Args := { exNum with maxDepth := some 0 }
  obtain ⟨h, h1, h2⟩ : ∃ h, learn (a.cfg 2) exNumData 2 (fun _ _ => ()) = .ok h ∧
      ∃ e ∈ h.leaves, 0 < e.2.path.length := exists_ok (by decide +kernel)
  exact ⟨a, exNumData, h, rfl, h1, h2⟩

example : Respects (exMix.cfg 4) ∧ ∃ h : Heap ℕ,
    learn (exMix.cfg 4) exMixData 4 (fun rows _ => rows.length) = .ok h ∧ 2 ≤ h.leaves.length :=
  ⟨.inl (by decide +kernel), exists_ok (by decide +kernel)⟩

/-! ## C42: paths -/

/-- The rows of a leaf satisfy its path. -/
theorem C42_rows (c : Cfg) (data : Data) (total : ℕ) (fit : List ℕ → ℕ → D)
    (hdata : DataOK c data total) {h : Heap D} (hl : learn c data total fit = .ok h) :
    ∀ e ∈ h.leaves, ∀ r ∈ e.2.rows, Sat e.2.path (data r) := by
  obtain ⟨idx, hI⟩ := learn_inv hdata hl
  exact fun e he => (hI.leaf e he).sat

/-- Every sample, not only the training data, satisfies the path of exactly one leaf. -/
theorem C42_exactly_one (c : Cfg) (data : Data) (total : ℕ) (fit : List ℕ → ℕ → D)
    (hdata : DataOK c data total) {h : Heap D} (hl : learn c data total fit = .ok h)
    (x : ℕ → ℚ) (hx : Valid c x) :
    ∃ k l, h.leaves.lookup k = some l ∧ Sat l.path x ∧
      ∀ k' l', h.leaves.lookup k' = some l' → Sat l'.path x → k' = k := by
  obtain ⟨idx, hI⟩ := learn_inv hdata hl
  have hwf : Dict.WF h.leaves := (List.nodup_append.1 hI.shape.nodup).2.1
  have hc := hI.cover x hx
  simp only [List.map_nil, List.append_nil, List.countP_map] at hc
  have hpos : 0 < h.leaves.countP ((fun p => decide (Sat p x)) ∘ fun e => e.2.path) := by omega
  obtain ⟨e, he, hsat⟩ := List.countP_pos_iff.1 hpos
  simp only [Function.comp, decide_eq_true_eq] at hsat
  refine ⟨e.1, e.2, Dict.mem_lookup hwf he, hsat, ?_⟩
  intro k' l' hk' hs'
  have hm := Dict.lookup_mem hk'
  obtain ⟨pre, post, hsplit⟩ := List.append_of_mem he
  rw [hsplit, List.countP_append, List.countP_cons_of_pos (by simpa using hsat)] at hc
  rw [hsplit] at hm
  have hzero : ∀ a ∈ pre ++ post, ¬ Sat a.2.path x := by
    intro a ha hsa
    have : 0 < (pre ++ post).countP ((fun p => decide (Sat p x)) ∘ fun e => e.2.path) :=
      List.countP_pos_iff.2 ⟨a, ha, by simpa using hsa⟩
    rw [List.countP_append] at this
    omega
  rcases List.mem_append.1 hm with hm | hm
  · exact absurd hs' (hzero _ (List.mem_append_left _ hm))
  · rcases List.mem_cons.1 hm with hm | hm
    · exact congrArg Prod.fst hm
    · exact absurd hs' (hzero _ (List.mem_append_right _ hm))

/-- The nodes form a binary tree without missing children, and the path of a node is the list of
splits on the way to it. -/
theorem C42_tree (c : Cfg) (data : Data) (total : ℕ) (fit : List ℕ → ℕ → D)
    (hdata : DataOK c data total) {h : Heap D} (hl : learn c data total fit = .ok h) :
    Shape h ∧ ∀ (k : ℕ) (n : Inner), h.inner.lookup k = some n →
      n.children.length = 2 ∧ ∀ o ∈ n.children, o ≠ none := by
  obtain ⟨idx, hI⟩ := learn_inv hdata hl
  refine ⟨hI.shape, fun k n hk => ⟨hI.binary k n hk, ?_⟩⟩
  rintro o ho rfl
  obtain ⟨i, hi⟩ := List.getElem?_of_mem ho
  obtain ⟨it, hit, -⟩ := hI.complete k n i hk hi
  cases hit

/-- The values of a variable: all numbers, or the indices of its domain. -/
def fullOf (c : Cfg) (v : ℕ) : Region :=
  match c.vars[v]? with
  | some (.symbolic n) => .set (domainOf n)
  | some (.integer n) => .set (domainOf n)
  | _ => .num ⟨.ninf, .pinf, .exc, .exc⟩

/-- `encode` returns the leaf whose path the sample satisfies, unless a number in the sample is the
threshold of a split.  Missing: the thresholds themselves, see `C42_violated_encode`. -/
theorem C42_encode_partial (c : Cfg) (data : Data) (total : ℕ) (fit : List ℕ → ℕ → D)
    (hdata : DataOK c data total) {h : Heap D} (hl : learn c data total fit = .ok h)
    (x : ℕ → ℚ) (hx : Valid c x)
    (hclear : ∀ e ∈ h.leaves, ∀ s ∈ e.2.path, ∀ i, s.2 = .num i →
      i.lower ≠ .fin (x s.1) ∧ i.upper ≠ .fin (x s.1)) :
    ∃ l, h.leaves.lookup (encode (fullOf c) h x) = some l ∧ Sat l.path x := by
  have hfull : ∀ v, (fullOf c v).Mem (.fin (x v)) := by
    intro v
    unfold fullOf
    have hdom : ∀ n, (∃ i : ℕ, i < n ∧ x v = (i : ℚ)) → (Region.set (domainOf n)).Mem (.fin (x v)) := by
      rintro n ⟨i, hi, hxi⟩
      exact ⟨(i : ℤ), List.mem_map.2 ⟨i, List.mem_range.2 hi, rfl⟩, by rw [hxi]; rfl⟩
    have hnum : (Region.num ⟨.ninf, .pinf, .exc, .exc⟩).Mem (.fin (x v)) :=
      ⟨.inl (by exact XQ.ninf_lt_fin _), .inl (by exact XQ.fin_lt_pinf _)⟩
    cases hv : c.vars[v]? with
    | none => exact hnum
    | some k =>
      cases k with
      | numeric => exact hnum
      | integer n => exact hdom n (hx v n (.inl hv))
      | symbolic n => exact hdom n (hx v n (.inr hv))
  have hf : ∀ v, RClear (x v) (fullOf c v) := by
    intro v
    unfold fullOf
    have hnum : RClear (x v) (.num ⟨.ninf, .pinf, .exc, .exc⟩) := .inl ⟨by simp, by simp⟩
    cases hv : c.vars[v]? with
    | none => exact hnum
    | some k => cases k <;> first | exact hnum | trivial
  have hcon : ∀ e ∈ h.leaves, (contains (fullOf c) e.2.path x = true ↔ Sat e.2.path x) := by
    intro e he
    refine contains_iff (fullOf c) e.2.path x hfull hf ?_
    intro s hs
    cases hr : s.2 with
    | num i => exact .inl (hclear e he s hs i hr)
    | set l => trivial
  obtain ⟨k, l, hk, hsat, huniq⟩ := C42_exactly_one c data total fit hdata hl x hx
  obtain ⟨idx, hI⟩ := learn_inv hdata hl
  have hc := hI.cover x hx
  simp only [List.map_nil, List.append_nil, List.countP_map] at hc
  have hmem := Dict.lookup_mem hk
  have hone : h.leaves.countP (fun e => contains (fullOf c) e.2.path x) = 1 := by
    rw [← hc]
    apply List.countP_congr
    intro e he
    simp only [Function.comp, decide_eq_true_eq]
    exact hcon e he
  have := encode_eq (fullOf c) h x (k, l) hmem ((hcon _ hmem).2 hsat) hone
  exact ⟨l, by rw [this]; exact hk, hsat⟩

/-- At a threshold `encode` returns the wrong leaf: after learning from the values 0 and 2, the sample
1 satisfies the path of the right leaf but is encoded as the left one. -/
theorem C42_violated_encode : ∃ (a : Args) (data : Data) (h : Heap Unit) (x : ℕ → ℚ),
    learn (a.cfg 2) data 2 (fun _ _ => ()) = .ok h ∧ Valid (a.cfg 2) x ∧
    ∃ k l l', h.leaves.lookup k = some l ∧ Sat l.path x ∧
      h.leaves.lookup (encode (fullOf (a.cfg 2)) h x) = some l' ∧ ¬ Sat l'.path x := by
  obtain ⟨h, h1, h2⟩ : ∃ h, learn (exNum.cfg 2) exNumData 2 (fun _ _ => ()) = .ok h ∧
      (((h.leaves.lookup 2).any (fun l => decide (Sat l.path (fun _ => 1)))) &&
      ((h.leaves.lookup (encode (fullOf (exNum.cfg 2)) h (fun _ => 1))).any
        (fun l => !decide (Sat l.path (fun _ => 1))))) = true := exists_ok (by decide +kernel)
  refine ⟨exNum, exNumData, h, fun _ => 1, h1, ?_, ?_⟩
  · intro v n hv
    exfalso
    match v, hv with
    | 0, hv => rcases hv with h | h <;> exact absurd h (by simp [exNum, Args.cfg])
    | v + 1, hv => rcases hv with h | h <;> exact absurd h (by simp [exNum, Args.cfg])
  · rw [Bool.and_eq_true, Option.any_eq_true, Option.any_eq_true] at h2
    obtain ⟨⟨l, hl, hs⟩, l', hl', hs'⟩ := h2
    exact ⟨2, l, l', hl, by simpa using hs, hl', by simpa using hs'⟩

example : ∃ h : Heap ℕ, learn (exMix.cfg 4) exMixData 4 (fun rows _ => rows.length) = .ok h ∧
    (∀ e ∈ h.leaves, 0 < e.2.path.length) ∧
    (∀ e ∈ h.leaves, ∀ s ∈ e.2.path, meets (exMixData 2 s.1) s.2 = true ∨ e.1 ≠
      encode (fullOf (exMix.cfg 4)) h (exMixData 2)) := exists_ok (by decide +kernel)

/-! ## C43: impurities -/

/-- The variance computed from sums is the mean squared deviation. -/
theorem C43_variance (c : Cfg) (data : Data) (rows : List ℕ) (t : ℕ) :
    (totals c data rows).var t = variance (col data rows t) := varianceOf_col data rows t

example : variance [1, 2, 6] = 14 / 3 := by decide +kernel

/-- The gini impurity of a variable with at least two values lies in [0,1]; it is 0 exactly if all
rows have the same value, and 1 exactly if all values are equally frequent. -/
theorem C43_gini (k : ℕ) (hk : 2 ≤ k) (vs : List ℕ) (hn : vs ≠ []) (h : ∀ w ∈ vs, w < k)
    (cnt : ℕ → ℤ) (hc : ∀ j, cnt j = (vs.count j : ℤ)) :
    0 ≤ giniOf k cnt vs.length false ∧ giniOf k cnt vs.length false ≤ 1 ∧
    (giniOf k cnt vs.length false = 0 ↔ ∀ a ∈ vs, ∀ b ∈ vs, a = b) ∧
    (giniOf k cnt vs.length false = 1 ↔ ∀ j < k, k * vs.count j = vs.length) := by
  have hk1 : k ≠ 1 := by omega
  rw [giniOf_eq hk1 vs cnt hc]
  simp only [Bool.false_eq_true, if_false]
  exact ⟨(gini_range hk hn h).1, (gini_range hk hn h).2, gini_zero hk hn h, gini_one hk hn h⟩

/-- It is one minus the sum of the squared frequencies, relative to its maximum. -/
theorem C43_gini_formula (k : ℕ) (hk : 2 ≤ k) (data : Data) (rows : List ℕ) (t : ℕ) :
    giniOf k (binCount data rows t) rows.length false =
      (1 - ∑ j ∈ Finset.range k, (((vals data rows t).count j : ℚ) / (rows.length : ℚ)) ^ 2)
        / (1 - 1 / (k : ℚ)) := by
  have hlen : rows.length = (vals data rows t).length := by simp [vals]
  rw [hlen, giniOf_eq (by omega) (vals data rows t) _ (fun j => binCount_eq data rows t j)]
  rfl

example : giniOf 3 (fun j => if j < 2 then 1 else 0) 2 false = 3 / 4 := by decide +kernel

/-- The relative reduction of the variance by a division lies in [0,1]. -/
theorem C43_reduction (all xs ys : List ℚ) (h : all.Perm (xs ++ ys)) (hv : variance all ≠ 0) :
    0 ≤ relReduction all xs ys ∧ relReduction all xs ys ≤ 1 := relReduction_range h hv

example : relReduction [0, 0, 3, 3] [0, 0] [3, 3] = 1 := by decide +kernel

/-- The improvement of one numeric target is the relative reduction of its variance.  Missing:
several targets, see `C43_violated_average`. -/
theorem C43_improvement_partial (data : Data) (rows L R : List ℕ) (t : ℕ) (h : rows.Perm (L ++ R))
    (hv : variance (col data rows t) ≠ 0) :
    varImpr [t] (fun t => variance (col data rows t)) (fun t => variance (col data L t))
      (fun t => variance (col data R t)) L.length R.length none =
        mean [relReduction (col data rows t) (col data L t) (col data R t)] := by
  unfold varImpr varImprStep relReduction mean
  have hlen : (col data rows t).length = L.length + R.length := by
    simp [col, h.length_eq]
  simp only [List.foldl_cons, List.foldl_nil, hv, reduceCtorEq, or_self, if_false, hlen]
  simp only [col, List.length_map, List.sum_cons, List.sum_nil, List.length_cons, List.length_nil]
  push_cast
  ring_nf

/-- The improvement of two numeric targets is not the average of the reductions and exceeds one. -/
theorem C43_violated_average : ∃ (data : Data) (L R : List ℕ),
    varImpr [0, 1] (fun t => variance (col data (L ++ R) t)) (fun t => variance (col data L t))
      (fun t => variance (col data R t)) L.length R.length none = 3 / 2 ∧
    mean [relReduction (col data (L ++ R) 0) (col data L 0) (col data R 0),
      relReduction (col data (L ++ R) 1) (col data L 1) (col data R 1)] = 1 :=
  ⟨fun r _ => if r = 0 then 0 else 1, [0], [1], by decide +kernel, by decide +kernel⟩

/-- The improvement of a split found by the learner exceeds one. -/
theorem C43_violated_exceeds : ∃ (a : Args) (data : Data),
    a.targets = [] ∧ (bestSplit (a.cfg 2) data [0, 1]).gain = ((3 / 2 : ℚ) : WithBot ℚ) :=
  ⟨⟨[.numeric, .numeric, .numeric], [], [], .int 1, none, none, none, fun _ => false⟩,
    fun r _ => if r = 0 then 0 else 1, rfl, by decide +kernel⟩

/-- If the symbolic targets are not the first symbolic variables, their impurities are scaled with the
domain sizes of other variables: a uniform target with two values gets 3/4 instead of 1. -/
theorem C43_violated_subset : ∃ (a : Args) (data : Data),
    a.vars[1]? = some (.symbolic 2) ∧ a.targets = [1] ∧ vals data [0, 1] 1 = [0, 1] ∧
    (totals (a.cfg 2) data [0, 1]).gini = 3 / 4 ∧ gini 2 [0, 1] = 1 :=
  ⟨⟨[.symbolic 3, .symbolic 2], [1], [], .int 1, none, none, none, fun _ => false⟩,
    fun r _ => r, rfl, rfl, by decide +kernel, by decide +kernel, by decide +kernel⟩

/-! ## C65: the learner chooses the best split -/

/-- The split found is an admissible division of the rows by a feature, the reported improvement is
its improvement, computed from scratch, and no admissible division has a larger one.  If nothing is
found, there is no admissible division. -/
theorem C65_best (c : Cfg) (data : Data) (rows : List ℕ) (hresp : Respects c)
    (hdeps : ∀ v ∈ c.features, ∀ t ∈ c.numT ++ c.symT, t ∈ c.deps v)
    (hdata : ∀ v, c.isSym v = true → ∀ r ∈ rows, 0 ≤ data r v) :
    ((∀ v L R, Division c data v rows L R →
        ¬ (c.minSamples ≤ (L.length : ℚ) ∧ c.minSamples ≤ (R.length : ℚ))) ∧
      (bestSplit c data rows).gain = ⊥) ∨
    ∃ v p L R, (bestSplit c data rows).var = some v ∧ (bestSplit c data rows).pos = some p ∧
      (bestSplit c data rows).rows = L ++ R ∧ L.length = p + 1 ∧ Division c data v rows L R ∧
      c.minSamples ≤ (L.length : ℚ) ∧ c.minSamples ≤ (R.length : ℚ) ∧
      (bestSplit c data rows).gain = ((improvement c data v rows L R : ℚ) : WithBot ℚ) ∧
      ∀ v' L' R', Division c data v' rows L' R' → c.minSamples ≤ (L'.length : ℚ) →
        c.minSamples ≤ (R'.length : ℚ) →
        improvement c data v' rows L' R' ≤ improvement c data v rows L R := by
  by_cases hg : (bestSplit c data rows).gain = ⊥
  · left
    refine ⟨?_, hg⟩
    rintro v L R hD ⟨hl, hr⟩
    have := bestSplit_best hresp hdeps hD hl hr
    rw [hg] at this
    exact absurd this (by simp)
  · right
    obtain ⟨v, p, L, R, h1, h2, h3, h4, h5, h6, h7, h8⟩ := bestSplit_division hresp hdeps hdata hg
    refine ⟨v, p, L, R, h1, h2, h3, h4, h5, h6, h7, h8, ?_⟩
    intro v' L' R' hD hl hr
    have := bestSplit_best hresp hdeps hD hl hr
    rw [h8] at this
    exact WithBot.coe_le_coe.1 this

/-- A leaf is only made at the depth limit, or if no admissible division of its rows has the required
improvement. -/
theorem C65_leaf (c : Cfg) (data : Data) (total : ℕ) (fit : List ℕ → ℕ → D)
    (hdata : DataOK c data total) (hresp : Respects c)
    (hdeps : ∀ v ∈ c.features, ∀ t ∈ c.numT ++ c.symT, t ∈ c.deps v)
    {h : Heap D} (hl : learn c data total fit = .ok h) :
    ∀ e ∈ h.leaves, (∃ m, c.maxDepth = some m ∧ e.2.path.length = m) ∨
      ∀ v L R, Division c data v e.2.rows L R → c.minSamples ≤ (L.length : ℚ) →
        c.minSamples ≤ (R.length : ℚ) → improvement c data v e.2.rows L R < c.minImp := by
  obtain ⟨idx, hI⟩ := learn_inv hdata hl
  intro e he
  rcases (hI.leaf e he).stop hresp hdeps with ⟨m, hm, hle⟩ | h
  · exact .inl ⟨m, hm, le_antisymm ((hI.leaf e he).depth m hm) hle⟩
  · exact .inr h

/-- Without `dependencies`, all targets depend on all features. -/
theorem C65_default (a : Args) (total : ℕ) (hd : a.deps = none) :
    ∀ v ∈ (a.cfg total).features, ∀ t ∈ (a.cfg total).numT ++ (a.cfg total).symT,
      t ∈ (a.cfg total).deps v := by
  intro v _ t ht
  have hdep : (a.cfg total).deps v = a.allTargets := by
    unfold Args.cfg
    simp only [hd]
  rw [hdep]
  have : (a.cfg total).targets = a.allTargets := rfl
  rw [← this]
  rcases List.mem_append.1 ht with ht | ht
  · have := (List.mem_filter.1 ht).2
    simp only [Bool.and_eq_true, List.contains_iff_mem] at this
    exact this.2
  · have := (List.mem_filter.1 ht).2
    simp only [Bool.and_eq_true, List.contains_iff_mem] at this
    exact this.2

/-- With `dependencies` the independent targets are not left out: their stale statistics decide the
split.  The reported improvement 1 belongs to a division with improvement 1/9. -/
theorem C65_violated_dependency : ∃ (a : Args) (data : Data),
    (bestSplit (a.cfg 4) data [0, 1, 2, 3]).gain = ((1 : ℚ) : WithBot ℚ) ∧
    (bestSplit (a.cfg 4) data [0, 1, 2, 3]).pos = some 2 ∧
    improvement (a.cfg 4) data 0 [0, 1, 2, 3] [0, 1, 2] [3] = 1 / 9 ∧
    improvement (a.cfg 4) data 0 [0, 1, 2, 3] [0] [1, 2, 3] = 1 :=
  ⟨⟨[.numeric, .numeric], [1], [], .int 1, none, none, some (fun _ => []), fun _ => false⟩,
    fun r v => if v = 0 then r else if r = 0 then 6 else 0,
    by decide +kernel, by decide +kernel, by decide +kernel, by decide +kernel⟩

example : Respects (exMix.cfg 4) ∧ (bestSplit (exMix.cfg 4) exMixData [0, 1, 2, 3]).gain ≠ ⊥ :=
  ⟨.inl (by decide +kernel), by decide +kernel⟩

end Verif.Learn
