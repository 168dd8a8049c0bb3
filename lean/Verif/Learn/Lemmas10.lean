import Verif.Learn.Lemmas7

/-!
# Only features are split on
-/

namespace Verif.Learn

open Trees

variable {D : Type}

theorem foldl_bestStep_var (c : Cfg) (T : Totals) (data : Data) (l : List ℕ) (b : Best) (v : ℕ)
    (h : (l.foldl (bestStep c T data) b).var = some v) : v ∈ l ∨ b.var = some v := by
  induction l generalizing b with
  | nil => exact .inr h
  | cons a l ih =>
    rw [List.foldl_cons] at h
    rcases ih _ h with h1 | h1
    · exact .inl (by simp [h1])
    · unfold bestStep at h1
      simp only at h1
      split_ifs at h1
      · simp only [Option.some.injEq] at h1
        exact .inl (by simp [h1])
      · exact .inr h1

theorem bestSplit_var (c : Cfg) (data : Data) (rows : List ℕ) (v : ℕ)
    (h : (bestSplit c data rows).var = some v) : v ∈ c.numF ++ c.symF := by
  have key : (bestSplit c data rows).var = ((c.numF ++ c.symF).foldl
      (bestStep c (totals c data rows) data) ⟨⊥, none, none, rows, rows⟩).var := by
    unfold bestSplit
    simp only
    split
    · split_ifs <;> rfl
    · rfl
  rw [key] at h
  rcases foldl_bestStep_var _ _ _ _ _ _ h with h1 | h1
  · exact h1
  · cases h1

theorem feature_of_mem {c : Cfg} {v : ℕ} (h : v ∈ c.numF ++ c.symF) :
    v < c.vars.length ∧ v ∈ c.features := by
  unfold Cfg.numF Cfg.symF at h
  simp only [List.mem_append, List.mem_filter, List.mem_range, Bool.and_eq_true, List.contains_iff_mem] at h
  rcases h with h | h <;> exact ⟨h.1, h.2.2⟩

/-- All splits of the tree are on certain variables. -/
structure OnlyOn (F : ℕ → Prop) (h : Heap D) : Prop where
  var : ∀ k n, h.inner.lookup k = some n → F n.var ∧ ∀ s ∈ n.path, F s.1
  leaf : ∀ k l, h.leaves.lookup k = some l → ∀ s ∈ l.path, F s.1

theorem OnlyOn.attach {F : ℕ → Prop} {h h' : Heap D} (hF : OnlyOn F h) {parent : Option ℕ} {i id : ℕ}
    {p : Path} (he : h.attach parent i id = .ok (h', p)) : OnlyOn F h' ∧ ∀ s ∈ p, F s.1 := by
  unfold Heap.attach at he
  cases parent with
  | none =>
    cases he
    exact ⟨hF, by simp⟩
  | some q =>
    simp only at he
    cases hn : h.inner.lookup q with
    | none => rw [hn] at he; cases he
    | some n =>
      rw [hn] at he
      simp only at he
      cases hs : n.splits[i]? with
      | none => rw [hs] at he; cases he
      | some s =>
        rw [hs] at he
        simp only at he
        by_cases hi : i < n.children.length
        · rw [if_pos hi] at he
          cases he
          obtain ⟨h1, h2⟩ := hF.var q n hn
          refine ⟨⟨?_, hF.leaf⟩, ?_⟩
          · intro k m hm
            rw [Dict.lookup_set] at hm
            split_ifs at hm
            · cases hm
              exact ⟨h1, h2⟩
            · exact hF.var k m hm
          · intro t ht
            rcases List.mem_append.1 ht with ht | ht
            · exact h2 t ht
            · rw [List.mem_singleton.1 ht]
              exact h1
        · rw [if_neg hi] at he
          cases he

theorem OnlyOn.c45 {c : Cfg} {data : Data} {total : ℕ} {fit : List ℕ → ℕ → D} {F : ℕ → Prop}
    (hc : ∀ v ∈ c.numF ++ c.symF, F v) {st st' : LSt D} {it : Item} (hF : OnlyOn F st.heap)
    (he : c45 c data total fit st it = .ok st') : OnlyOn F st'.heap := by
  unfold Learn.c45 at he
  simp only [bind, Except.bind, pure, Except.pure] at he
  cases ha : st.heap.attach it.parent it.child (st.heap.inner.length + st.heap.leaves.length) with
  | error e => rw [ha] at he; cases he
  | ok r =>
    obtain ⟨h1, p⟩ := r
    obtain ⟨hF1, hp⟩ := hF.attach ha
    rw [ha] at he
    simp only at he
    generalize hb : bestSplit c data (slice st.indices it.start it.stop) = b at he
    by_cases hg : (gainOK c b && depthOK c it.depth) = true
    · rw [if_pos hg] at he
      cases hv : b.var with
      | none => rw [hv] at he; cases he
      | some v =>
        cases hq : b.pos with
        | none => rw [hv, hq] at he; cases he
        | some q =>
          rw [hv, hq] at he
          simp only at he
          cases hs : splitsOf c data b.rows v q with
          | error e => rw [hs] at he; cases he
          | ok ss =>
            rw [hs] at he
            cases he
            refine ⟨?_, hF1.leaf⟩
            intro k m hm
            rw [Dict.lookup_set] at hm
            split_ifs at hm
            · cases hm
              exact ⟨hc v (bestSplit_var c data _ v (by rw [hb]; exact hv)), hp⟩
            · exact hF1.var k m hm
    · rw [if_neg hg] at he
      cases he
      refine ⟨hF1.var, ?_⟩
      intro k m hm
      rw [Dict.lookup_set] at hm
      split_ifs at hm
      · cases hm
        exact hp
      · exact hF1.leaf k m hm

theorem OnlyOn.grow {c : Cfg} {data : Data} {total : ℕ} {fit : List ℕ → ℕ → D} {F : ℕ → Prop}
    (hc : ∀ v ∈ c.numF ++ c.symF, F v) (k : ℕ) {st st' : LSt D} (hF : OnlyOn F st.heap)
    (he : grow c data total fit k st = .ok st') : OnlyOn F st'.heap := by
  induction k generalizing st with
  | zero =>
    unfold Learn.grow at he
    split_ifs at he
    cases he
    exact hF
  | succ k ih =>
    unfold Learn.grow at he
    obtain ⟨h, idx, q⟩ := st
    cases q with
    | nil =>
      cases he
      exact hF
    | cons it q =>
      simp only [bind, Except.bind] at he
      cases h1 : Learn.c45 c data total fit ⟨h, idx, q⟩ it with
      | error e => rw [h1] at he; cases he
      | ok st1 =>
        rw [h1] at he
        exact ih (OnlyOn.c45 (st := ⟨h, idx, q⟩) hc hF h1) he

/-- A learned tree splits only on features. -/
theorem learn_only {c : Cfg} {data : Data} {total : ℕ} {fit : List ℕ → ℕ → D} {h : Heap D}
    (hl : learn c data total fit = .ok h) : OnlyOn (fun v => v < c.vars.length ∧ v ∈ c.features) h := by
  unfold learn at hl
  split_ifs at hl
  simp only [bind, Except.bind, pure, Except.pure] at hl
  cases h1 : grow c data total fit (2 * total) ⟨Heap.empty, List.range total, [⟨0, total, none, 0, 0⟩]⟩ with
  | error e => rw [h1] at hl; cases hl
  | ok st =>
    rw [h1] at hl
    cases hl
    refine OnlyOn.grow (fun v hv => feature_of_mem hv) _ ⟨?_, ?_⟩ h1
    · intro k n hk
      cases hk
    · intro k n hk
      cases hk

/-! ## The leaves are in the order of their numbers -/

/-- Node numbers are below the number of nodes, and those of the leaves increase. -/
structure Ordered (h : Heap D) : Prop where
  inner : ∀ k ∈ h.inner.map Prod.fst, k < h.inner.length + h.leaves.length
  leaves : ∀ k ∈ h.leaves.map Prod.fst, k < h.inner.length + h.leaves.length
  sorted : (h.leaves.map Prod.fst).Pairwise (· < ·)

theorem attach_keys {h h' : Heap D} {parent : Option ℕ} {i id : ℕ} {p : Path}
    (he : h.attach parent i id = .ok (h', p)) :
    h'.inner.map Prod.fst = h.inner.map Prod.fst ∧ h'.leaves = h.leaves := by
  unfold Heap.attach at he
  cases parent with
  | none =>
    cases he
    exact ⟨rfl, rfl⟩
  | some q =>
    simp only at he
    cases hn : h.inner.lookup q with
    | none => rw [hn] at he; cases he
    | some n =>
      rw [hn] at he
      simp only at he
      cases hs : n.splits[i]? with
      | none => rw [hs] at he; cases he
      | some s =>
        rw [hs] at he
        simp only at he
        by_cases hi : i < n.children.length
        · rw [if_pos hi] at he
          cases he
          refine ⟨?_, rfl⟩
          show (Dict.set h.inner q _).map Prod.fst = _
          rw [Dict.keys_set, if_pos (Dict.lookup_isSome.1 ⟨n, hn⟩)]
        · rw [if_neg hi] at he
          cases he

theorem Ordered.c45 {c : Cfg} {data : Data} {total : ℕ} {fit : List ℕ → ℕ → D} {st st' : LSt D}
    {it : Item} (hO : Ordered st.heap) (he : c45 c data total fit st it = .ok st') :
    Ordered st'.heap := by
  unfold Learn.c45 at he
  simp only [bind, Except.bind, pure, Except.pure] at he
  cases ha : st.heap.attach it.parent it.child (st.heap.inner.length + st.heap.leaves.length) with
  | error e => rw [ha] at he; cases he
  | ok r =>
    obtain ⟨h1, p⟩ := r
    obtain ⟨k1, k2⟩ := attach_keys ha
    have hlen : h1.inner.length = st.heap.inner.length := by
      rw [← List.length_map (f := Prod.fst), k1, List.length_map]
    rw [ha] at he
    simp only at he
    generalize hb : bestSplit c data (slice st.indices it.start it.stop) = b at he
    by_cases hg : (gainOK c b && depthOK c it.depth) = true
    · rw [if_pos hg] at he
      cases hv : b.var with
      | none => rw [hv] at he; cases he
      | some v =>
        cases hq : b.pos with
        | none => rw [hv, hq] at he; cases he
        | some q =>
          rw [hv, hq] at he
          simp only at he
          cases hs : splitsOf c data b.rows v q with
          | error e => rw [hs] at he; cases he
          | ok ss =>
            rw [hs] at he
            cases he
            have hnot : st.heap.inner.length + st.heap.leaves.length ∉ h1.inner.map Prod.fst := by
              rw [k1]
              intro hc
              exact absurd (hO.inner _ hc) (lt_irrefl _)
            have hkeys : ∀ b : Inner, (Dict.set h1.inner (st.heap.inner.length + st.heap.leaves.length) b).map
                Prod.fst = st.heap.inner.map Prod.fst ++ [st.heap.inner.length + st.heap.leaves.length] := by
              intro b
              rw [Dict.keys_set, if_neg hnot, k1]
            have hl : ∀ b : Inner, (Dict.set h1.inner (st.heap.inner.length + st.heap.leaves.length) b).length
                = st.heap.inner.length + 1 := by
              intro b
              rw [← List.length_map (f := Prod.fst), hkeys]
              simp
            refine ⟨?_, ?_, ?_⟩
            · intro k hk
              simp only [hkeys, List.mem_append, List.mem_singleton] at hk
              simp only [hl, k2]
              rcases hk with hk | hk
              · have := hO.inner k hk
                omega
              · omega
            · intro k hk
              simp only [hl, k2] at hk ⊢
              have := hO.leaves k hk
              omega
            · simp only [k2]
              exact hO.sorted
    · rw [if_neg hg] at he
      cases he
      have hnot : st.heap.inner.length + st.heap.leaves.length ∉ h1.leaves.map Prod.fst := by
        rw [k2]
        intro hc
        exact absurd (hO.leaves _ hc) (lt_irrefl _)
      have hkeys : ∀ b : Leaf D, (Dict.set h1.leaves (st.heap.inner.length + st.heap.leaves.length) b).map
          Prod.fst = st.heap.leaves.map Prod.fst ++ [st.heap.inner.length + st.heap.leaves.length] := by
        intro b
        rw [Dict.keys_set, if_neg hnot, k2]
      have hl : ∀ b : Leaf D, (Dict.set h1.leaves (st.heap.inner.length + st.heap.leaves.length) b).length
          = st.heap.leaves.length + 1 := by
        intro b
        rw [← List.length_map (f := Prod.fst), hkeys]
        simp
      refine ⟨?_, ?_, ?_⟩
      · intro k hk
        simp only [k1, hl, hlen] at hk ⊢
        have := hO.inner k hk
        omega
      · intro k hk
        simp only [hkeys, List.mem_append, List.mem_singleton] at hk
        simp only [hl, hlen]
        rcases hk with hk | hk
        · have := hO.leaves k hk
          omega
        · omega
      · simp only [hkeys]
        rw [List.pairwise_append]
        refine ⟨hO.sorted, List.pairwise_singleton _ _, ?_⟩
        intro a ha b hb
        rw [List.mem_singleton.1 hb]
        exact hO.leaves a ha

theorem Ordered.grow {c : Cfg} {data : Data} {total : ℕ} {fit : List ℕ → ℕ → D} (k : ℕ) {st st' : LSt D}
    (hO : Ordered st.heap) (he : grow c data total fit k st = .ok st') : Ordered st'.heap := by
  induction k generalizing st with
  | zero =>
    unfold Learn.grow at he
    split_ifs at he
    cases he
    exact hO
  | succ k ih =>
    unfold Learn.grow at he
    obtain ⟨h, idx, q⟩ := st
    cases q with
    | nil =>
      cases he
      exact hO
    | cons it q =>
      simp only [bind, Except.bind] at he
      cases h1 : Learn.c45 c data total fit ⟨h, idx, q⟩ it with
      | error e => rw [h1] at he; cases he
      | ok st1 =>
        rw [h1] at he
        exact ih (Ordered.c45 (st := ⟨h, idx, q⟩) hO h1) he

/-- The leaves of a learned tree are listed by increasing number. -/
theorem learn_sorted {c : Cfg} {data : Data} {total : ℕ} {fit : List ℕ → ℕ → D} {h : Heap D}
    (hl : learn c data total fit = .ok h) : (h.leaves.map Prod.fst).Pairwise (· < ·) := by
  unfold learn at hl
  split_ifs at hl
  simp only [bind, Except.bind, pure, Except.pure] at hl
  cases h1 : grow c data total fit (2 * total) ⟨Heap.empty, List.range total, [⟨0, total, none, 0, 0⟩]⟩ with
  | error e => rw [h1] at hl; cases hl
  | ok st =>
    rw [h1] at hl
    cases hl
    refine (Ordered.grow _ ⟨?_, ?_, ?_⟩ h1).sorted
    · intro k hk
      cases hk
    · intro k hk
      cases hk
    · exact List.Pairwise.nil

end Verif.Learn
