import Verif.Learn.Lemmas2

/-!
# What `compute_best_split` returns
-/

namespace Verif.Learn

open Trees

theorem colConstant_perm {data : Data} {rows rows' : List ℕ} {v : ℕ} (h : rows.Perm rows') :
    colConstant data rows v = colConstant data rows' v := by
  rw [Bool.eq_iff_iff, colConstant_iff, colConstant_iff]
  constructor
  · exact fun hc a ha b hb => hc a (h.mem_iff.2 ha) b (h.mem_iff.2 hb)
  · exact fun hc a ha b hb => hc a (h.mem_iff.1 ha) b (h.mem_iff.1 hb)

/-- The state of the loop over the features after the features `done`. -/
structure BInv (c : Cfg) (T : Totals) (data : Data) (rows done : List ℕ) (b : Best) : Prop where
  rows_perm : b.rows.Perm rows
  buf_perm : b.buf.Perm rows
  found : b.gain = ⊥ ∨ ∃ v q, b.var = some v ∧ b.pos = some q ∧ v ∈ done ∧
    colConstant data rows v = false ∧ b.rows.Pairwise (fun x y => data x v ≤ data y v) ∧
    q < rows.length ∧ Cand data v (c.symF.contains v) b.rows q ∧
    gainAt c T data v (c.symF.contains v) b.rows q = b.gain
  best : ∀ v ∈ done, colConstant data rows v = false →
    ∃ buf : List ℕ, buf.Perm rows ∧ buf.Pairwise (fun x y => data x v ≤ data y v) ∧
      ∀ q, q < rows.length → Cand data v (c.symF.contains v) buf q →
        gainAt c T data v (c.symF.contains v) buf q ≤ b.gain

theorem BInv.step {c : Cfg} {T : Totals} {data : Data} {rows done : List ℕ} {b : Best}
    (h : BInv c T data rows done b) (v : ℕ) :
    BInv c T data rows (done ++ [v]) (bestStep c T data b v) := by
  obtain ⟨e1, e2⟩ := evaluate_spec c T data b.rows b.buf v (c.symF.contains v)
    (h.buf_perm.trans h.rows_perm.symm)
  rw [colConstant_perm h.rows_perm, h.rows_perm.length_eq] at e2
  have hperm : (sortRows (fun r => data r v) b.buf).Perm rows :=
    (sortRows_perm _ _).trans h.buf_perm
  have hsorted := sortRows_sorted (fun r => data r v) b.buf
  unfold bestStep
  by_cases hg : (evaluate c T data b.rows b.buf v (c.symF.contains v)).1 > b.gain
  · simp only [hg, if_true, e1]
    cases hc : colConstant data rows v
    · rw [hc] at e2
      simp only [Bool.false_eq_true, if_false] at e2
      refine ⟨hperm, hperm, ?_, ?_⟩
      · rcases e2.2 with hb | ⟨q, hq, hcand, hpos, hgq, -⟩
        · exact .inl hb
        · exact .inr ⟨v, q, rfl, hpos, by simp, hc, hsorted, hq, hcand, hgq⟩
      · intro w hw hwc
        rcases List.mem_append.1 hw with hw | hw
        · obtain ⟨buf, h1, h2, h3⟩ := h.best w hw hwc
          exact ⟨buf, h1, h2, fun q hq hcd => (h3 q hq hcd).trans hg.le⟩
        · rw [List.mem_singleton.1 hw]
          exact ⟨_, hperm, hsorted, e2.1⟩
    · rw [hc, if_pos rfl] at e2
      rw [e2] at hg
      exact absurd hg (not_lt.2 bot_le)
  · simp only [hg, if_false, e1]
    refine ⟨h.rows_perm, hperm, ?_, ?_⟩
    · rcases h.found with hb | ⟨w, q, h1, h2, h3, h4⟩
      · exact .inl hb
      · exact .inr ⟨w, q, h1, h2, by simp [h3], h4⟩
    · intro w hw hwc
      rcases List.mem_append.1 hw with hw | hw
      · exact h.best w hw hwc
      · rw [List.mem_singleton.1 hw] at hwc ⊢
        rw [hwc] at e2
        simp only [Bool.false_eq_true, if_false] at e2
        exact ⟨_, hperm, hsorted, fun q hq hcd => (e2.1 q hq hcd).trans (not_lt.1 hg)⟩

theorem BInv.foldl {c : Cfg} {T : Totals} {data : Data} {rows : List ℕ} :
    ∀ (fs done : List ℕ) (b : Best), BInv c T data rows done b →
      BInv c T data rows (done ++ fs) (fs.foldl (bestStep c T data) b)
  | [], done, b, h => by simpa using h
  | v :: fs, done, b, h => by
    have := BInv.foldl fs (done ++ [v]) _ (h.step v)
    simpa using this

/-- The state after the loop over the features. -/
def loopBest (c : Cfg) (data : Data) (rows : List ℕ) : Best :=
  (c.numF ++ c.symF).foldl (bestStep c (totals c data rows) data) ⟨⊥, none, none, rows, rows⟩

theorem loopBest_inv (c : Cfg) (data : Data) (rows : List ℕ) :
    BInv c (totals c data rows) data rows (c.numF ++ c.symF) (loopBest c data rows) := by
  exact BInv.foldl (c.numF ++ c.symF) [] ⟨⊥, none, none, rows, rows⟩
    (c := c) (T := totals c data rows) (data := data) (rows := rows)
    ⟨List.Perm.refl _, List.Perm.refl _, .inl rfl, fun v hv => absurd hv (by simp)⟩

theorem isNum_not_isSym {c : Cfg} {v : ℕ} (h : c.isNum v = true) : c.isSym v = false := by
  unfold Cfg.isNum at h
  unfold Cfg.isSym
  cases hk : c.vars[v]? with
  | none => rfl
  | some k =>
    rw [hk] at h
    cases k <;> simp_all

theorem symF_iff {c : Cfg} {v : ℕ} :
    c.symF.contains v = true ↔ v < c.vars.length ∧ c.isSym v = true ∧ v ∈ c.features := by
  simp [Cfg.symF, List.mem_filter]

theorem numF_iff {c : Cfg} {v : ℕ} :
    v ∈ c.numF ↔ v < c.vars.length ∧ c.isNum v = true ∧ v ∈ c.features := by
  simp [Cfg.numF, List.mem_filter]

theorem numF_not_symF {c : Cfg} {v : ℕ} (h : v ∈ c.numF) : c.symF.contains v = false := by
  cases hc : c.symF.contains v
  · rfl
  · rw [symF_iff] at hc
    rw [numF_iff] at h
    rw [isNum_not_isSym h.2.1] at hc
    simp at hc

/-- The rows with the value come first. -/
theorem moveToFront_spec (data : Data) (rows : List ℕ) (v : ℕ) (value : ℚ)
    (hpos : ∀ r ∈ rows, 0 ≤ data r v) :
    (moveToFront data rows v value).1.Perm rows ∧
    ((∃ r ∈ rows, data r v = value) →
      (moveToFront data rows v value).2 + 1
        = (rows.filter (fun r => decide (data r v = value))).length ∧
      (∀ r ∈ (moveToFront data rows v value).1.take ((moveToFront data rows v value).2 + 1),
        data r v = value) ∧
      (∀ r ∈ (moveToFront data rows v value).1.drop ((moveToFront data rows v value).2 + 1),
        data r v ≠ value)) := by
  have hperm := sortRows_perm (fun r => if data r v = value then -1 else data r v) rows
  refine ⟨hperm, ?_⟩
  rintro ⟨r0, hr0, hv0⟩
  have hcount : 0 < (rows.filter (fun r => decide (data r v = value))).length := by
    rw [List.length_pos_iff_exists_mem]
    exact ⟨r0, List.mem_filter.2 ⟨hr0, by simpa using hv0⟩⟩
  have h1 : (moveToFront data rows v value).2 + 1
      = (rows.filter (fun r => decide (data r v = value))).length := by
    simp only [moveToFront]
    omega
  refine ⟨h1, ?_⟩
  rw [h1]
  have hsorted := sortRows_sorted (fun r => if data r v = value then -1 else data r v) rows
  show (∀ r ∈ (sortRows (fun r => if data r v = value then -1 else data r v) rows).take _, _) ∧
    (∀ r ∈ (sortRows (fun r => if data r v = value then -1 else data r v) rows).drop _, _)
  rw [← (hperm.filter _).length_eq]
  have hmem : ∀ r ∈ sortRows (fun r => if data r v = value then -1 else data r v) rows,
      0 ≤ data r v := fun r hr => hpos r (hperm.mem_iff.1 hr)
  generalize sortRows (fun r => if data r v = value then -1 else data r v) rows = l at hsorted hmem
  clear h1 hcount hperm hr0 hv0 hpos
  induction l with
  | nil => simp
  | cons r l ih =>
    rw [List.pairwise_cons] at hsorted
    obtain ⟨i1, i2⟩ := ih hsorted.2 (fun r hr => hmem r (by simp [hr]))
    by_cases hr : data r v = value
    · simp only [List.filter_cons, hr, decide_true, if_true, List.length_cons, List.take_succ_cons,
        List.drop_succ_cons, List.mem_cons]
      refine ⟨?_, i2⟩
      rintro x (rfl | hx)
      · exact hr
      · exact i1 x hx
    · have hall : ∀ x ∈ l, data x v ≠ value := by
        intro x hx hxv
        have := hsorted.1 x hx
        simp only [hr, if_false, hxv, if_true] at this
        have h0 := hmem r (by simp)
        linarith
      have : l.filter (fun r => decide (data r v = value)) = [] := by
        rw [List.filter_eq_nil_iff]
        intro x hx
        simpa using hall x hx
      simp only [List.filter_cons, hr, decide_false, Bool.false_eq_true, if_false, this,
        List.length_nil, List.take_zero, List.drop_zero, List.mem_cons]
      refine ⟨fun _ h => absurd h (by simp), ?_⟩
      rintro x (rfl | hx)
      · exact hr
      · exact hall x hx

/-- A split found by `compute_best_split`: the rows of the node in the new order, split after
position `p`. -/
structure Found (c : Cfg) (data : Data) (rows rows' : List ℕ) (v p : ℕ) : Prop where
  perm : rows'.Perm rows
  lt : p + 1 < rows.length
  feature : v < c.vars.length ∧ v ∈ c.features
  kind : c.isNum v = true ∨ c.isSym v = true
  numeric : c.isNum v = true → rows'.Pairwise (fun x y => data x v ≤ data y v) ∧
    data (rows'.getD p 0) v < data (rows'.getD (p + 1) 0) v
  symbolic : c.isSym v = true → (∀ r ∈ rows'.take (p + 1), data r v = data (rows'.getD p 0) v) ∧
    (∀ r ∈ rows'.drop (p + 1), data r v ≠ data (rows'.getD p 0) v)
  enough : c.isNum v = true ∨ c.hasSym = true →
    c.minSamples ≤ ((p + 1 : ℕ) : ℚ) ∧ c.minSamples ≤ ((rows.length - (p + 1) : ℕ) : ℚ)

theorem getD_eq {l : List ℕ} {p : ℕ} (h : p < l.length) : l.getD p 0 = l[p] := by
  simp [h]

theorem mem_take_getD {l : List ℕ} {p : ℕ} (h : p < l.length) : l.getD p 0 ∈ l.take (p + 1) := by
  rw [getD_eq h]
  exact List.mem_take_iff_getElem.2 ⟨p, by omega, rfl⟩

theorem mem_getD {l : List ℕ} {p : ℕ} (h : p < l.length) : l.getD p 0 ∈ l := by
  rw [getD_eq h]
  exact List.getElem_mem h

theorem gainAt_legal {c : Cfg} {T : Totals} {data : Data} {v : ℕ} {s : Bool} {buf : List ℕ} {q : ℕ}
    (h : gainAt c T data v s buf q ≠ ⊥) :
    c.minSamples ≤ (numAt c data v s buf q : ℚ) ∧
      c.minSamples ≤ ((buf.length - numAt c data v s buf q : ℕ) : ℚ) := by
  unfold gainAt at h
  by_cases hc : (numAt c data v s buf q : ℚ) < c.minSamples ∨
      ((buf.length - numAt c data v s buf q : ℕ) : ℚ) < c.minSamples
  · rw [if_pos hc] at h
    exact absurd rfl h
  · push Not at hc
    exact hc

/-- The result of `compute_best_split`. -/
theorem bestSplit_spec (c : Cfg) (data : Data) (rows : List ℕ)
    (hdata : ∀ v, c.isSym v = true → ∀ r ∈ rows, 0 ≤ data r v) :
    (bestSplit c data rows).rows.Perm rows ∧
    ((bestSplit c data rows).gain = ⊥ ∨ ∃ v p, (bestSplit c data rows).var = some v ∧
      (bestSplit c data rows).pos = some p ∧ Found c data rows (bestSplit c data rows).rows v p ∧
      ∃ buf q, buf.length = rows.length ∧ gainAt c (totals c data rows) data v (c.symF.contains v) buf q
          = (bestSplit c data rows).gain ∧
        (leftAt data v (c.symF.contains v) buf q).Perm ((bestSplit c data rows).rows.take (p + 1)) ∧
        (c.isNum v = true ∨ c.hasSym = true → numAt c data v (c.symF.contains v) buf q = p + 1)) := by
  have hinv := loopBest_inv c data rows
  have hdef : bestSplit c data rows = match (loopBest c data rows).gain, (loopBest c data rows).var,
      (loopBest c data rows).pos with
    | some _, some v, some p =>
      if c.symF.contains v then
        { loopBest c data rows with
          rows := (moveToFront data (loopBest c data rows).rows v
            (data ((loopBest c data rows).rows.getD p 0) v)).1,
          pos := some (moveToFront data (loopBest c data rows).rows v
            (data ((loopBest c data rows).rows.getD p 0) v)).2 }
      else loopBest c data rows
    | _, _, _ => loopBest c data rows := rfl
  generalize loopBest c data rows = b at hinv hdef
  rcases hinv.found with hb | ⟨v, q, hv, hq, hf, hconst, hsorted, hlt, hcand, hgain⟩
  · have : bestSplit c data rows = b := by
      rw [hdef]
      obtain ⟨g, bv, bp, br, bb⟩ := b
      simp only at hb
      subst hb
      rfl
    rw [this]
    exact ⟨hinv.rows_perm, .inl hb⟩
  by_cases hbot : b.gain = ⊥
  · have : bestSplit c data rows = b := by
      rw [hdef]
      obtain ⟨g, bv, bp, br, bb⟩ := b
      simp only at hbot
      subst hbot
      rfl
    rw [this]
    exact ⟨hinv.rows_perm, .inl hbot⟩
  have hlen := hinv.rows_perm.length_eq
  have hdef' : bestSplit c data rows = if c.symF.contains v then
        { b with
          rows := (moveToFront data b.rows v (data (b.rows.getD q 0) v)).1,
          pos := some (moveToFront data b.rows v (data (b.rows.getD q 0) v)).2 }
      else b := by
    rw [hdef]
    obtain ⟨g, bv, bp, br, bb⟩ := b
    simp only at hv hq
    subst hv hq
    cases g with
    | bot => exact absurd rfl hbot
    | coe g => rfl
  rw [hdef']
  have hlegal := gainAt_legal (hgain ▸ hbot)
  rw [hlen] at hlegal
  have hfeat : v < c.vars.length ∧ v ∈ c.features := by
    rcases List.mem_append.1 hf with h | h
    · rw [numF_iff] at h
      exact ⟨h.1, h.2.2⟩
    · have := symF_iff.1 (List.contains_iff_mem.2 h)
      exact ⟨this.1, this.2.2⟩
  cases hs : c.symF.contains v
  · -- a numeric feature
    rw [if_neg (by simp)]
    have hnf : v ∈ c.numF := by
      rcases List.mem_append.1 hf with h | h
      · exact h
      · rw [List.contains_iff_mem.2 h] at hs
        exact absurd hs (by decide)
    have hnum : c.isNum v = true := (numF_iff.1 hnf).2.1
    rw [hs] at hcand hlegal
    unfold Cand at hcand
    simp only [Bool.false_eq_true, if_false] at hcand
    rw [hlen] at hcand
    refine ⟨hinv.rows_perm, .inr ⟨v, q, hv, hq, ?_, b.rows, q, hlen, hgain, ?_, ?_⟩⟩
    rotate_left
    · rw [hs]
      simp [leftAt]
    · intro _
      rw [hs]
      simp [numAt]
    refine ⟨hinv.rows_perm, hcand.1, hfeat, .inl hnum, fun _ => ⟨hsorted, ?_⟩, ?_, ?_⟩
    · refine lt_of_le_of_ne ?_ hcand.2
      rw [getD_eq (by omega), getD_eq (by omega)]
      exact List.pairwise_iff_getElem.1 hsorted q (q + 1) (by omega) (by omega) (by omega)
    · intro h
      rw [isNum_not_isSym hnum] at h
      exact absurd h (by decide)
    · intro _
      simpa [numAt] using hlegal
  · -- a symbolic feature
    rw [if_pos rfl]
    have hsym : c.isSym v = true := (symF_iff.1 hs).2.1
    have hnn : c.isNum v = false := by
      cases h : c.isNum v
      · rfl
      · rw [isNum_not_isSym h] at hsym
        exact absurd hsym (by decide)
    have hq' : q < b.rows.length := by omega
    obtain ⟨m1, m2⟩ := moveToFront_spec data b.rows v (data (b.rows.getD q 0) v)
      (fun r hr => hdata v hsym r (hinv.rows_perm.mem_iff.1 hr))
    obtain ⟨m2, m3, m4⟩ := m2 ⟨_, mem_getD hq', rfl⟩
    have hleft : leftAt data v true b.rows q
        = b.rows.filter (fun r => decide (data r v = data (b.rows.getD q 0) v)) := rfl
    generalize hw : data (b.rows.getD q 0) v = w at *
    generalize hmm : moveToFront data b.rows v w = m at *
    obtain ⟨mr, mp⟩ := m
    simp only at m1 m2 m3 m4 ⊢
    have hmlen : mr.length = rows.length := (m1.trans hinv.rows_perm).length_eq
    have hltn : mp + 1 < rows.length := by
      have h1 : mp + 1 ≤ rows.length := by
        rw [m2, ← hlen]
        exact List.length_filter_le _ _
      rcases Nat.lt_or_ge (mp + 1) rows.length with h | h
      · exact h
      · exfalso
        have hall : ∀ r ∈ b.rows, data r v = w := by
          intro r hr
          refine m3 r ?_
          rw [List.take_of_length_le (by omega)]
          exact m1.mem_iff.2 hr
        have : colConstant data rows v = true := by
          rw [colConstant_iff]
          intro x hx y hy
          rw [hall x (hinv.rows_perm.mem_iff.2 hx), hall y (hinv.rows_perm.mem_iff.2 hy)]
        rw [hconst] at this
        exact absurd this (by decide)
    have hval : data (mr.getD mp 0) v = w := m3 _ (mem_take_getD (by omega))
    have hmp : (b.rows.filter (fun r => decide (data r v = w))).Perm (mr.take (mp + 1)) := by
      refine (m1.symm.filter _).trans ?_
      conv_lhs => rw [← List.take_append_drop (mp + 1) mr]
      rw [List.filter_append, List.filter_eq_self.2 (by simpa using m3),
        List.filter_eq_nil_iff.2 (by simpa using m4), List.append_nil]
    refine ⟨m1.trans hinv.rows_perm, .inr ⟨v, mp, hv, rfl, ?_, b.rows, q, hlen, hgain, ?_, ?_⟩⟩
    rotate_left
    · rw [hs, hleft]
      exact hmp
    · rintro (h | h)
      · rw [hnn] at h
        exact absurd h (by decide)
      · rw [hs]
        simp only [numAt, h, Bool.and_self, if_true, hleft, ← m2]
    refine ⟨m1.trans hinv.rows_perm, hltn, hfeat, .inr hsym, ?_, fun _ => ?_, ?_⟩
    · intro h
      rw [hnn] at h
      exact absurd h (by decide)
    · rw [hval]
      exact ⟨m3, m4⟩
    · rintro (h | h)
      · rw [hnn] at h
        exact absurd h (by decide)
      · rw [hs] at hlegal
        simp only [numAt, h, Bool.and_self, if_true, hleft, ← m2] at hlegal
        exact hlegal

end Verif.Learn
