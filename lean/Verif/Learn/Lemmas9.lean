import Verif.Learn.Lemmas8

/-!
# The split chosen is the best one
-/

namespace Verif.Learn

open Trees

theorem cumean_eq (l : List ℚ) : CU.mean l = mean l := by
  unfold CU.mean mean
  congr 1
  induction l using List.reverseRecOn with
  | nil => simp
  | append_singleton l r ih => rw [List.foldl_append, List.sum_append, ← ih]; simp

theorem sumAt_split {data : Data} {rows L R : List ℕ} (h : rows.Perm (L ++ R)) (t : ℕ) :
    sumAt data rows t - sumAt data L t = sumAt data R t := by
  rw [sumAt_eq, sumAt_eq, sumAt_eq, (h.map _).sum_eq, List.map_append, List.sum_append]
  ring

theorem sqSumAt_split {data : Data} {rows L R : List ℕ} (h : rows.Perm (L ++ R)) (t : ℕ) :
    sqSumAt data rows t - sqSumAt data L t = sqSumAt data R t := by
  rw [sqSumAt_eq, sqSumAt_eq, sqSumAt_eq, (h.map _).sum_eq, List.map_append, List.sum_append]
  ring

theorem binCount_split {data : Data} {rows L R : List ℕ} (h : rows.Perm (L ++ R)) (t w : ℕ) :
    binCount data rows t w - binCount data L t w = binCount data R t w := by
  rw [binCount_eq, binCount_eq, binCount_eq, (h.map _).count_eq, List.map_append, List.count_append]
  push_cast
  ring

theorem varianceOf_col (data : Data) (rows : List ℕ) (t : ℕ) :
    varianceOf (sqSumAt data rows t) (sumAt data rows t) rows.length = variance (col data rows t) := by
  rw [← varianceOf_eq, sumAt_eq, sqSumAt_eq]
  simp [col, Function.comp_def]

theorem giniAll_eq (c : Cfg) (data : Data) (rows : List ℕ) (cnt : ℕ → ℕ → ℤ)
    (h : ∀ t ∈ c.symT, ∀ w, cnt t w = binCount data rows t w) :
    CU.mean (giniAll c cnt rows.length) = giniMean c data rows := by
  rw [cumean_eq]
  unfold giniMean giniAll
  congr 1
  rw [List.mapIdx_eq_mapIdx_iff]
  intro i hi
  by_cases hk : c.symbols.getD i 1 = 1
  · rw [if_pos hk, hk]
    simp [giniOf]
  · rw [if_neg hk]
    have hl : rows.length = (vals data rows c.symT[i]).length := by simp [vals]
    rw [hl]
    exact giniOf_eq hk (vals data rows c.symT[i]) _
      (fun j => by rw [h _ (List.getElem_mem hi), binCount_eq]; rfl) _

theorem varImpr_eq (ts : List ℕ) (old left right : ℕ → ℚ) (nl nr v : ℕ) :
    varImpr ts old left right nl nr (some v) =
      combine ((ts.filter (fun t => decide (t ≠ v ∧ old t ≠ 0))).map (fun t =>
        (old t - (left t * nl + right t * nr) / ((nl + nr : ℕ) : ℚ)) / old t)) := by
  unfold varImpr combine
  congr 1
  generalize ((0, 0) : ℚ × ℚ) = acc
  induction ts generalizing acc with
  | nil => rfl
  | cons t ts ih =>
    rw [List.foldl_cons, ih]
    by_cases h : some v = some t ∨ old t = 0
    · have : decide (t ≠ v ∧ old t ≠ 0) = false := by
        simp only [decide_eq_false_iff_not]
        rintro ⟨h1, h2⟩
        rcases h with h | h
        · exact h1 (Option.some.inj h).symm
        · exact h2 h
      rw [List.filter_cons_of_neg (by simp [this])]
      unfold varImprStep
      rw [if_pos h]
    · have h' : decide (t ≠ v ∧ old t ≠ 0) = true := by
        simp only [decide_eq_true_eq]
        push Not at h
        exact ⟨fun e => h.1 (by rw [e]), h.2⟩
      rw [List.filter_cons_of_pos (by exact h'), List.map_cons, List.foldl_cons]
      unfold varImprStep
      rw [if_neg h]

theorem hasNum_false {c : Cfg} {v : ℕ} (h : c.hasNum (some v) = false) : ∀ t ∈ c.numT, t = v := by
  unfold Cfg.hasNum at h
  simp only [decide_eq_false_iff_not, not_not] at h
  intro t ht
  have hnd : c.numT.Nodup := List.Nodup.filter _ List.nodup_range
  by_cases hv : v ∈ c.numT
  · rw [if_pos hv] at h
    have hl : c.numT.length = 1 := by
      have := List.length_pos_of_mem hv
      omega
    obtain ⟨a, ha⟩ := List.length_eq_one_iff.1 hl
    rw [ha] at ht hv
    rw [List.mem_singleton.1 ht, List.mem_singleton.1 hv]
  · rw [if_neg hv] at h
    have := List.length_pos_of_mem ht
    omega

/-- The improvement the loop computes is that of the division, if all targets depend on the
feature. -/
theorem gainOf_eq {c : Cfg} {data : Data} {v : ℕ} {rows L L' R : List ℕ}
    (hdeps : ∀ t ∈ c.numT ++ c.symT, t ∈ c.deps v) (h : rows.Perm (L ++ R)) (hL : L'.Perm L) :
    gainOf c (totals c data rows) v rows.length
        (batch (totals c data rows) data (c.deps v) L' L.length)
      = improvement c data v rows L R := by
  have hlen : rows.length = L.length + R.length := by rw [h.length_eq, List.length_append]
  have hsub : rows.length - L.length = R.length := by omega
  unfold gainOf improvement
  have hsum : ∀ t, sumAt data L' t = sumAt data L t := fun t => by
    rw [sumAt_eq, sumAt_eq, (hL.map _).sum_eq]
  have hsq : ∀ t, sqSumAt data L' t = sqSumAt data L t := fun t => by
    rw [sqSumAt_eq, sqSumAt_eq, (hL.map _).sum_eq]
  have hbin : ∀ t w, binCount data L' t w = binCount data L t w := fun t w => by
    rw [binCount_eq, binCount_eq, (hL.map _).count_eq]
  congr 1
  · cases hn : c.hasNum (some v)
    · have : c.numT.filter (fun t => decide (t ≠ v ∧ variance (col data rows t) ≠ 0)) = [] := by
        rw [List.filter_eq_nil_iff]
        intro t ht
        simp [hasNum_false hn t ht]
      rw [this]
      simp [combine]
    · simp only [if_true]
      congr 1
      rw [varImpr_eq]
      have hT : ∀ t, (totals c data rows).var t = variance (col data rows t) := fun t =>
        varianceOf_col data rows t
      simp only [hT]
      congr 1
      apply List.map_congr_left
      intro t ht
      have ht' : t ∈ c.deps v := hdeps t (by simp [(List.mem_filter.1 ht).1])
      have e1 : varianceOf ((batch (totals c data rows) data (c.deps v) L' L.length).ql t)
          ((batch (totals c data rows) data (c.deps v) L' L.length).sl t)
          (batch (totals c data rows) data (c.deps v) L' L.length).num
          = variance (col data L t) := by
        simp only [batch, if_pos ht', hsum, hsq]
        exact varianceOf_col data L t
      have e2 : varianceOf ((batch (totals c data rows) data (c.deps v) L' L.length).qr t)
          ((batch (totals c data rows) data (c.deps v) L' L.length).sr t)
          (rows.length - (batch (totals c data rows) data (c.deps v) L' L.length).num)
          = variance (col data R t) := by
        simp only [batch, if_pos ht', hsum, hsq, hsub]
        show varianceOf (sqSumAt data rows t - sqSumAt data L t)
          (sumAt data rows t - sumAt data L t) R.length = _
        rw [sumAt_split h, sqSumAt_split h]
        exact varianceOf_col data R t
      rw [e1, e2]
      unfold relReduction
      have hnum : (batch (totals c data rows) data (c.deps v) L' L.length).num = L.length := rfl
      rw [hnum, hsub]
      simp only [col, List.length_map, hlen]
      rw [mul_comm (variance _) (L.length : ℚ), mul_comm (variance _) (R.length : ℚ)]
  · have hg : (totals c data rows).gini = giniMean c data rows := by
      show (if c.hasSym then CU.mean (giniAll c (fun t => binCount data rows t) rows.length) else 0) = _
      rw [giniAll_eq c data rows _ (fun _ _ _ => rfl)]
      cases hs : c.hasSym
      · unfold Cfg.hasSym at hs
        simp only [decide_eq_false_iff_not, not_not, List.length_eq_zero_iff] at hs
        simp [giniMean, hs, mean]
      · rfl
    have hl : CU.mean (giniAll c (batch (totals c data rows) data (c.deps v) L' L.length).cl
        (batch (totals c data rows) data (c.deps v) L' L.length).num) = giniMean c data L := by
      refine giniAll_eq c data L _ ?_
      intro t ht w
      have ht' : t ∈ c.deps v := hdeps t (by simp [ht])
      simp only [batch, if_pos ht', hbin]
    have hr : CU.mean (giniAll c (batch (totals c data rows) data (c.deps v) L' L.length).cr
        (rows.length - (batch (totals c data rows) data (c.deps v) L' L.length).num))
        = giniMean c data R := by
      have : rows.length - (batch (totals c data rows) data (c.deps v) L' L.length).num = R.length :=
        hsub
      rw [this]
      refine giniAll_eq c data R _ ?_
      intro t ht w
      have ht' : t ∈ c.deps v := hdeps t (by simp [ht])
      simp only [batch, if_pos ht', hbin]
      exact binCount_split h t w
    rw [hg, hl, hr]
    have hnum : (batch (totals c data rows) data (c.deps v) L' L.length).num = L.length := rfl
    rw [hnum, hsub]
    cases hs : c.hasSym
    · unfold Cfg.hasSym at hs
      simp only [decide_eq_false_iff_not, not_not, List.length_eq_zero_iff] at hs
      simp [giniMean, hs, mean]
    · rfl

/-! ## Candidates are divisions -/

theorem sorted_filter_take {f : ℕ → ℚ} {l : List ℕ} (h : l.Pairwise (fun x y => f x ≤ f y)) (θ : ℚ) :
    l.filter (fun r => decide (f r ≤ θ)) = l.take (l.filter (fun r => decide (f r ≤ θ))).length := by
  induction l with
  | nil => rfl
  | cons a l ih =>
    rw [List.pairwise_cons] at h
    by_cases ha : f a ≤ θ
    · rw [List.filter_cons_of_pos (by simpa using ha)]
      rw [List.length_cons, List.take_succ_cons, ← ih h.2]
    · have : l.filter (fun r => decide (f r ≤ θ)) = [] := by
        rw [List.filter_eq_nil_iff]
        intro b hb
        have := h.1 b hb
        simp only [decide_eq_true_eq]
        intro hc
        exact ha (this.trans hc)
      rw [List.filter_cons_of_neg (by simpa using ha), this]
      rfl

/-- In a sorted list, the rows up to a threshold end at a position where the value changes. -/
theorem boundary {f : ℕ → ℚ} {l : List ℕ} (h : l.Pairwise (fun x y => f x ≤ f y)) {θ : ℚ}
    (h1 : ∃ r ∈ l, f r ≤ θ) :
    ∃ q, q < l.length ∧ l.take (q + 1) = l.filter (fun r => decide (f r ≤ θ)) ∧
      f (l.getD q 0) ≤ θ ∧ (q + 1 < l.length → θ < f (l.getD (q + 1) 0)) := by
  have hpos : 0 < (l.filter (fun r => decide (f r ≤ θ))).length := by
    obtain ⟨r, hr, he⟩ := h1
    exact List.length_pos_of_mem (List.mem_filter.2 ⟨hr, by simpa using he⟩)
  have hle := List.length_filter_le (fun r => decide (f r ≤ θ)) l
  have ht := sorted_filter_take h θ
  refine ⟨(l.filter (fun r => decide (f r ≤ θ))).length - 1, by omega, ?_, ?_, ?_⟩
  · rw [Nat.sub_add_cancel hpos]
    exact ht.symm
  · have hm := mem_take_getD (l := l) (p := (l.filter (fun r => decide (f r ≤ θ))).length - 1) (by omega)
    rw [Nat.sub_add_cancel hpos, ← ht] at hm
    simpa using (List.mem_filter.1 hm).2
  · rw [Nat.sub_add_cancel hpos]
    intro hlt
    by_contra hc
    have hm : l.getD (l.filter (fun r => decide (f r ≤ θ))).length 0 ∈
        l.drop (l.filter (fun r => decide (f r ≤ θ))).length := by
      rw [getD_eq hlt]
      exact List.mem_drop_iff_getElem.2 ⟨0, by simpa using hlt, by simp⟩
    have hsplit : (l.filter (fun r => decide (f r ≤ θ))).length
        = (l.take (l.filter (fun r => decide (f r ≤ θ))).length).countP (fun r => decide (f r ≤ θ))
        + (l.drop (l.filter (fun r => decide (f r ≤ θ))).length).countP (fun r => decide (f r ≤ θ)) := by
      rw [← List.countP_append, List.take_append_drop, List.countP_eq_length_filter]
    rw [← ht] at hsplit
    have h2 : (l.filter (fun r => decide (f r ≤ θ))).countP (fun r => decide (f r ≤ θ))
        = (l.filter (fun r => decide (f r ≤ θ))).length := by
      rw [List.countP_eq_length]
      intro a ha
      exact (List.mem_filter.1 ha).2
    have h3 : 0 < (l.drop (l.filter (fun r => decide (f r ≤ θ))).length).countP
        (fun r => decide (f r ≤ θ)) := by
      rw [List.countP_pos_iff]
      refine ⟨_, hm, ?_⟩
      simp only [decide_eq_true_eq]
      push Not at hc
      exact hc
    omega

theorem filter_perm_left {p : ℕ → Prop} [DecidablePred p] {rows L R buf : List ℕ}
    (h : rows.Perm (L ++ R)) (hb : buf.Perm rows) (hL : ∀ r ∈ L, p r) (hR : ∀ r ∈ R, ¬ p r) :
    (buf.filter (fun r => decide (p r))).Perm L := by
  refine ((hb.trans h).filter _).trans ?_
  rw [List.filter_append, List.filter_eq_self.2 (by simpa using hL),
    List.filter_eq_nil_iff.2 (by simpa using hR), List.append_nil]

theorem candidate_of_division {c : Cfg} {data : Data} {v : ℕ} {rows L R buf : List ℕ}
    (hresp : Respects c) (hdeps : ∀ t ∈ c.numT ++ c.symT, t ∈ c.deps v)
    (hD : Division c data v rows L R) (hb : buf.Perm rows)
    (hs : buf.Pairwise (fun x y => data x v ≤ data y v))
    (hl : c.minSamples ≤ (L.length : ℚ)) (hr : c.minSamples ≤ (R.length : ℚ)) :
    ∃ q, q < rows.length ∧ Cand data v (c.symF.contains v) buf q ∧
      gainAt c (totals c data rows) data v (c.symF.contains v) buf q
        = ((improvement c data v rows L R : ℚ) : WithBot ℚ) := by
  obtain ⟨hv1, hv2, hperm, hLn, hRn, hkind⟩ := hD
  have hlen : buf.length = L.length + R.length := by
    rw [hb.length_eq, hperm.length_eq, List.length_append]
  have hRpos : 0 < R.length := List.length_pos_iff.2 hRn
  obtain ⟨l0, hl0⟩ := List.exists_mem_of_ne_nil _ hLn
  obtain ⟨r0, hr0⟩ := List.exists_mem_of_ne_nil _ hRn
  rcases hkind with ⟨hk, θ, hθL, hθR⟩ | ⟨hk, w, hwL, hwR⟩
  · have hnf : v ∈ c.numF := numF_iff.2 ⟨hv1, hk, hv2⟩
    rw [numF_not_symF hnf]
    obtain ⟨q, hq1, hq2, hq3, hq4⟩ := boundary hs (θ := θ)
      ⟨l0, hb.mem_iff.2 (hperm.mem_iff.2 (by simp [hl0])), hθL l0 hl0⟩
    have hfp := filter_perm_left (p := fun r => data r v ≤ θ) hperm hb hθL
      (fun r hr => not_le.2 (hθR r hr))
    have hq5 : q + 1 = L.length := by
      have := congrArg List.length hq2
      rw [hfp.length_eq, List.length_take] at this
      omega
    refine ⟨q, by rw [← hb.length_eq]; exact hq1, ?_, ?_⟩
    · unfold Cand
      simp only [Bool.false_eq_true, if_false]
      have : q + 1 < buf.length := by omega
      exact ⟨this, ne_of_lt (lt_of_le_of_lt hq3 (hq4 this))⟩
    · have hleft : leftAt data v false buf q = buf.filter (fun r => decide (data r v ≤ θ)) := by
        unfold leftAt
        simp only [Bool.false_eq_true, if_false, hq2]
      have hnum : numAt c data v false buf q = L.length := by
        unfold numAt
        simp [hq5]
      unfold gainAt
      rw [hnum, if_neg]
      · rw [hleft, hb.length_eq, gainOf_eq hdeps hperm hfp]
      · push Not
        refine ⟨hl, ?_⟩
        have : buf.length - L.length = R.length := by omega
        rw [this]
        exact hr
  · have hsf : c.symF.contains v = true := symF_iff.2 ⟨hv1, hk, hv2⟩
    rw [hsf]
    have hsym : c.hasSym = true := by
      rcases hresp with h | h
      · exact h
      · rw [h] at hsf
        simp at hsf
    have hl0b : l0 ∈ buf := hb.mem_iff.2 (hperm.mem_iff.2 (by simp [hl0]))
    obtain ⟨q, hq1, hq2, hq3, hq4⟩ := boundary hs (θ := w) ⟨l0, hl0b, (hwL l0 hl0).le⟩
    have hval : data (buf.getD q 0) v = w := by
      refine le_antisymm hq3 ?_
      have hm : l0 ∈ buf.take (q + 1) := by
        rw [hq2]
        exact List.mem_filter.2 ⟨hl0b, by simpa using (hwL l0 hl0).le⟩
      have := sorted_take_le hs hq1 l0 hm
      rw [hwL l0 hl0] at this
      exact this
    refine ⟨q, by rw [← hb.length_eq]; exact hq1, ?_, ?_⟩
    · unfold Cand
      simp only [if_true]
      rcases Nat.lt_or_ge (q + 1) buf.length with h | h
      · exact .inr ⟨h, by rw [hval]; exact ne_of_lt (hq4 h)⟩
      · exact .inl (by omega)
    · have hfp := filter_perm_left (p := fun r => data r v = w) hperm hb hwL hwR
      have hleft : leftAt data v true buf q = buf.filter (fun r => decide (data r v = w)) := by
        unfold leftAt
        simp only [if_true, hval]
      have hnum : numAt c data v true buf q = L.length := by
        unfold numAt
        simp only [hsym, Bool.and_self, if_true, hleft, hfp.length_eq]
      unfold gainAt
      rw [hnum, if_neg]
      · rw [hleft, hb.length_eq, gainOf_eq hdeps hperm hfp]
      · push Not
        refine ⟨hl, ?_⟩
        have : buf.length - L.length = R.length := by omega
        rw [this]
        exact hr

/-- Divisions with few rows aside, `compute_best_split` finds the best. -/
theorem bestSplit_best {c : Cfg} {data : Data} {rows : List ℕ} (hresp : Respects c)
    (hdeps : ∀ v ∈ c.features, ∀ t ∈ c.numT ++ c.symT, t ∈ c.deps v) {v : ℕ} {L R : List ℕ}
    (hD : Division c data v rows L R)
    (hl : c.minSamples ≤ (L.length : ℚ)) (hr : c.minSamples ≤ (R.length : ℚ)) :
    ((improvement c data v rows L R : ℚ) : WithBot ℚ) ≤ (bestSplit c data rows).gain := by
  have hinv := loopBest_inv c data rows
  have hgain : (bestSplit c data rows).gain = (loopBest c data rows).gain := by
    have hdef : bestSplit c data rows = match (loopBest c data rows).gain, (loopBest c data rows).var,
        (loopBest c data rows).pos with
      | some _, some v, some p =>
        if c.symF.contains v then
          { loopBest c data rows with
            rows := (moveToFront data (loopBest c data rows).rows v
              (data ((loopBest c data rows).rows.getD p 0) v)).1,
            pos := some (moveToFront data (loopBest c data rows).rows v
              (data ((loopBest c data rows).rows.getD p 0) v)).2 }
        else loopBest c data rows
      | _, _, _ => loopBest c data rows := rfl
    rw [hdef]
    obtain ⟨g, bv, bp, br, bb⟩ := loopBest c data rows
    cases g with
    | bot => rfl
    | coe g =>
      cases bv with
      | none => rfl
      | some w =>
        cases bp with
        | none => rfl
        | some p =>
          show (if c.symF.contains w = true then _ else _ : Best).gain = _
          split_ifs <;> rfl
  rw [hgain]
  have hmem : v ∈ c.numF ++ c.symF := by
    rw [List.mem_append]
    rcases hD.2.2.2.2.2 with ⟨h, -⟩ | ⟨h, -⟩
    · exact .inl (numF_iff.2 ⟨hD.1, h, hD.2.1⟩)
    · exact .inr (List.contains_iff_mem.1 (symF_iff.2 ⟨hD.1, h, hD.2.1⟩))
  have hconst : colConstant data rows v = false := by
    cases hc : colConstant data rows v
    · rfl
    · exfalso
      rw [colConstant_iff] at hc
      obtain ⟨-, -, hperm, hLn, hRn, hkind⟩ := hD
      obtain ⟨l0, hl0⟩ := List.exists_mem_of_ne_nil _ hLn
      obtain ⟨r0, hr0⟩ := List.exists_mem_of_ne_nil _ hRn
      have := hc l0 (hperm.mem_iff.2 (by simp [hl0])) r0 (hperm.mem_iff.2 (by simp [hr0]))
      rcases hkind with ⟨-, θ, h1, h2⟩ | ⟨-, w, h1, h2⟩
      · have h3 := h1 l0 hl0
        have h4 := h2 r0 hr0
        rw [this] at h3
        linarith
      · exact h2 r0 hr0 (this ▸ h1 l0 hl0)
  obtain ⟨buf, hb1, hb2, hb3⟩ := hinv.best v hmem hconst
  obtain ⟨q, hq1, hq2, hq3⟩ := candidate_of_division hresp (hdeps v hD.2.1) hD hb1 hb2 hl hr
  rw [← hq3]
  exact hb3 q hq1 hq2

/-- The split that was found is a division with the reported improvement. -/
theorem bestSplit_division {c : Cfg} {data : Data} {rows : List ℕ} (hresp : Respects c)
    (hdeps : ∀ v ∈ c.features, ∀ t ∈ c.numT ++ c.symT, t ∈ c.deps v)
    (hdata : ∀ v, c.isSym v = true → ∀ r ∈ rows, 0 ≤ data r v)
    (hg : (bestSplit c data rows).gain ≠ ⊥) :
    ∃ v p L R, (bestSplit c data rows).var = some v ∧ (bestSplit c data rows).pos = some p ∧
      (bestSplit c data rows).rows = L ++ R ∧ L.length = p + 1 ∧ Division c data v rows L R ∧
      c.minSamples ≤ (L.length : ℚ) ∧ c.minSamples ≤ (R.length : ℚ) ∧
      (bestSplit c data rows).gain = ((improvement c data v rows L R : ℚ) : WithBot ℚ) := by
  obtain ⟨hperm, hs⟩ := bestSplit_spec c data rows hdata
  rcases hs with hs | ⟨v, p, hv, hp, hF, buf, q, hbl, hgq, hleft, hnum⟩
  · exact absurd hs hg
  have hlt := hF.lt
  have hlen := hperm.length_eq
  have hok : c.isNum v = true ∨ c.hasSym = true := by
    rcases hresp with h1 | h1
    · exact .inr h1
    · rcases hF.kind with h2 | h2
      · exact .inl h2
      · have : c.symF.contains v = true := symF_iff.2 ⟨hF.feature.1, h2, hF.feature.2⟩
        rw [h1] at this
        simp at this
  have hresp' := hF.enough hok
  have hl : ((bestSplit c data rows).rows.take (p + 1)).length = p + 1 := by
    rw [List.length_take]
    omega
  have hr : ((bestSplit c data rows).rows.drop (p + 1)).length = rows.length - (p + 1) := by
    rw [List.length_drop, hlen]
  have hD : Division c data v rows ((bestSplit c data rows).rows.take (p + 1))
      ((bestSplit c data rows).rows.drop (p + 1)) := by
    refine ⟨hF.feature.1, hF.feature.2, ?_, ?_, ?_, ?_⟩
    · rw [List.take_append_drop]
      exact hperm.symm
    · intro h
      rw [h] at hl
      simp at hl
    · intro h
      rw [h] at hr
      simp at hr
      omega
    · rcases hF.kind with h | h
      · obtain ⟨h1, h2⟩ := hF.numeric h
        exact .inl ⟨h, _, sorted_take_le h1 (by omega),
          fun r hr => lt_of_lt_of_le h2 (sorted_drop_ge h1 (by omega) r hr)⟩
      · obtain ⟨h1, h2⟩ := hF.symbolic h
        exact .inr ⟨h, _, h1, h2⟩
  refine ⟨v, p, _, _, hv, hp, (List.take_append_drop _ _).symm, hl, hD, by rw [hl]; exact hresp'.1,
    by rw [hr]; exact hresp'.2, ?_⟩
  have he := gainOf_eq (data := data) (hdeps v hF.feature.2) hD.2.2.1 hleft
  rw [hl] at he
  rw [← hgq]
  unfold gainAt
  rw [hnum hok, hbl, if_neg]
  · rw [← he]
  · push Not
    exact hresp'

theorem perm_gini {k : ℕ} {xs ys : List ℕ} (h : xs.Perm ys) : gini k xs = gini k ys := by
  unfold gini
  rw [h.length_eq]
  congr 2
  apply Finset.sum_congr rfl
  intro j _
  rw [h.count_eq]

theorem perm_giniMean {c : Cfg} {data : Data} {rows rows' : List ℕ} (h : rows.Perm rows') :
    giniMean c data rows = giniMean c data rows' := by
  unfold giniMean
  congr 1
  rw [List.mapIdx_eq_mapIdx_iff]
  intro i hi
  rw [perm_gini (show (vals data rows c.symT[i]).Perm (vals data rows' c.symT[i]) from h.map _)]

/-- The order of the rows does not matter. -/
theorem perm_improvement {c : Cfg} {data : Data} {v : ℕ} {rows rows' L R : List ℕ}
    (h : rows.Perm rows') : improvement c data v rows L R = improvement c data v rows' L R := by
  have hv : ∀ t, variance (col data rows t) = variance (col data rows' t) := fun t =>
    perm_variance (h.map _)
  have hr : ∀ t, relReduction (col data rows t) (col data L t) (col data R t)
      = relReduction (col data rows' t) (col data L t) (col data R t) := by
    intro t
    unfold relReduction
    rw [hv t]
    have : (col data rows t).length = (col data rows' t).length := (h.map _).length_eq
    rw [this]
  unfold improvement
  simp only [hv, hr, perm_giniMean h, h.length_eq]

end Verif.Learn
