import Verif.Discrete.Lemmas

/-! # Lemmas on cropping, merging, ranking and fitting -/

namespace Verif.Disc

section
variable {L : Type} [DecidableEq L]

/-! ## The domain types -/

theorem symbolicType_ok {name : String} {labels : List L} {d : Dom L}
    (h : symbolicType name labels = .ok d) : d = ⟨name, labels⟩ ∧ labels ≠ [] ∧ labels.Nodup := by
  unfold symbolicType at h
  split_ifs at h with h1 h2
  · cases h
    refine ⟨rfl, ?_, ?_⟩
    · rintro rfl; simp at h1
    · have h3 : labels.dedup.length = labels.length := by simpa using h2
      have h4 := (List.dedup_sublist labels).eq_of_length h3
      rw [← h4]; exact List.nodup_dedup _

theorem intLabels_nodup (a b : ℤ) : (intLabels a b).Nodup := by
  unfold intLabels
  refine List.Nodup.map ?_ List.nodup_range
  intro i j hij
  have : a + (i : ℤ) = a + (j : ℤ) := hij
  omega

theorem intLabels_length (a b : ℤ) : (intLabels a b).length = (b - a + 1).toNat := by
  simp [intLabels]

theorem mem_intLabels {a b x : ℤ} : x ∈ intLabels a b ↔ a ≤ x ∧ x ≤ b := by
  unfold intLabels
  simp only [List.mem_map, List.mem_range]
  constructor
  · rintro ⟨i, hi, rfl⟩; omega
  · rintro ⟨h1, h2⟩; exact ⟨(x - a).toNat, by omega, by omega⟩

theorem intLabels_get {a b x : ℤ} (h : a ≤ x ∧ x ≤ b) :
    (intLabels a b)[(x - a).toNat]? = some x := by
  unfold intLabels
  have : (x - a).toNat < (b - a + 1).toNat := by omega
  rw [List.getElem?_map, List.getElem?_range this]
  simp only [Option.map_some, Option.some.injEq]
  omega

/-! ## Normalising a restricted distribution -/

omit [DecidableEq L] in
theorem cond_proper {d : Dist L} (hd : d.Proper) (T : L → Prop) [DecidablePred T]
    (hT : d.P T ≠ 0) (d' : Dist L) (h1 : d'.dom = d.dom)
    (h2 : d'.params = (zeroOutside d.dom.labels d.params T).map (· / d.P T)) :
    d'.Proper ∧ ∀ (S : L → Prop) [DecidablePred S], d'.P S = d.P (fun l => S l ∧ T l) / d.P T := by
  obtain ⟨hn, hlen, hnn, hs⟩ := hd
  have hpos : 0 < d.P T := lt_of_le_of_ne (mass_nonneg _ _ _ hnn) (Ne.symm hT)
  constructor
  · refine ⟨by rw [h1]; exact hn, ?_, ?_, ?_⟩
    · rw [h1, h2, List.length_map, zeroOutside_length _ _ _ hlen]
    · rw [h2]
      intro p hp
      obtain ⟨q, hq, rfl⟩ := List.mem_map.1 hp
      exact div_nonneg (zeroOutside_nonneg _ _ _ hnn q hq) hpos.le
    · rw [h2, Ut.sum_div, zeroOutside_sum]
      exact div_self hT
  · intro S _
    unfold Dist.P
    rw [h1, h2, mass_map_div, mass_zeroOutside]
    rfl

/-- The conditional parameters. -/
def condParams (d : Dist L) (T : L → Prop) [DecidablePred T] : List ℚ :=
  (zeroOutside d.dom.labels d.params T).map (· / d.P T)

/-- The values of an event, as a list. -/
theorem mapM_valueOf (d : Dom L) (ls : List L) :
    (∀ l ∈ ls, l ∈ d.labels) → ∃ vs, ls.mapM d.valueOrErr = .ok vs ∧ List.Forall₂ (fun l v => d.valueOf l = some v) ls vs := by
  induction ls with
  | nil => intro _; exact ⟨[], rfl, .nil⟩
  | cons l ls ih =>
    intro h
    obtain ⟨vs, h1, h2⟩ := ih (fun m hm => h m (List.mem_cons_of_mem _ hm))
    cases hv : d.valueOf l with
    | none => exact absurd (h l List.mem_cons_self) (valueOf_none.1 hv)
    | some v =>
      refine ⟨v :: vs, ?_, .cons hv h2⟩
      rw [List.mapM_cons, h1]
      simp [Dom.valueOrErr, hv, bind, Except.bind, pure, Except.pure]

theorem mapM_valueOf_error (d : Dom L) (ls : List L) (h : ¬ ∀ l ∈ ls, l ∈ d.labels) :
    ls.mapM d.valueOrErr = .error .valueError := by
  cases hm : ls.mapM d.valueOrErr with
  | error e =>
    obtain ⟨a, _, ha⟩ := mapM_error _ e ls hm
    cases hv : d.valueOf a <;> simp [Dom.valueOrErr, hv] at ha
    rw [← ha]
  | ok r =>
    exfalso
    apply h
    have := (mapM_ok_iff _ ls r).1 hm
    clear hm h
    induction this with
    | nil => simp
    | cons h1 _ ih =>
      intro m hm
      rcases List.mem_cons.1 hm with rfl | hm
      · by_contra hc
        rw [Dom.valueOrErr, valueOf_none.2 hc] at h1
        cases h1
      · exact ih m hm

theorem forall₂_values {d : Dom L} {ls : List L} {vs : List ℤ}
    (h : List.Forall₂ (fun l v => d.valueOf l = some v) ls vs) :
    ∀ v, v ∈ vs ↔ ∃ l ∈ ls, d.valueOf l = some v := by
  induction h with
  | nil => simp
  | cons h1 _ ih =>
    intro v
    simp only [List.mem_cons, ih]
    constructor
    · rintro (rfl | ⟨x, hx, hx'⟩)
      · exact ⟨_, Or.inl rfl, h1⟩
      · exact ⟨x, Or.inr hx, hx'⟩
    · rintro ⟨x, rfl | hx, hx'⟩
      · rw [h1] at hx'; cases hx'; exact Or.inl rfl
      · exact Or.inr ⟨x, hx, hx'⟩

/-- `normalized` on non-negative weights. -/
theorem normValues_nonneg (w : List ℚ) (h : ∀ v ∈ w, 0 ≤ v) :
    Ut.normValues false false 0 w =
      if w.sum = 0 then .error .valueError else .ok (w.map (· / w.sum)) := by
  have := Ut.C20_normalized_list (K := ℕ) false false w
  have habs : Ut.absSum w = w.sum := by
    unfold Ut.absSum
    congr 1
    conv_rhs => rw [← List.map_id w]
    exact List.map_congr_left (fun v hv => abs_of_nonneg (h v hv))
  rw [if_neg (by rintro ⟨⟨v, hv, hv'⟩, _⟩; exact absurd (h v hv) (not_le.2 hv')), habs] at this
  simp only [Ut.normalized] at this
  by_cases hz : w.sum = 0
  · rw [if_pos ((Ut.sum_eq_zero_iff h).1 hz)] at this
    rw [if_pos hz]
    cases hn : Ut.normValues false false 0 w with
    | error e => simp [hn, bind, Except.bind, Except.map] at this ⊢; exact this
    | ok r => simp [hn, bind, Except.bind, Except.map] at this
  · rw [if_neg (fun hc => hz ((Ut.sum_eq_zero_iff h).2 hc))] at this
    rw [if_neg hz]
    cases hn : Ut.normValues false false 0 w with
    | error e => simp [hn, bind, Except.bind, Except.map] at this
    | ok r => simp [hn, bind, Except.bind, Except.map] at this ⊢; exact this

/-! ## Merging -/

omit [DecidableEq L] in
theorem mass_replicate (S : L → Prop) [DecidablePred S] : ∀ (ls : List L) (n : ℕ),
    mass ls (List.replicate n (0 : ℚ)) S = 0
  | [], _ => mass_nil _ _
  | _ :: _, 0 => by simp [mass_nil']
  | a :: ls, n + 1 => by
    rw [List.replicate_succ, mass_cons, mass_replicate S ls n]; split_ifs <;> simp

theorem equiv_refl (d : Dom L) : d.equiv d = true := by
  simp only [Dom.equiv, beq_self_eq_true, Bool.true_and, dictEq, List.all_eq_true]
  intro q hq
  rw [List.mem_iff_getElem] at hq
  obtain ⟨i, hi, rfl⟩ := hq
  simp

/-- The weighted sum of the masses of a list of weight vectors. -/
theorem merge_fold (ls : List L) : ∀ (qs : List (Dist L × ℚ)) (acc : List ℚ),
    acc.length = ls.length → (∀ q ∈ qs, q.1.params.length = ls.length) →
    ∃ ps, qs.foldlM (fun acc q => addScaled acc q.1.params q.2) acc = .ok ps ∧
      ps.length = ls.length ∧
      ((∀ a ∈ acc, 0 ≤ a) → (∀ q ∈ qs, 0 ≤ q.2 ∧ ∀ p ∈ q.1.params, 0 ≤ p) → ∀ p ∈ ps, 0 ≤ p) ∧
      ∀ (S : L → Prop) [DecidablePred S],
        mass ls ps S = mass ls acc S + (qs.map fun q => mass ls q.1.params S * q.2).sum
  | [], acc, ha, _ => ⟨acc, rfl, ha, fun h _ => h, fun S _ => by simp⟩
  | q :: qs, acc, ha, hq => by
    have h1 := hq q List.mem_cons_self
    have hstep : addScaled acc q.1.params q.2
        = .ok (List.zipWith (fun a p => a + p * q.2) acc q.1.params) := by
      unfold addScaled; rw [if_pos (by rw [h1, ha])]
    obtain ⟨ps, h2, h3, h4, h5⟩ := merge_fold ls qs
      (List.zipWith (fun a p => a + p * q.2) acc q.1.params) (by simp [ha, h1])
      (fun r hr => hq r (List.mem_cons_of_mem _ hr))
    refine ⟨ps, ?_, h3, ?_, ?_⟩
    · rw [List.foldlM_cons, hstep]; exact h2
    · intro hacc hqs
      apply h4
      · intro a ha'
        obtain ⟨i, hi, rfl⟩ := List.getElem_of_mem ha'
        rw [List.getElem_zipWith]
        have := hqs q List.mem_cons_self
        exact add_nonneg (hacc _ (List.getElem_mem _))
          (mul_nonneg (this.2 _ (List.getElem_mem _)) this.1)
      · exact fun r hr => hqs r (List.mem_cons_of_mem _ hr)
    · intro S _
      rw [h5, mass_zipWith_add q.2 ls acc q.1.params S ha h1, List.map_cons, List.sum_cons]
      ring

/-! ## Fitting -/

theorem mass_modify (x : ℚ) : ∀ (ls : List L) (ps : List ℚ) (i : ℕ) (l : L) (S : L → Prop)
    [DecidablePred S], ls[i]? = some l → ps.length = ls.length →
    mass ls (ps.modify i (· + x)) S = mass ls ps S + if S l then x else 0
  | [], _, _, _, _, _, h, _ => by simp at h
  | _ :: _, [], _, _, _, _, _, h => by simp at h
  | m :: ls, p :: ps, 0, l, S, _, h, _ => by
    simp at h; subst h
    simp only [List.modify_zero_cons, mass_cons]
    split_ifs <;> ring
  | m :: ls, p :: ps, i + 1, l, S, _, h, hl => by
    simp only [List.modify_succ_cons, mass_cons]
    rw [mass_modify x ls ps i l S (by simpa using h) (by simpa using hl)]
    ring

omit [DecidableEq L] in
theorem fit_fold (ls : List L) (x : ℚ) (hx : 0 ≤ x) : ∀ (vs : List ℤ) (ks : List L) (acc : List ℚ),
    acc.length = ls.length → (∀ a ∈ acc, 0 ≤ a) →
    List.Forall₂ (fun k (v : ℤ) => ∃ i : ℕ, v = (i : ℤ) ∧ ls[i]? = some k) ks vs →
    ∃ ps, vs.foldlM (fun ps v => addAt ps v x) acc = .ok ps ∧ ps.length = ls.length ∧
      (∀ p ∈ ps, 0 ≤ p) ∧
      ∀ (S : L → Prop) [DecidablePred S],
        mass ls ps S = mass ls acc S + (ks.countP (fun k => decide (S k)) : ℚ) * x
  | [], _, acc, ha, hacc, h => by
    cases h
    exact ⟨acc, rfl, ha, hacc, fun S _ => by simp⟩
  | v :: vs, _, acc, ha, hacc, h => by
    classical
    cases h with
    | cons h1 h2 =>
      rename_i k ks
      obtain ⟨i, rfl, hi⟩ := h1
      have hlt : i < acc.length := by rw [ha]; exact (List.getElem?_eq_some_iff.1 hi).1
      have hstep : addAt acc (i : ℤ) x = .ok (acc.modify i (· + x)) := by
        unfold addAt
        rw [pyIdx_natCast hlt]
      obtain ⟨ps, h3, h4, h5, h6⟩ := fit_fold ls x hx vs ks (acc.modify i (· + x)) (by simp [ha])
        (by
          intro a ha'
          obtain ⟨j, hj, rfl⟩ := List.getElem_of_mem ha'
          rw [List.getElem_modify]
          split_ifs
          · exact add_nonneg (hacc _ (List.getElem_mem _)) hx
          · exact hacc _ (List.getElem_mem _)) h2
      refine ⟨ps, ?_, h4, h5, ?_⟩
      · rw [List.foldlM_cons, hstep]; exact h3
      · intro S _
        rw [h6, mass_modify x ls acc i k S hi ha, List.countP_cons]
        by_cases hs : S k
        · simp [hs]; ring
        · simp [hs]

/-! ## Ranking -/

theorem likelihoods_mem {ps : List ℚ} {q : ℚ} : q ∈ likelihoods ps ↔ q ∈ ps ∧ q ≠ 0 := by
  unfold likelihoods
  rw [List.mem_insertionSort, List.mem_dedup, List.mem_filter]
  simp

theorem likelihoods_sorted (ps : List ℚ) : (likelihoods ps).Pairwise (· > ·) := by
  unfold likelihoods
  have h1 : (((ps.filter (fun p => decide (p ≠ 0))).dedup).insertionSort (· ≥ ·)).Pairwise (· ≥ ·) :=
    List.pairwise_insertionSort _ _
  have h2 : (((ps.filter (fun p => decide (p ≠ 0))).dedup).insertionSort (· ≥ ·)).Nodup :=
    (List.perm_insertionSort _ _).nodup_iff.2 (List.nodup_dedup _)
  exact (h1.and h2).imp (fun h => lt_of_le_of_ne h.1 (Ne.symm h.2))

/-- The states of one likelihood. -/
def states (ps : List ℚ) (q : ℚ) : List ℤ :=
  (ps.zipIdx.filter (fun x => x.1 = q)).map (fun x => (x.2 : ℤ))

theorem mem_states {ps : List ℚ} {q : ℚ} {v : ℤ} :
    v ∈ states ps q ↔ ∃ i : ℕ, v = i ∧ ps[i]? = some q := by
  unfold states
  simp only [List.mem_map, List.mem_filter, decide_eq_true_eq, Prod.exists, List.mem_zipIdx_iff_getElem?]
  constructor
  · rintro ⟨p, i, ⟨h1, h2⟩, h3⟩
    subst h2
    exact ⟨i, h3.symm, h1⟩
  · rintro ⟨i, rfl, h⟩
    exact ⟨q, i, ⟨h, rfl⟩, rfl⟩

omit [DecidableEq L] in
theorem kMpeVal_eq (d : Dist L) (k : Option ℕ) : d.kMpeVal k =
    ((likelihoods d.params).take (k.getD (likelihoods d.params).length)).map
      fun q => (states d.params q, q) := rfl

theorem states_label {d : Dist L} (hlen : d.params.length = d.dom.labels.length) (q : ℚ) :
    ∃ ls : List L, d.dom.value2label (.set (states d.params q)) = .ok (.set ls) ∧ ls.Nodup ∧
      ∀ l, l ∈ ls ↔ ∃ i : ℕ, d.dom.labels[i]? = some l ∧ d.params[i]? = some q := by
  have hne : ∀ v ∈ (Arg.set (states d.params q)).elems, d.dom.labelOf v ≠ none := by
    intro v hv
    obtain ⟨i, rfl, hi⟩ := mem_states.1 hv
    have hlt : i < d.dom.labels.length := by rw [← hlen]; exact (List.getElem?_eq_some_iff.1 hi).1
    simp [Dom.labelOf, hlt]
  obtain ⟨r, h1, h2⟩ := convert_ok d.dom.labelOf (.set (states d.params q)) hne
  simp only [convert] at h1
  cases hm : (states d.params q).mapM d.dom.labelOf with
  | none => simp [hm] at h1
  | some r' =>
    simp only [hm] at h1
    cases h1
    refine ⟨r'.dedup, ?_, List.nodup_dedup _, ?_⟩
    · simp [Dom.value2label, convert, hm]
    · intro l
      have := h2 l
      simp only [Arg.elems] at this
      rw [this]
      constructor
      · rintro ⟨v, hv, hv'⟩
        obtain ⟨i, rfl, hi⟩ := mem_states.1 hv
        have := labelOf_some.1 hv'
        exact ⟨i, by simpa using this.2, hi⟩
      · rintro ⟨i, hi, hi'⟩
        exact ⟨i, mem_states.2 ⟨i, rfl, hi'⟩, labelOf_some.2 ⟨by omega, by simpa using hi⟩⟩

end

end Verif.Disc
