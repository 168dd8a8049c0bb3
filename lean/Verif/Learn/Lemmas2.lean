import Verif.Learn.Lemmas

/-!
# The search for the best split: symbolic features and the choice among the features
-/

namespace Verif.Learn

open Trees

/-- The loop over a symbolic feature. -/
theorem evalLoop_symbolic (c : Cfg) (T : Totals) (data : Data) (v : ℕ) (buf : List ℕ)
    (hsorted : buf.Pairwise (fun a b => data a v ≤ data b v)) :
    ∀ (rest pre : List ℕ) (st : ESt), buf = pre ++ rest → rest ≠ [] →
      (∀ r tl, rest = r :: tl → Track c T data v (pre.filter (fun a => decide (data a v = data r v)))
        (if c.hasSym then (pre.filter (fun a => decide (data a v = data r v))).length
          else pre.length) st) →
      Scan (Cand data v true buf) (gainAt c T data v true buf) pre.length st.best st.pos →
      Scan (Cand data v true buf) (gainAt c T data v true buf) buf.length
        (evalLoop c T data v buf.length true rest pre.length st).best
        (evalLoop c T data v buf.length true rest pre.length st).pos
  | [], _, _, _, h, _, _ => absurd rfl h
  | r :: rest, pre, st, hb, _, ht, hs => by
    have hr : buf.getD pre.length 0 = r := by rw [hb]; exact getD_append_cons _ _ _
    have hlen : buf.length = pre.length + (rest.length + 1) := by rw [hb]; simp
    have ht0 := ht r rest rfl
    have ht1 := ht0.add r
    have hfilter : (pre ++ [r]).filter (fun a => decide (data a v = data r v))
        = pre.filter (fun a => decide (data a v = data r v)) ++ [r] := by
      simp [List.filter_append]
    have hm : (if c.hasSym then (pre.filter (fun a => decide (data a v = data r v))).length
        else pre.length) + 1 = (if c.hasSym then
          ((pre ++ [r]).filter (fun a => decide (data a v = data r v))).length
        else (pre ++ [r]).length) := by
      rw [hfilter]
      split <;> simp
    rw [hm, ← hfilter] at ht1
    rw [evalLoop]
    simp only [Bool.not_true, Bool.false_or, if_true, Bool.false_and, Bool.false_eq_true, if_false]
    -- a candidate is processed
    have hcandstep : Cand data v true buf pre.length →
        (∀ a ∈ rest, data a v ≠ data r v) →
        Scan (Cand data v true buf) (gainAt c T data v true buf) (pre.length + 1)
          (((st.add T data (c.deps v) r).reset c T v).consider
            (legalGain c T v buf.length (st.add T data (c.deps v) r)) pre.length).best
          (((st.add T data (c.deps v) r).reset c T v).consider
            (legalGain c T v buf.length (st.add T data (c.deps v) r)) pre.length).pos := by
      intro hc hrest
      have hleft : leftAt data v true buf pre.length
          = (pre ++ [r]).filter (fun a => decide (data a v = data r v)) := by
        unfold leftAt
        rw [if_pos rfl, hr]
        conv => lhs; rw [hb, show pre ++ r :: rest = (pre ++ [r]) ++ rest by simp]
        rw [List.filter_append, (List.filter_eq_nil_iff (l := rest)).2, List.append_nil]
        intro a ha
        simpa using hrest a ha
      have hnum : numAt c data v true buf pre.length = (if c.hasSym then
          ((pre ++ [r]).filter (fun a => decide (data a v = data r v))).length
          else (pre ++ [r]).length) := by
        unfold numAt
        rw [hleft]
        cases c.hasSym <;> simp
      have hg : gainAt c T data v true buf pre.length =
          legalGain c T v buf.length (st.add T data (c.deps v) r) := by
        unfold gainAt legalGain
        rw [ht1.num, ht1.gain (n := buf.length) (by rw [hfilter]; simp), hnum, hleft]
      rw [← hg]
      refine hs.consider hc ?_ ?_
      · unfold ESt.reset
        split <;> split <;> rfl
      · unfold ESt.reset
        split <;> split <;> rfl
    cases rest with
    | nil =>
      simp only [List.length_nil, BEq.rfl, Bool.not_true, Bool.false_and, Bool.false_eq_true,
        if_false, if_true]
      have := hcandstep (by unfold Cand; rw [if_pos rfl]; left; simpa using hlen.symm) (by simp)
      have hl : buf.length = pre.length + 1 := hlen
      rw [hl] at this ⊢
      exact this
    | cons r' rest =>
      have hr' : buf.getD (pre.length + 1) 0 = r' := by rw [hb]; exact getD_append_cons2 _ _ _ _
      have hne : (((r' :: rest).length == 0) = false) := by simp
      have hlen' : buf.length = pre.length + (rest.length + 2) := by rw [hlen]; simp
      rw [hne]
      simp only [sameNext, Bool.not_false, Bool.true_and, Bool.false_eq_true, if_false]
      by_cases he : data r v = data r' v
      · simp only [he, decide_true, if_true]
        have hs1 : Scan (Cand data v true buf) (gainAt c T data v true buf) (pre.length + 1)
            (st.add T data (c.deps v) r).best (st.add T data (c.deps v) r).pos := by
          refine hs.skip ?_
          unfold Cand
          rw [if_pos rfl, hr, hr']
          rintro (h | h)
          · omega
          · exact h.2 he
        have := evalLoop_symbolic c T data v buf hsorted (r' :: rest) (pre ++ [r])
          (st.add T data (c.deps v) r) (by rw [hb]; simp) (by simp)
          (by
            intro a tl hat
            injection hat with h1 h2
            subst h1
            rw [← he]
            exact ht1)
          (by rw [List.length_append]; exact hs1)
        rw [List.length_append] at this
        exact this
      · simp only [he, decide_false, Bool.false_eq_true, if_false]
        have hle : ∀ a ∈ pre ++ [r], data a v ≤ data r v := by
          have h1 : (pre ++ r :: r' :: rest).Pairwise (fun a b => data a v ≤ data b v) := hb ▸ hsorted
          rw [List.pairwise_append] at h1
          intro a ha
          rcases List.mem_append.1 ha with ha | ha
          · exact h1.2.2 a ha r (by simp)
          · rw [List.mem_singleton.1 ha]
        have hgt : ∀ a ∈ r' :: rest, data r v < data a v := by
          have h1 : (pre ++ r :: r' :: rest).Pairwise (fun a b => data a v ≤ data b v) := hb ▸ hsorted
          rw [List.pairwise_append] at h1
          have h2 := h1.2.1
          rw [List.pairwise_cons] at h2
          have h3 : data r v < data r' v := lt_of_le_of_ne (h2.1 r' (by simp)) he
          intro a ha
          rcases List.mem_cons.1 ha with rfl | ha
          · exact h3
          · exact lt_of_lt_of_le h3 ((List.pairwise_cons.1 h2.2).1 a ha)
        have hs3 := hcandstep (by
            unfold Cand
            rw [if_pos rfl, hr, hr']
            exact .inr ⟨by omega, he⟩) (fun a ha => (hgt a ha).ne')
        have hempty : (pre ++ [r]).filter (fun a => decide (data a v = data r' v)) = [] := by
          rw [List.filter_eq_nil_iff]
          intro a ha
          have h1 := hle a ha
          have h2 := hgt r' (by simp)
          simp only [decide_eq_true_eq]
          intro h3
          rw [h3] at h1
          exact absurd h2 (not_lt.2 h1)
        have htr : Track c T data v ((pre ++ [r]).filter (fun a => decide (data a v = data r' v)))
            (if c.hasSym then ((pre ++ [r]).filter (fun a => decide (data a v = data r' v))).length
              else (pre ++ [r]).length) ((st.add T data (c.deps v) r).reset c T v) := by
          have := ht1.reset
          rw [hempty]
          cases hsym : c.hasSym
          · simp only [hsym, Bool.false_eq_true, if_false] at this ⊢
            exact this
          · simp only [hsym, if_true] at this ⊢
            exact this
        have := evalLoop_symbolic c T data v buf hsorted (r' :: rest) (pre ++ [r])
          (((st.add T data (c.deps v) r).reset c T v).consider
            (legalGain c T v buf.length (st.add T data (c.deps v) r)) pre.length)
          (by rw [hb]; simp) (by simp)
          (by
            intro a tl hat
            injection hat with h1 h2
            subst h1
            exact htr.consider _ _)
          (by rw [List.length_append]; exact hs3)
        rw [List.length_append] at this
        exact this

/-- A column is constant iff all rows carry the same value. -/
theorem colConstant_iff (data : Data) (rows : List ℕ) (v : ℕ) :
    colConstant data rows v = true ↔ ∀ a ∈ rows, ∀ b ∈ rows, data a v = data b v := by
  cases rows with
  | nil => simp [colConstant]
  | cons r rest =>
    simp only [colConstant, List.all_eq_true, decide_eq_true_eq]
    constructor
    · intro h a ha b hb
      have key : ∀ x ∈ r :: rest, data x v = data r v := by
        intro x hx
        rcases List.mem_cons.1 hx with rfl | hx
        · rfl
        · exact h x hx
      rw [key a ha, key b hb]
    · intro h a ha
      exact h a (by simp [ha]) r (by simp)

/-- What `evaluate_variable` returns on a column that is not constant. -/
theorem evaluate_spec (c : Cfg) (T : Totals) (data : Data) (rows buf : List ℕ) (v : ℕ)
    (symbolic : Bool) (hp : buf.Perm rows) :
    (evaluate c T data rows buf v symbolic).2.2 = sortRows (fun r => data r v) buf ∧
    if colConstant data rows v then (evaluate c T data rows buf v symbolic).1 = ⊥
    else Scan (Cand data v symbolic (sortRows (fun r => data r v) buf))
      (gainAt c T data v symbolic (sortRows (fun r => data r v) buf)) rows.length
      (evaluate c T data rows buf v symbolic).1 (evaluate c T data rows buf v symbolic).2.1 := by
  unfold evaluate
  cases hc : colConstant data rows v
  · simp only [Bool.false_eq_true, if_false, true_and]
    have hlen : (sortRows (fun r => data r v) buf).length = rows.length := by
      rw [sortRows_length, hp.length_eq]
    rw [← hlen]
    have h2 : 2 ≤ (sortRows (fun r => data r v) buf).length := by
      rw [hlen]
      by_contra h
      have : colConstant data rows v = true := by
        rw [colConstant_iff]
        intro a ha b hb
        match rows, h, ha, hb with
        | [], _, ha, _ => simp at ha
        | [x], _, ha, hb =>
          rw [List.mem_singleton.1 ha, List.mem_singleton.1 hb]
        | _ :: _ :: _, h, _, _ => simp at h
      rw [hc] at this
      exact absurd this (by decide)
    have hne : sortRows (fun r => data r v) buf ≠ [] := by
      intro h
      rw [h] at h2
      simp at h2
    have h0 : ∀ (cand : ℕ → Prop) (g : ℕ → WithBot ℚ),
        Scan cand g 0 (ESt.init T).best (ESt.init T).pos :=
      fun cand g => ⟨fun q hq => absurd hq (by omega), .inl rfl⟩
    cases symbolic
    · exact evalLoop_numeric c T data v _ _ [] _ rfl hne (Track.init c T data v) h2 (h0 _ _)
    · refine evalLoop_symbolic c T data v _ (sortRows_sorted _ _) _ [] _ rfl hne ?_ (h0 _ _)
      intro r tl _
      have := Track.init c T data v
      simpa using this
  · simp

end Verif.Learn
