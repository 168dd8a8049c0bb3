import Verif.Trees.SamplingSpec
import Verif.Trees.Props8
import Verif.Utils.Props

/-!
# Lemmas on sampling from a tree
-/

namespace Verif.Trees

open Disc

/-! ## The choice of the leaf -/

theorem take_sum_le {ps : List ℚ} (h0 : ∀ p ∈ ps, 0 ≤ p) {i j : ℕ} (hij : i ≤ j) : (ps.take i).sum ≤ (ps.take j).sum := by
  induction ps generalizing i j with
  | nil => simp
  | cons p ps ih =>
    cases i with
    | zero =>
      rw [List.take_zero, List.sum_nil]
      exact List.sum_nonneg (fun q hq => h0 q (List.mem_of_mem_take hq))
    | succ i =>
      cases j with
      | zero => omega
      | succ j =>
        simp only [List.take_succ_cons, List.sum_cons]
        have := ih (fun q hq => h0 q (by simp [hq])) (i := i) (j := j) (by omega)
        linarith

theorem cumsum_ge {ps : List ℚ} (h0 : ∀ p ∈ ps, 0 ≤ p) (acc : ℚ) : ∀ b ∈ Ut.cumsumFrom acc ps, acc ≤ b := by
  induction ps generalizing acc with
  | nil => intro b hb; cases hb
  | cons p ps ih =>
    intro b hb
    have hp := h0 p (by simp)
    rcases List.mem_cons.1 hb with rfl | hb
    · linarith
    · have := ih (fun q hq => h0 q (by simp [hq])) (acc + p) b hb
      linarith

theorem count_cumsum {ps : List ℚ} (h0 : ∀ p ∈ ps, 0 ≤ p) (acc u : ℚ) (i : ℕ) :
    ((Ut.cumsumFrom acc ps).countP (fun b => decide (b ≤ u)) = i ∧ i < ps.length) ↔
      (i < ps.length ∧ (i = 0 ∨ acc + (ps.take i).sum ≤ u) ∧ u < acc + (ps.take (i + 1)).sum) := by
  induction ps generalizing acc i with
  | nil => simp
  | cons p ps ih =>
    have h0' : ∀ q ∈ ps, 0 ≤ q := fun q hq => h0 q (by simp [hq])
    simp only [Ut.cumsumFrom, List.countP_cons]
    by_cases hu : acc + p ≤ u
    · cases i with
      | zero => simp [hu]
      | succ i =>
        have := ih h0' (acc + p) i
        simp only [hu, decide_true, if_true, Nat.add_right_cancel_iff, List.length_cons, Nat.add_lt_add_iff_right,
          List.take_succ_cons, List.sum_cons, ← add_assoc]
        rw [this]
        constructor
        · rintro ⟨h1, h2, h3⟩
          refine ⟨h1, .inr ?_, h3⟩
          rcases h2 with rfl | h2
          · simpa using hu
          · exact h2
        · rintro ⟨h1, h2, h3⟩
          exact ⟨h1, h2.imp (fun h => by omega) id, h3⟩
    · have hz : (Ut.cumsumFrom (acc + p) ps).countP (fun b => decide (b ≤ u)) = 0 := by
        rw [List.countP_eq_zero]
        intro b hb
        have := cumsum_ge h0' (acc + p) b hb
        simp only [decide_eq_true_eq, not_le]
        linarith [not_le.1 hu]
      simp only [hu, decide_false, Bool.false_eq_true, if_false, hz]
      constructor
      · rintro ⟨rfl, h2⟩
        refine ⟨h2, .inl rfl, ?_⟩
        simpa using hu
      · rintro ⟨h1, h2, h3⟩
        refine ⟨?_, h1⟩
        rcases h2 with rfl | h2
        · rfl
        · cases i with
          | zero => rfl
          | succ i =>
            exfalso
            simp only [List.take_succ_cons, List.sum_cons] at h2
            have : 0 ≤ (ps.take i).sum := List.sum_nonneg (fun q hq => h0' q (List.mem_of_mem_take hq))
            linarith

theorem choose_iff {ps : List ℚ} (h0 : ∀ p ∈ ps, 0 ≤ p) (h1 : ps.sum = 1) {u : ℚ} (hu : 0 ≤ u) (i : ℕ) :
    (choose ps u = i ∧ i < ps.length) ↔ (i < ps.length ∧ (ps.take i).sum ≤ u ∧ u < (ps.take (i + 1)).sum) := by
  have := count_cumsum h0 0 u i
  simp only [zero_add] at this
  unfold choose
  simp only [h1, div_one]
  rw [this]
  constructor
  · rintro ⟨h2, h3, h4⟩
    refine ⟨h2, ?_, h4⟩
    rcases h3 with rfl | h3
    · simpa using hu
    · exact h3
  · rintro ⟨h2, h3, h4⟩
    exact ⟨h2, .inr h3, h4⟩

theorem choose_lt {ps : List ℚ} (h0 : ∀ p ∈ ps, 0 ≤ p) (h1 : ps.sum = 1) {u : ℚ} (hu : u < 1) :
    choose ps u < ps.length := by
  unfold choose
  have hne : ps ≠ [] := by rintro rfl; simp at h1
  have hl := Ut.cumsumFrom_last ps 0 hne
  rw [h1, zero_add] at hl
  have h3 : (Ut.cumsumFrom 0 ps).countP (fun b => decide (b / ps.sum ≤ u)) < (Ut.cumsumFrom 0 ps).length := by
    refine lt_of_le_of_ne List.countP_le_length (fun h => ?_)
    rw [List.countP_eq_length] at h
    have := h 1 (List.mem_of_getLast? hl)
    simp only [h1, div_one, decide_eq_true_eq] at this
    linarith
  rwa [Ut.cumsumFrom_length] at h3

/-! ## The labels -/

variable {L : Type} [DecidableEq L]

omit [DecidableEq L] in
theorem cell_index {k : Bool × Dom L} {d : DD L} (hd : discOk k d) (val : ℤ → ℚ) (j : ℕ) {x : ℚ} (h0 : 0 < x) (h1 : x ≤ 1) :
    ∃ i, ∃ hi : i < k.2.labels.length, sampleCell val (.inr d) (j, x) = .ok (.inr k.2.labels[i]) ∧
      (d.2.params.take i).sum < x ∧ x ≤ (d.2.params.take (i + 1)).sum := by
  obtain ⟨-, h2, h3, h4, h5, h6⟩ := hd
  rw [h2] at h3 h4
  set els := (List.range d.2.dom.labels.length).map (fun i : ℕ => (i : ℤ)) with hels
  have hlen : els.length = d.2.params.length := by rw [hels, List.length_map, List.length_range, h2, h4]
  have hne : els ≠ [] := by
    intro h
    rw [h] at hlen
    have : d.2.params = [] := List.length_eq_zero_iff.1 hlen.symm
    rw [this] at h6
    simp at h6
  obtain ⟨w, i, hw, hi, e, he, hg⟩ := Ut.C26_get els d.2.params hlen h5 x hne ⟨h0.le, by rw [h6]; exact h1⟩
  obtain ⟨w', hw', hiff⟩ := Ut.C26_index_interval els d.2.params hlen h5 x i
  rw [hw] at hw'
  obtain rfl := Except.ok.inj hw'
  obtain ⟨h7, h8, h9⟩ := hiff.1 hi
  have hei : e = (i : ℤ) := by
    rw [hels, List.getElem?_map, List.getElem?_range (by rw [h2]; omega)] at he
    exact (Option.some.inj he).symm
  subst hei
  refine ⟨i, by omega, ?_, h9.resolve_right (fun h => by linarith [h.2]), h8⟩
  have hlab : d.2.dom.labelOf (i : ℤ) = some (k.2.labels[i]'(by omega)) := by
    unfold Dom.labelOf
    rw [if_pos (by omega), h2, Int.toNat_natCast, List.getElem?_eq_getElem (by omega)]
  simp only [sampleCell]
  rw [← hels, hw]
  simp only [bind, Except.bind, hg, hlab]

theorem cell_iff {k : Bool × Dom L} {d : DD L} (hd : discOk k d) (val : ℤ → ℚ) (j : ℕ) {x : ℚ} (h0 : 0 < x) (h1 : x ≤ 1)
    {l : L} : sampleCell val (.inr d) (j, x) = .ok (.inr l) ↔
      (d.2.params.take (k.2.labels.idxOf l)).sum < x ∧ x ≤ (d.2.params.take (k.2.labels.idxOf l + 1)).sum := by
  obtain ⟨i, hi, h2, h3, h4⟩ := cell_index hd val j h0 h1
  obtain ⟨-, h5, h6, h7, h8, -⟩ := hd
  rw [h5] at h6
  rw [h2]
  constructor
  · intro h
    have : k.2.labels[i] = l := by injection h with h; injection h
    rw [← this, List.Nodup.idxOf_getElem h6 i hi]
    exact ⟨h3, h4⟩
  · rintro ⟨h9, h10⟩
    have hidx : k.2.labels.idxOf l = i := by
      rcases lt_trichotomy (k.2.labels.idxOf l) i with h | h | h
      · have := take_sum_le h8 (show k.2.labels.idxOf l + 1 ≤ i by omega)
        linarith
      · exact h
      · have := take_sum_le h8 (show i + 1 ≤ k.2.labels.idxOf l by omega)
        linarith
    subst hidx
    rw [List.getElem_idxOf]

/-! ## Rows -/

/-- The parameters of a symbolic or integer variable in a leaf. -/
def paramsOf (l : Leaf (MD L)) (v : ℕ) : List ℚ :=
  match l.dists[v]? with
  | some (.inr d) => d.2.params
  | _ => []

variable {val : ℤ → ℚ} {idx : ℚ → ℤ} {kind : ℕ → MK L} {full : ℕ → Region} {n : ℕ} {h : Heap (MD L)}

omit [DecidableEq L] in
theorem leaf_disc (ht : TreeOK (mixOk val) (mixFits val) (mixP val idx) kind full n h)
    (hkind : ∀ v, v < n → ∃ k, kind v = .inr k ∧ k.2.labels.Nodup) {l : ℕ × Leaf (MD L)} (hl : l ∈ h.leaves) {v : ℕ}
    (hv : v < n) : ∃ k d, kind v = .inr k ∧ l.2.dists[v]? = some (.inr d) ∧ discOk k d ∧ paramsOf l.2 v = d.2.params := by
  obtain ⟨k, hk, -⟩ := hkind v hv
  obtain ⟨h1, h2⟩ := ht.dists l hl
  have hd : l.2.dists[v]? = some l.2.dists[v] := List.getElem?_eq_getElem (by omega)
  have hok := h2 v _ hd
  generalize l.2.dists[v] = d at hd hok
  rw [hk] at hok
  cases d with
  | inl d => exact hok.elim
  | inr d => exact ⟨k, d, hk, hd, hok, by unfold paramsOf; rw [hd]⟩

omit [DecidableEq L] in
theorem row_iff (l : Leaf (MD L)) (hlen : l.dists.length = n) (w : ℕ → ℕ × ℚ) (row : List (Cell L)) :
    l.sampleRow val w = .ok row ↔ row.length = n ∧ ∀ v d x, l.dists[v]? = some d → row[v]? = some x →
      sampleCell val d (w v) = .ok x := by
  unfold Leaf.sampleRow
  rw [mapM_ok_iff, List.forall₂_iff_get]
  simp only [List.length_zipIdx, hlen]
  constructor
  · rintro ⟨h1, h2⟩
    refine ⟨h1.symm, fun v d x hd hx => ?_⟩
    obtain ⟨h3, h4⟩ := List.getElem?_eq_some_iff.1 hd
    obtain ⟨h5, h6⟩ := List.getElem?_eq_some_iff.1 hx
    have := h2 v (by omega) h5
    simp only [List.get_eq_getElem, List.getElem_zipIdx, h4, h6, zero_add] at this
    exact this
  · rintro ⟨h1, h2⟩
    refine ⟨h1.symm, fun i h3 h4 => ?_⟩
    simp only [List.get_eq_getElem, List.getElem_zipIdx, zero_add]
    exact h2 i _ _ (List.getElem?_eq_getElem (by omega)) (List.getElem?_eq_getElem h4)

omit [DecidableEq L] in
/-- A row of a leaf exists. -/
theorem row_exists (ht : TreeOK (mixOk val) (mixFits val) (mixP val idx) kind full n h)
    (hkind : ∀ v, v < n → ∃ k, kind v = .inr k ∧ k.2.labels.Nodup) {l : ℕ × Leaf (MD L)} (hl : l ∈ h.leaves)
    {w : ℕ → ℕ × ℚ} (hw : ∀ v < n, 0 < (w v).2 ∧ (w v).2 ≤ 1) :
    ∃ row, l.2.sampleRow val w = .ok row ∧ row.length = n ∧
      ∀ v x, row[v]? = some x → ∃ y ∈ labelsOf kind v, x = .inr y := by
  have h1 : ∀ v : ℕ, ∃ x : Cell L, v < n → (∃ y ∈ labelsOf kind v, x = .inr y) ∧ ∀ d, l.2.dists[v]? = some d →
      sampleCell val d (w v) = .ok x := by
    intro v
    by_cases hv : v < n
    · obtain ⟨k, d, hk, hd, hok, -⟩ := leaf_disc ht hkind hl hv
      obtain ⟨i, hi, h2, -⟩ := cell_index hok val (w v).1 (hw v hv).1 (hw v hv).2
      refine ⟨.inr k.2.labels[i], fun _ => ⟨⟨_, ?_, rfl⟩, fun d' hd' => ?_⟩⟩
      · unfold labelsOf; rw [hk]; exact List.getElem_mem hi
      · rw [hd] at hd'; obtain rfl := Option.some.inj hd'; exact h2
    · exact ⟨.inl 0, fun h => absurd h hv⟩
  choose f hf using h1
  have hget : ∀ (v : ℕ) (x : Cell L), ((List.range n).map f)[v]? = some x → v < n ∧ f v = x := by
    intro v x hx
    rw [List.getElem?_map, Option.map_eq_some_iff] at hx
    obtain ⟨v', h2, h3⟩ := hx
    obtain ⟨h4, h5⟩ := List.getElem?_eq_some_iff.1 h2
    rw [List.getElem_range] at h5
    subst h5
    exact ⟨by simpa using h4, h3⟩
  refine ⟨(List.range n).map f, ?_, by simp, ?_⟩
  · rw [row_iff l.2 (ht.dists l hl).1]
    refine ⟨by simp, fun v d x hd hx => ?_⟩
    obtain ⟨hv, rfl⟩ := hget v x hx
    exact (hf v hv).2 d hd
  · intro v x hx
    obtain ⟨hv, rfl⟩ := hget v x hx
    exact (hf v hv).1

/-- The numbers for which a leaf gives a world. -/
theorem row_world (ht : TreeOK (mixOk val) (mixFits val) (mixP val idx) kind full n h)
    (hkind : ∀ v, v < n → ∃ k, kind v = .inr k ∧ k.2.labels.Nodup) {l : ℕ × Leaf (MD L)} (hl : l ∈ h.leaves)
    {w : ℕ → ℕ × ℚ} (hw : ∀ v < n, 0 < (w v).2 ∧ (w v).2 ≤ 1) (W : ℕ → L) :
    l.2.sampleRow val w = .ok ((List.range n).map (fun v => .inr (W v))) ↔
      ∀ v < n, ((paramsOf l.2 v).take ((labelsOf kind v).idxOf (W v))).sum < (w v).2 ∧
        (w v).2 ≤ ((paramsOf l.2 v).take ((labelsOf kind v).idxOf (W v) + 1)).sum := by
  rw [row_iff l.2 (ht.dists l hl).1]
  have hcell : ∀ v < n, ∃ d, l.2.dists[v]? = some d ∧ (sampleCell val d (w v) = .ok (.inr (W v)) ↔
      ((paramsOf l.2 v).take ((labelsOf kind v).idxOf (W v))).sum < (w v).2 ∧
        (w v).2 ≤ ((paramsOf l.2 v).take ((labelsOf kind v).idxOf (W v) + 1)).sum) := by
    intro v hv
    obtain ⟨k, d, hk, hd, hok, hp⟩ := leaf_disc ht hkind hl hv
    refine ⟨_, hd, ?_⟩
    rw [hp, show labelsOf kind v = k.2.labels by unfold labelsOf; rw [hk]]
    exact cell_iff hok val (w v).1 (hw v hv).1 (hw v hv).2
  constructor
  · rintro ⟨-, h2⟩ v hv
    obtain ⟨d, hd, hiff⟩ := hcell v hv
    rw [← hiff]
    refine h2 v d _ hd ?_
    rw [List.getElem?_map, List.getElem?_range hv]; rfl
  · intro h2
    refine ⟨by simp, fun v d x hd hx => ?_⟩
    have hv : v < n := by
      have := (List.getElem?_eq_some_iff.1 hd).1
      rwa [(ht.dists l hl).1] at this
    rw [List.getElem?_map, List.getElem?_range hv] at hx
    obtain rfl := Option.some.inj hx
    obtain ⟨d', hd', hiff⟩ := hcell v hv
    rw [hd] at hd'
    obtain rfl := Option.some.inj hd'
    exact hiff.2 (h2 v hv)

theorem take_step {ps : List ℚ} {i : ℕ} {p : ℚ} (h : ps[i]? = some p) : (ps.take (i + 1)).sum - (ps.take i).sum = p :=
  Ut.C26_interval_length ps i p h

theorem choiceCheck_ok {ps : List ℚ} (h0 : ∀ p ∈ ps, 0 ≤ p) (h1 : ps.sum = 1) : Num.choiceCheck ps = .ok () := by
  rw [Num.choiceCheck, if_neg]
  rintro (h | ⟨p, hp, h⟩ | h)
  · subst h; simp at h1
  · linarith [h0 p hp]
  · rw [h1] at h; norm_num at h

end Verif.Trees
