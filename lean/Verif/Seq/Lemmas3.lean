import Verif.Seq.Lemmas2
import Verif.Trees.Props2
import Verif.Utils.Props

/-!
# Lemmas on `independent_marginals`
-/

namespace Verif.Seq

open Trees Learn

variable {D E : Type}

/-! ## The order of the names -/

theorem rvName_inj {s t : ℕ} (h : rvName s = rvName t) : s = t := by
  unfold rvName at h
  have h1 := (List.cons.inj h).2
  rw [← Nat.ofDigitChars_ten_toDigits (n := s), h1, Nat.ofDigitChars_ten_toDigits]

theorem rvName_le_ten {s t : ℕ} (hst : s ≤ t) (ht : t < 10) : rvName s ≤ rvName t := by
  have : ∀ t, t < 10 → ∀ s, s ≤ t → rvName s ≤ rvName t := by decide +kernel
  exact this t ht s hst

theorem le_append_list (a b : List Char) : a ≤ a ++ b := by
  induction a with
  | nil =>
    cases b with
    | nil => exact le_refl _
    | cons x b => exact le_of_lt (by exact List.Lex.nil)
  | cons x a ih => exact List.cons_le_cons x ih

theorem ten_le_digits (t : ℕ) (h : 2 ≤ t) : ['1', '0'] ≤ Nat.toDigits 10 t := by
  induction t using Nat.strong_induction_on with
  | _ t ih =>
    by_cases h1 : t < 100
    · have : ∀ t, t < 100 → 2 ≤ t → ['1', '0'] ≤ Nat.toDigits 10 t := by decide +kernel
      exact this t h1 h
    · rw [Nat.toDigits_of_base_le (by decide) (by omega)]
      exact le_trans (ih (t / 10) (by omega) (by omega)) (le_append_list _ _)

theorem rvName_ten_le {t : ℕ} (h : 2 ≤ t) : rvName 10 ≤ rvName t :=
  List.cons_le_cons 't' (ten_le_digits t h)

theorem rvName_one_le {t : ℕ} (h : 1 ≤ t) : rvName 1 ≤ rvName t := by
  rcases Nat.lt_or_ge t 2 with h1 | h1
  · have : t = 1 := by omega
    rw [this]
  · exact le_trans (by decide) (rvName_ten_le h1)

theorem rvName_zero_le (t : ℕ) : rvName 0 ≤ rvName t := by
  rcases Nat.lt_or_ge t 1 with h1 | h1
  · have : t = 0 := by omega
    rw [this]
  · exact le_trans (by decide) (rvName_one_le h1)

/-! ## Sorting the distributions -/

/-- The distributions with the names of their steps. -/
def named (ds : List (List ℚ)) (ts : List ℕ) : List (List Char × List ℚ) :=
  ts.map (fun t => (rvName t, ds.getD t []))

theorem zip_named (ds : List (List ℚ)) :
    ((List.range ds.length).map rvName).zip ds = named ds (List.range ds.length) := by
  apply List.ext_getElem
  · simp [named]
  · intro i h1 h2
    simp only [List.length_zip, List.length_map, List.length_range, min_self] at h1
    simp only [named, List.getElem_zip, List.getElem_map, List.getElem_range]
    rw [List.getD_eq_getElem?_getD, List.getElem?_eq_getElem h1]
    rfl

theorem named_snd (ds : List (List ℚ)) : (named ds (List.range ds.length)).map Prod.snd = ds := by
  rw [← zip_named, List.map_snd_zip]
  simp

theorem sortedDists_short {ds : List (List ℚ)} (h : ds.length ≤ 10) : sortedDists ds = ds := by
  unfold sortedDists
  rw [zip_named, List.Pairwise.insertionSort_eq, named_snd]
  unfold named
  rw [List.pairwise_map]
  have : (List.range ds.length).Pairwise (· < ·) := List.pairwise_lt_range
  refine List.Pairwise.imp_of_mem ?_ this
  intro a b _ hb hab
  rw [List.mem_range] at hb
  exact rvName_le_ten hab.le (by omega)

instance : Std.Total nameLe := ⟨fun a b => le_total a.1 b.1⟩
instance : IsTrans (List Char × List ℚ) nameLe := ⟨fun _ _ _ h h' => le_trans (α := List Char) h h'⟩

/-- From eleven steps on, the distribution of step 10 comes third. -/
theorem sortedDists_long {ds : List (List ℚ)} (h : 11 ≤ ds.length) :
    (sortedDists ds)[2]? = ds[10]? := by
  let rest := (List.range ds.length).filter (fun t => decide (t ≠ 0 ∧ t ≠ 1 ∧ t ≠ 10))
  have hperm : (List.range ds.length).Perm ([0, 1, 10] ++ rest) := by
    rw [List.perm_ext_iff_of_nodup List.nodup_range]
    · intro t
      simp only [rest, List.mem_range, List.mem_append, List.mem_filter, decide_eq_true_eq, List.mem_cons,
        List.not_mem_nil, or_false]
      omega
    · rw [List.nodup_append]
      refine ⟨by decide, List.nodup_range.filter _, ?_⟩
      intro a ha b hb
      simp only [rest, List.mem_filter, decide_eq_true_eq] at hb
      simp only [List.mem_cons, List.not_mem_nil, or_false] at ha
      omega
  have hsort : (named ds (List.range ds.length)).insertionSort nameLe
      = named ds [0, 1, 10] ++ (named ds rest).insertionSort nameLe := by
    apply List.Perm.eq_of_pairwise (le := nameLe)
    · intro a b ha hb hab hba
      have ha := (List.mem_insertionSort nameLe).1 ha
      have hb' : b ∈ named ds (List.range ds.length) := by
        have h1 : (named ds [0, 1, 10] ++ (named ds rest).insertionSort nameLe).Perm
            (named ds ([0, 1, 10] ++ rest)) := by
          unfold named
          rw [List.map_append]
          exact List.Perm.append_left _ (List.perm_insertionSort _ _)
        have h2 : (named ds ([0, 1, 10] ++ rest)).Perm (named ds (List.range ds.length)) :=
          (hperm.symm.map _)
        exact (h1.trans h2).mem_iff.1 hb
      obtain ⟨s, -, rfl⟩ := List.mem_map.1 ha
      obtain ⟨t, -, rfl⟩ := List.mem_map.1 hb'
      have : rvName s = rvName t := le_antisymm hab hba
      rw [rvName_inj this]
    · exact List.pairwise_insertionSort _ _
    · rw [List.pairwise_append]
      refine ⟨?_, List.pairwise_insertionSort _ _, ?_⟩
      · have h01 : rvName 0 ≤ rvName 1 := by decide
        have h010 : rvName 0 ≤ rvName 10 := by decide
        have h110 : rvName 1 ≤ rvName 10 := by decide
        simp only [named, List.map_cons, List.map_nil, List.pairwise_cons, List.mem_cons, List.not_mem_nil,
          or_false, forall_eq_or_imp, forall_eq, List.Pairwise.nil, and_true, false_imp_iff,
          implies_true, nameLe]
        exact ⟨⟨h01, h010⟩, h110⟩
      · intro a ha b hb
        have hb := (List.mem_insertionSort nameLe).1 hb
        obtain ⟨t, ht, rfl⟩ := List.mem_map.1 hb
        obtain ⟨s, hs, rfl⟩ := List.mem_map.1 ha
        simp only [rest, List.mem_filter, decide_eq_true_eq] at ht
        simp only [List.mem_cons, List.not_mem_nil, or_false] at hs
        show rvName s ≤ rvName t
        rcases hs with rfl | rfl | rfl
        · exact rvName_zero_le t
        · exact rvName_one_le (by omega)
        · exact rvName_ten_le (by omega)
    · have h1 : (named ds ([0, 1, 10] ++ rest)).Perm
          (named ds [0, 1, 10] ++ (named ds rest).insertionSort nameLe) := by
        unfold named
        rw [List.map_append]
        exact List.Perm.append_left _ (List.perm_insertionSort _ _).symm
      exact ((List.perm_insertionSort _ _).trans (hperm.map _)).trans h1
  unfold sortedDists
  rw [zip_named, hsort]
  simp only [named, List.map_cons, List.map_nil, List.cons_append, List.nil_append,
    List.getElem?_cons_succ, List.getElem?_cons_zero]
  rw [List.getD_eq_getElem?_getD, List.getElem?_eq_getElem (by omega)]
  rfl

theorem sortedDists_length (ds : List (List ℚ)) : (sortedDists ds).length = ds.length := by
  unfold sortedDists
  rw [List.length_map, List.length_insertionSort, List.length_zip]
  simp

theorem sortedDists_mem {ds : List (List ℚ)} {d : List ℚ} (h : d ∈ sortedDists ds) : d ∈ ds := by
  unfold sortedDists at h
  obtain ⟨p, hp, rfl⟩ := List.mem_map.1 h
  have := (List.mem_insertionSort nameLe).1 hp
  exact (List.of_mem_zip (show (p.1, p.2) ∈ _ from this)).2

/-! ## Weights of leaves -/

theorem zip_lookup {keys : List ℕ} {d : List ℚ} (hl : d.length = keys.length) {k : ℕ} (hk : k ∈ keys) :
    (keys.zip d).lookup k = some (weightOf keys d k) := by
  unfold weightOf
  induction keys generalizing d with
  | nil => cases hk
  | cons a keys ih =>
    match d, hl with
    | x :: d, hl =>
      rw [List.zip_cons_cons, List.lookup_cons]
      by_cases ha : k = a
      · subst ha
        simp
      · have : (k == a) = false := by simpa using ha
        rw [this]
        simp only
        rw [ih (by simpa using hl) (by simpa [ha] using hk), List.idxOf_cons_ne _ (Ne.symm ha)]
        rfl

theorem leafPrior_sorted {keys : List ℕ} (h : keys.Pairwise (· < ·)) (d : List ℚ) :
    leafPrior keys d = keys.zip d := by
  unfold leafPrior
  rw [List.Pairwise.insertionSort_eq]
  exact h.imp (fun h => h.le)

theorem smooth_ok {d : List ℚ} (h0 : ∀ x ∈ d, 0 ≤ x) (h1 : ∃ x ∈ d, x ≠ 0) :
    ∃ r, smooth d = .ok r ∧ r.length = d.length ∧ ∀ x ∈ r, 0 < x := by
  obtain ⟨m, ⟨v, hv1, hv2, hv3⟩, -, h4, -, h6⟩ :=
    Ut.C20_normalized_zeros (K := ℕ) false false (1 / 10) (by norm_num) d (.inl h0) h1
  have hm : 0 < m := by rw [hv3]; exact abs_pos.2 hv2
  refine ⟨(d.map (fun v => if v = 0 then m * (1 / 10) else v)).map (fun v => v /
      Ut.absSum (d.map (fun v => if v = 0 then m * (1 / 10) else v))), ?_, ?_, ?_⟩
  · change Except.map Ut.Dist.list (Ut.normValues false false (1 / 10) d) = _ at h4
    unfold smooth
    cases hn : Ut.normValues false false (1 / 10) d with
    | error e => rw [hn] at h4; cases h4
    | ok r =>
      rw [hn] at h4
      simp only [Except.map, Except.ok.injEq, Ut.Dist.list.injEq] at h4
      rw [h4]
  · simp
  · intro x hx
    apply lt_of_le_of_ne _ (Ne.symm (h6 x hx))
    obtain ⟨y, hy, rfl⟩ := List.mem_map.1 hx
    apply div_nonneg
    · obtain ⟨z, hz, rfl⟩ := List.mem_map.1 hy
      split_ifs
      · positivity
      · exact h0 z hz
    · unfold Ut.absSum
      apply List.sum_nonneg
      intro y hy
      obtain ⟨z, _, rfl⟩ := List.mem_map.1 hy
      exact abs_nonneg z

/-- One tree, re-weighted. -/
theorem reweight_ok {c : Heap D} {keys : List ℕ} {d : List ℚ} (hk : keys.Pairwise (· < ·))
    (hl : d.length = keys.length) (hd : ∀ x ∈ d, 0 < x) (hin : ∀ l ∈ c.leaves, l.1 ∈ keys)
    (hp : ∀ l ∈ c.leaves, 0 ≤ l.2.prior) (hs : (c.leaves.map (fun l => l.2.prior)).sum = 1) :
    ∃ r, multiplyPriors c (leafPrior keys d) = .ok r ∧ Reweighted c (weightOf keys d) r ∧
      (r.leaves.map (fun l => l.2.prior)).sum = 1 := by
  have hf : ∀ l ∈ c.leaves, (leafPrior keys d).lookup l.1 = some (weightOf keys d l.1) := by
    intro l hl'
    rw [leafPrior_sorted hk]
    exact zip_lookup hl (hin l hl')
  have hw : ∀ l ∈ c.leaves, 0 < weightOf keys d l.1 := by
    intro l hl'
    have := List.mem_of_getElem? (l := d) (i := keys.idxOf l.1) (a := weightOf keys d l.1) (by
      unfold weightOf
      have : keys.idxOf l.1 < d.length := by
        rw [hl]
        exact List.idxOf_lt_length_of_mem (hin l hl')
      rw [List.getD_eq_getElem?_getD, List.getElem?_eq_getElem this]
      rfl)
    exact hd _ this
  obtain ⟨-, h2⟩ := C53_multiply (h := c) (leafPrior keys d) (weightOf keys d) hf
  have hne : (c.leaves.map (fun l => l.2.prior * weightOf keys d l.1)).sum ≠ 0 := by
    intro h0
    have h3 : ∀ l ∈ c.leaves, l.2.prior * weightOf keys d l.1 = 0 := by
      rw [Ut.sum_eq_zero_iff] at h0
      · exact List.forall_mem_map.1 h0
      · intro x hx
        obtain ⟨l, hl', rfl⟩ := List.mem_map.1 hx
        exact mul_nonneg (hp l hl') (hw l hl').le
    have h4 : (c.leaves.map (fun l => l.2.prior)).sum = 0 := by
      have : c.leaves.map (fun l => l.2.prior) = c.leaves.map (fun _ => (0 : ℚ)) := by
        apply List.map_congr_left
        intro l hl'
        rcases mul_eq_zero.1 (h3 l hl') with h5 | h5
        · exact h5
        · exact absurd h5 (hw l hl').ne'
      rw [this]
      simp
    rw [hs] at h4
    exact one_ne_zero h4
  obtain ⟨r, h3, h4, h5, h6, h7⟩ := h2 hne
  exact ⟨r, h3, ⟨h4, h5, h6⟩, h7⟩

end Verif.Seq
