import Verif.Learn.Lemmas3
import Verif.Learn.Spec

/-!
# The splits of a decision node divide the samples
-/

namespace Verif.Learn

open Trees

theorem toInt_nat (i : ℕ) : toInt (i : ℚ) = (i : ℤ) := by
  unfold toInt
  rw [if_pos (by positivity)]
  rw [Rat.floor_def]
  simp

theorem mem_domain_take {n j i : ℕ} (hi : i < n) : (i : ℤ) ∈ (domainOf n).take j ↔ i < j := by
  unfold domainOf
  rw [← List.map_take, List.take_range]
  simp [hi]

theorem mem_domain_drop {n j i : ℕ} (hi : i < n) : (i : ℤ) ∈ (domainOf n).drop j ↔ j ≤ i := by
  unfold domainOf
  rw [← List.map_drop]
  simp only [List.mem_map, Nat.cast_inj, exists_eq_right, List.mem_drop_iff_getElem,
    List.getElem_range, List.length_range]
  constructor
  · rintro ⟨k, hk, he⟩
    omega
  · intro h
    exact ⟨i - j, by omega, by omega⟩

theorem idxOf_domain {n j : ℕ} (hj : j < n) : (domainOf n).idxOf? (j : ℤ) = some j := by
  unfold domainOf
  rw [List.idxOf?_eq_some_iff]
  refine ⟨by simpa using hj, by simp, ?_⟩
  intro k hk
  simp
  omega

theorem set_mem {l : List ℤ} {i : ℕ} : (Region.set l).Mem (.fin (i : ℚ)) ↔ (i : ℤ) ∈ l := by
  simp only [Region.Mem, XQ.fin.injEq]
  constructor
  · rintro ⟨z, hz, he⟩
    have : z = (i : ℤ) := by exact_mod_cast he.symm
    rwa [this] at hz
  · intro h
    exact ⟨(i : ℤ), h, by simp⟩

/-- What a split assigns to a variable: an interval or values of its domain. -/
def RegOK (c : Cfg) (v : ℕ) (r : Region) : Prop :=
  r.OK ∧ match c.vars[v]? with
    | none => False
    | some .numeric => ∃ i, r = .num i
    | some (.integer n) => ∃ l, r = .set l ∧ ∀ z ∈ l, 0 ≤ z ∧ z < (n : ℤ)
    | some (.symbolic n) => ∃ l, r = .set l ∧ ∀ z ∈ l, 0 ≤ z ∧ z < (n : ℤ)

theorem mem_domainOf {n : ℕ} {z : ℤ} (h : z ∈ domainOf n) : 0 ≤ z ∧ z < (n : ℤ) := by
  obtain ⟨i, hi, rfl⟩ := List.mem_map.1 h
  rw [List.mem_range] at hi
  omega

/-- The interval ends or begins at the mean of two cells of the column, and no cell equals it. -/
def Threshold (data : Data) (rows : List ℕ) (v : ℕ) (I : Vars.RI) : Prop :=
  ∃ s, (I = ⟨.ninf, .fin s, .exc, .exc⟩ ∨ I = ⟨.fin s, .pinf, .inc, .exc⟩) ∧
    (∃ r ∈ rows, ∃ r' ∈ rows, s = (data r v + data r' v) / 2) ∧ ∀ r ∈ rows, data r v ≠ s

/-- What the two splits of a decision node do. -/
structure SplitOK (c : Cfg) (data : Data) (rows' : List ℕ) (v p : ℕ) (A B : Region) : Prop where
  part : ∀ x, Valid c x → (A.Mem (.fin (x v)) ↔ ¬ B.Mem (.fin (x v)))
  left : ∀ r ∈ rows'.take (p + 1), A.Mem (.fin (data r v))
  right : ∀ r ∈ rows'.drop (p + 1), B.Mem (.fin (data r v))
  okA : RegOK c v A
  okB : RegOK c v B
  cut : ∀ I, A = .num I ∨ B = .num I → Threshold data rows' v I

theorem sorted_take_le {f : ℕ → ℚ} {l : List ℕ} (h : l.Pairwise (fun x y => f x ≤ f y)) {p : ℕ}
    (hp : p < l.length) : ∀ r ∈ l.take (p + 1), f r ≤ f (l.getD p 0) := by
  intro r hr
  obtain ⟨i, hi, rfl⟩ := List.mem_take_iff_getElem.1 hr
  rw [getD_eq hp]
  rcases Nat.lt_or_ge i p with hip | hip
  · exact List.pairwise_iff_getElem.1 h i p (by omega) hp hip
  · have : i = p := by omega
    subst this
    exact le_refl _

theorem sorted_drop_ge {f : ℕ → ℚ} {l : List ℕ} (h : l.Pairwise (fun x y => f x ≤ f y)) {p : ℕ}
    (hp : p < l.length) : ∀ r ∈ l.drop p, f (l.getD p 0) ≤ f r := by
  intro r hr
  obtain ⟨i, hi, rfl⟩ := List.mem_drop_iff_getElem.1 hr
  rw [getD_eq hp]
  rcases Nat.eq_zero_or_pos i with hip | hip
  · subst hip
    exact le_refl _
  · exact List.pairwise_iff_getElem.1 h p (p + i) hp (by omega) (by omega)

theorem splitsOf_spec {c : Cfg} {data : Data} {rows rows' : List ℕ} {v p : ℕ}
    (hF : Found c data rows rows' v p) (hval : ∀ r ∈ rows, Valid c (data r)) :
    ∃ A B, splitsOf c data rows' v p = .ok [A, B] ∧ SplitOK c data rows' v p A B := by
  have hlen := hF.perm.length_eq
  have hlt := hF.lt
  have hval' : ∀ r ∈ rows', Valid c (data r) := fun r hr => hval r (hF.perm.mem_iff.1 hr)
  have hp : rows'.getD p 0 ∈ rows' := mem_getD (by omega)
  have hp1 : rows'.getD (p + 1) 0 ∈ rows' := mem_getD (by omega)
  unfold splitsOf
  cases hk : c.vars[v]? with
  | none =>
    have := hF.feature.1
    rw [List.getElem?_eq_none_iff] at hk
    omega
  | some k =>
    cases k with
    | numeric =>
      obtain ⟨hs, hd⟩ := hF.numeric (by simp [Cfg.isNum, hk])
      refine ⟨_, _, rfl, ?_, ?_, ?_, ?_, ?_, ?_⟩
      · intro x _
        generalize (data (rows'.getD p 0) v + data (rows'.getD (p + 1) 0) v) / 2 = s
        simp only [Region.Mem, RIMem, XQ.ninf_lt_fin, XQ.fin_lt, XQ.fin_lt_pinf, XQ.fin.injEq]
        simp only [reduceCtorEq, or_false, true_and, and_false, and_true]
        rw [← le_iff_lt_or_eq, not_le]
      · intro r hr
        have h1 := sorted_take_le hs (by omega) r hr
        generalize hs : (data (rows'.getD p 0) v + data (rows'.getD (p + 1) 0) v) / 2 = s
        simp only [Region.Mem, RIMem, XQ.ninf_lt_fin, XQ.fin_lt, XQ.fin.injEq]
        exact ⟨.inl trivial, .inl (by linarith)⟩
      · intro r hr
        have h1 := sorted_drop_ge hs (by omega) r hr
        generalize hs : (data (rows'.getD p 0) v + data (rows'.getD (p + 1) 0) v) / 2 = s
        simp only [Region.Mem, RIMem, XQ.fin_lt, XQ.fin_lt_pinf, XQ.fin.injEq]
        exact ⟨.inl (by linarith), .inl trivial⟩
      · exact ⟨by simp [Region.OK, RIOK], by rw [hk]; exact ⟨_, rfl⟩⟩
      · exact ⟨by simp [Region.OK, RIOK], by rw [hk]; exact ⟨_, rfl⟩⟩
      · intro I hI
        refine ⟨_, ?_, ⟨_, hp, _, hp1, rfl⟩, ?_⟩
        · rcases hI with hI | hI
          · cases hI; exact .inl rfl
          · cases hI; exact .inr rfl
        · intro r hr
          rw [← List.take_append_drop (p + 1) rows'] at hr
          rcases List.mem_append.1 hr with hr | hr
          · have := sorted_take_le hs (by omega) r hr
            linarith
          · have := sorted_drop_ge hs (by omega) r hr
            linarith
    | integer n =>
      obtain ⟨hs, hd⟩ := hF.numeric (by simp [Cfg.isNum, hk])
      obtain ⟨j, hj, hje⟩ := hval' _ hp1 v n (.inl hk)
      simp only [hje, toInt_nat, idxOf_domain hj]
      refine ⟨_, _, rfl, ?_, ?_, ?_,
        ⟨trivial, by rw [hk]; exact ⟨_, rfl, fun z hz => mem_domainOf (List.mem_of_mem_take hz)⟩⟩,
        ⟨trivial, by rw [hk]; exact ⟨_, rfl, fun z hz => mem_domainOf (List.mem_of_mem_drop hz)⟩⟩, ?_⟩
      · intro x hx
        obtain ⟨i, hi, he⟩ := hx v n (.inl hk)
        rw [he, set_mem, set_mem, mem_domain_take hi, mem_domain_drop hi]
        omega
      · intro r hr
        have h1 := sorted_take_le hs (by omega) r hr
        obtain ⟨i, hi, he⟩ := hval' r (List.mem_of_mem_take hr) v n (.inl hk)
        rw [he, set_mem, mem_domain_take hi]
        have : (i : ℚ) < (j : ℚ) := by linarith
        exact_mod_cast this
      · intro r hr
        have h1 := sorted_drop_ge hs (by omega) r hr
        obtain ⟨i, hi, he⟩ := hval' r (List.mem_of_mem_drop hr) v n (.inl hk)
        rw [he, set_mem, mem_domain_drop hi]
        have : (j : ℚ) ≤ (i : ℚ) := by linarith
        exact_mod_cast this
      · rintro I (hI | hI) <;> cases hI
    | symbolic n =>
      obtain ⟨hA, hB⟩ := hF.symbolic (by simp [Cfg.isSym, hk])
      obtain ⟨j, hj, hje⟩ := hval' _ hp v n (.inr hk)
      simp only [hje, toInt_nat]
      have hdom : ∀ i : ℕ, i < n → (i : ℤ) ∈ domainOf n := by
        intro i hi
        have := (mem_domain_drop (j := 0) hi).2 (by omega)
        simpa using this
      refine ⟨_, _, rfl, ?_, ?_, ?_,
        ⟨trivial, by rw [hk]; exact ⟨_, rfl, fun z hz => by
          rw [List.mem_singleton.1 hz]; omega⟩⟩,
        ⟨trivial, by rw [hk]; exact ⟨_, rfl, fun z hz => mem_domainOf (List.mem_of_mem_filter hz)⟩⟩, ?_⟩
      · intro x hx
        obtain ⟨i, hi, he⟩ := hx v n (.inr hk)
        rw [he, set_mem, set_mem]
        simp [hdom i hi]
      · intro r hr
        rw [hA r hr, hje, set_mem]
        simp
      · intro r hr
        obtain ⟨i, hi, he⟩ := hval' r (List.mem_of_mem_drop hr) v n (.inr hk)
        have h2 := hB r hr
        rw [hje, he] at h2
        rw [he, set_mem]
        simp [hdom i hi]
        intro e
        exact h2 (by rw [e])
      · rintro I (hI | hI) <;> cases hI

end Verif.Learn
