import Verif.Hash.Spec

namespace Verif.Hash

variable {L : Type} [DecidableEq L]

theorem feq_some {a b : ℚ} : feq (some a) (some b) = true ↔ a = b := by simp [feq]

theorem feq_comm (a b : Option ℚ) : feq a b = feq b a := by
  cases a <;> cases b <;> simp [feq, eq_comm]

theorem zipEq_comm : ∀ (a b : List (L × L)), zipEq a b = zipEq b a
  | [], [] => rfl
  | [], _ :: _ => rfl
  | _ :: _, [] => rfl
  | a :: as, b :: bs => by
    simp only [zipEq, zipEq_comm as bs, eq_comm (a := a.1), eq_comm (a := a.2)]

theorem zipEq_iff : ∀ {a b : List (L × L)}, a.length = b.length → (zipEq a b = true ↔ a = b)
  | [], [], _ => by simp [zipEq]
  | [], _ :: _, h => by simp at h
  | _ :: _, [], h => by simp at h
  | a :: as, b :: bs, h => by
    have := zipEq_iff (a := as) (b := bs) (by simpa using h)
    simp only [zipEq, Bool.and_eq_true, decide_eq_true_eq, this, List.cons.injEq, Prod.ext_iff]

theorem Trans.eq_comm' (a b : Trans L) : a.eq b = b.eq a := by
  cases a <;> cases b <;> simp [Trans.eq, Scaler.eq, feq_comm, zipEq_comm, Bool.beq_comm]

theorem Domain.equiv_comm (d e : Domain L) : d.equiv e = e.equiv d := by
  unfold Domain.equiv
  rw [Trans.eq_comm' d.labels, Trans.eq_comm' d.values]
  by_cases h : d.kind = e.kind
  · simp only [h, eq_comm (a := d.name), eq_comm (a := d.limits)]
  · have h' : ¬ e.kind = d.kind := fun g => h g.symm
    simp [h, h']

theorem Built.kinds {inj : ℤ → L} {d : Domain L} (hd : Built inj d) :
    (∃ name mean scale, d = numericType name ⟨some mean, some scale⟩) ∨
    (∃ name vs ls, d = ⟨.symbolic, name, name, .dict vs, .dict ls, []⟩ ∧ vs.length = ls.length) ∨
    (∃ name lmin lmax, integerType inj name lmin lmax = .ok d ∧ d.kind = .integer ∧ d.name = name ∧
      d.limits = [lmin, lmax, 0, lmax - lmin]) := by
  cases hd with
  | numeric name mean scale => exact .inl ⟨_, _, _, rfl⟩
  | symbolic name labels d h =>
    refine .inr (.inl ?_)
    unfold symbolicType at h
    split at h
    · cases h
    · split at h
      · cases h
      · obtain rfl := Except.ok.inj h
        exact ⟨_, _, _, rfl, by simp⟩
  | integer name lmin lmax d h =>
    refine .inr (.inr ⟨name, lmin, lmax, h, ?_⟩)
    unfold integerType at h
    split at h
    · cases h
    · obtain rfl := Except.ok.inj h
      exact ⟨rfl, rfl, rfl⟩

theorem Domain.equiv_self {inj : ℤ → L} {d : Domain L} (hd : Built inj d) : d.equiv d = true := by
  have hz : ∀ l : List (L × L), zipEq l l = true := fun l => (zipEq_iff rfl).2 rfl
  rcases hd.kinds with ⟨n, m, s, rfl⟩ | ⟨n, vs, ls, rfl, -⟩ | ⟨n, a, b, h, -⟩
  · simp [Domain.equiv, numericType, Trans.ofScaler, Trans.eq, Scaler.eq, feq]
  · simp [Domain.equiv, Trans.eq, hz]
  · unfold integerType at h
    split at h
    · cases h
    · obtain rfl := Except.ok.inj h
      simp [Domain.equiv, Trans.eq, hz]

theorem Domain.equiv_iff {inj : ℤ → L} {d e : Domain L} (hd : Built inj d) (he : Built inj e) (hs : SameSize d e) :
    d.equiv e = true ↔ d = e := by
  constructor
  · intro h
    have hk : d.kind = e.kind := by
      simp only [Domain.equiv, Bool.and_eq_true, decide_eq_true_eq] at h
      exact h.1.1.1.1
    rcases hd.kinds with ⟨n, m, s, rfl⟩ | ⟨n, vs, ls, rfl, hl⟩ | ⟨n, a, b, hd', k1, k2, k3⟩
    · rcases he.kinds with ⟨n', m', s', rfl⟩ | ⟨n', vs', ls', rfl, -⟩ | ⟨n', a', b', -, k, -⟩
      · simp [Domain.equiv, numericType, Trans.ofScaler, Trans.eq, Scaler.eq, feq_some] at h
        obtain ⟨h1, rfl, rfl⟩ := h
        obtain rfl := of_decide_eq_true h1
        rfl
      · cases hk
      · rw [k] at hk; cases hk
    · rcases he.kinds with ⟨n', m', s', rfl⟩ | ⟨n', vs', ls', rfl, hl'⟩ | ⟨n', a', b', -, k, -⟩
      · cases hk
      · have e1 : ls.length = ls'.length := hs rfl rfl
        have e2 : vs.length = vs'.length := by omega
        simp only [Domain.equiv, Trans.eq, zipEq_iff e1, zipEq_iff e2, Bool.and_eq_true, decide_eq_true_eq] at h
        obtain ⟨⟨⟨⟨-, rfl⟩, rfl⟩, rfl⟩, -⟩ := h
        rfl
      · rw [k] at hk; cases hk
    · rcases he.kinds with ⟨n', m', s', rfl⟩ | ⟨n', vs', ls', rfl, -⟩ | ⟨n', a', b', he', k1', k2', k3'⟩
      · rw [k1] at hk; cases hk
      · rw [k1] at hk; cases hk
      · simp only [Domain.equiv, Bool.and_eq_true, decide_eq_true_eq, k1, ne_eq, not_true_eq_false, decide_false,
          Bool.false_or, k2, k2', k3, k3', List.cons.injEq] at h
        obtain ⟨⟨⟨⟨-, rfl⟩, -⟩, -⟩, rfl, rfl, -⟩ := h
        rw [hd'] at he'
        exact Except.ok.inj he'
  · rintro rfl
    exact Domain.equiv_self hd

/-! ### Dictionaries -/

theorem lookup_of_mem {B : Type} {d : List (String × B)} (hd : (d.map Prod.fst).Nodup) {p : String × B} (hp : p ∈ d) :
    d.lookup p.1 = some p.2 := by
  induction d with
  | nil => simp at hp
  | cons q d ih =>
    simp only [List.map_cons, List.nodup_cons] at hd
    rw [List.lookup_cons]
    rcases List.mem_cons.1 hp with rfl | hp
    · simp
    · have : p.1 ≠ q.1 := fun e => hd.1 (e ▸ List.mem_map_of_mem hp)
      have hb : (p.1 == q.1) = false := by simpa using this
      rw [hb]
      exact ih hd.2 hp

/-- Two dictionaries with the same values under the same names are permutations of each other. -/
theorem perm_of_lookup {B : Type} {s t : List (String × B)} (hs : (s.map Prod.fst).Nodup) (ht : (t.map Prod.fst).Nodup)
    (h : ∀ k, s.lookup k = t.lookup k) : s.Perm t := by
  have key : ∀ {s t : List (String × B)}, (s.map Prod.fst).Nodup → (∀ k, s.lookup k = t.lookup k) → s ⊆ t := by
    intro s t hs h p hp
    have := lookup_of_mem hs hp
    rw [h] at this
    exact Dict.lookup_mem this
  exact (List.perm_ext_iff_of_nodup (List.Nodup.of_map _ hs) (List.Nodup.of_map _ ht)).2
    (fun p => ⟨fun hp => key hs h hp, fun hp => key ht (fun k => (h k).symm) hp⟩)

theorem dictEq_iff {s t : List (String × ℚ)} (hs : (s.map Prod.fst).Nodup) (ht : (t.map Prod.fst).Nodup) :
    dictEq s t = true ↔ ∀ k, s.lookup k = t.lookup k := by
  simp only [dictEq, Bool.and_eq_true, decide_eq_true_eq, List.all_eq_true]
  constructor
  · rintro ⟨h1, h2⟩ k
    have hsub : s.map Prod.fst ⊆ t.map Prod.fst := by
      intro n hn
      obtain ⟨p, hp, rfl⟩ := List.mem_map.1 hn
      exact Dict.lookup_isSome.1 ⟨_, h2 p hp⟩
    have hperm : (s.map Prod.fst).Perm (t.map Prod.fst) :=
      (List.subperm_of_subset hs hsub).perm_of_length_le (by simp [h1])
    cases hl : s.lookup k with
    | some a => exact (h2 _ (Dict.lookup_mem hl)).symm
    | none =>
      rw [eq_comm, Dict.lookup_none]
      intro hn
      exact Dict.lookup_none.1 hl (hperm.symm.subset hn)
  · intro h
    refine ⟨(perm_of_lookup hs ht h).length_eq, fun p hp => ?_⟩
    rw [← h]
    exact lookup_of_mem hs hp

/-- Sorting permutations by names that differ. -/
theorem sort_perm {B : Type} (name : B → String) {s t : List B} (hs : (s.map name).Nodup) (h : s.Perm t) :
    s.insertionSort (fun a b => name a ≤ name b) = t.insertionSort (fun a b => name a ≤ name b) := by
  have : Std.Total (fun a b : B => name a ≤ name b) := ⟨fun a b => String.le_total _ _⟩
  have : IsTrans B (fun a b : B => name a ≤ name b) := ⟨fun a b c => String.le_trans⟩
  refine List.Perm.eq_of_pairwise (le := fun a b => name a ≤ name b) (fun a b ha hb h1 h2 => ?_)
    (List.pairwise_insertionSort _ s) (List.pairwise_insertionSort _ t)
    ((List.perm_insertionSort _ s).trans (h.trans (List.perm_insertionSort _ t).symm))
  exact List.inj_on_of_nodup_map hs ((List.mem_insertionSort _).1 ha) (h.symm.subset ((List.mem_insertionSort _).1 hb))
    (String.le_antisymm h1 h2)

end Verif.Hash
