import Verif.Intervals.Lemmas9
import Verif.Intervals.Spec2

/-! # Half-open intervals are closed under the set operations, which then never raise -/

namespace Verif.Iv
open FP
namespace CS

theorem HalfOpen.lowermost {s : CS} (h : s.HalfOpen) : s.lowermost = s.lower := by
  obtain ⟨-, -, ⟨h1, h2⟩ | ⟨-, h2⟩⟩ := h
  · simp [CS.lowermost, h1, h2, up_ninf]
  · simp [CS.lowermost, h2]

theorem HalfOpen.uppermost {s : CS} (h : s.HalfOpen) : s.uppermost = s.upper.dn := by
  simp [CS.uppermost, h.2.1]

theorem HalfOpen.wf {s : CS} (h : s.HalfOpen) : s.WF := le_of_lt h.1

theorem HalfOpen.reg {s : CS} (h : s.HalfOpen) : s.Reg := by
  obtain ⟨h1, h2, h3⟩ := h
  refine ⟨?_, ?_, ?_, fun _ => h2⟩
  · intro e; rw [e] at h1; exact absurd h1 (not_lt.2 (le_pinf _))
  · intro e; rw [e] at h1; exact absurd h1 (not_lt.2 (ninf_le _))
  · intro e; rcases h3 with h | h
    · exact h.2
    · exact absurd e h.1

theorem HalfOpen.mem_iff {s : CS} (h : s.HalfOpen) (n : ℤ) :
    s.Mem (fin n) ↔ s.lower ≤ fin n ∧ fin n < s.upper := by
  obtain ⟨h1, h2, h3⟩ := h
  obtain ⟨l, u, a, b⟩ := s
  simp only at h1 h2 h3
  subst h2
  rcases h3 with ⟨rfl, rfl⟩ | ⟨h3, rfl⟩
  · simp [Mem, FP.lt_def, FP.le_def, leb]
  · simp only [Mem]; grind

theorem HalfOpen.nonempty {s : CS} (h : s.HalfOpen) : s.isempty = false := by
  obtain ⟨h1, h2, h3⟩ := h
  have h4 : s.itype ≠ 4 ∨ s.lower = ninf := by
    rcases h3 with ⟨h, -⟩ | ⟨-, h⟩
    · exact .inr h
    · left; simp [itype, h2, h, Br.code]
  rcases h4 with h4 | h4
  · simp [isempty, not_lt.2 (le_of_lt h1), ne_of_lt h1, h4]
  · rw [h4] at h1
    simp [isempty, h4, not_lt.2 (ninf_le s.upper), up_ninf, ne_of_lt h1, h1]

theorem halfOpen_contains {s o : CS} (hs : s.HalfOpen) (ho : o.HalfOpen) (p : Bool) :
    s.containsInterval o p = true ↔ s.lower ≤ o.lower ∧ o.upper ≤ s.upper ∧
      (p = true → s.lower ≠ o.lower ∧ s.upper ≠ o.upper) := by
  have h1 := hs.2.2
  have h2 := ho.2.2
  simp only [containsInterval, hs.nonempty, hs.lowermost, ho.lowermost, hs.uppermost, ho.uppermost,
    dn_lt_dn, hs.2.1, ho.2.1]
  grind

theorem halfOpen_intersects {s o : CS} (hs : s.HalfOpen) (ho : o.HalfOpen) :
    s.intersects o = true ↔ o.lower < s.upper ∧ s.lower < o.upper := by
  simp only [intersects, ho.nonempty, hs.2.1, ho.2.1]
  grind

theorem dn_inj {x y : FP} : x.dn = y.dn ↔ x = y :=
  ⟨fun h => by rw [← up_dn x, h, up_dn], fun h => by rw [h]⟩

theorem halfOpen_difference {s o : CS} (hs : s.HalfOpen) (ho : o.HalfOpen) :
    ∃ d, s.difference o = .ok d ∧ d.All HalfOpenOrEmpty ∧
      (d = .cs emptyset ∨ d.All HalfOpen) := by
  have hself : mk? s.lower s.upper s.left s.right = .ok s := by
    simp [mk?, not_lt.2 (le_of_lt hs.1)]
  have aux : ∀ {d : NS}, d.All HalfOpen → d.All HalfOpenOrEmpty := by
    intro d h
    cases d with
    | cs c => exact .inl h
    | rs l => exact fun c hc => .inl (h c hc)
  have fin : ∀ d : NS, s.difference o = .ok d → d.All HalfOpen →
      ∃ d, s.difference o = .ok d ∧ d.All HalfOpenOrEmpty ∧ (d = .cs emptyset ∨ d.All HalfOpen) :=
    fun d h1 h2 => ⟨d, h1, aux h2, .inr h2⟩
  by_cases h1 : o.containsInterval s = true
  · exact ⟨.cs emptyset, by simp [difference, ho.nonempty, h1], .inr rfl, .inl rfl⟩
  · rw [Bool.not_eq_true] at h1
    by_cases h2 : s.containsInterval o true = true
    · obtain ⟨a1, a2, a3⟩ := (halfOpen_contains hs ho _).1 h2
      obtain ⟨a3, a4⟩ := a3 rfl
      have b1 : s.lower < o.lower := lt_of_le_of_ne a1 a3
      have b2 : o.upper < s.upper := lt_of_le_of_ne a2 (Ne.symm a4)
      have hne : o.lower ≠ ninf := by
        intro e; rw [e] at b1; exact absurd b1 (not_lt.2 (ninf_le _))
      have hl : o.left = .inc := by
        rcases ho.2.2 with h | h
        · exact absurd h.1 hne
        · exact h.2
      refine fin (.rs [⟨s.lower, o.lower, s.left, .exc⟩, ⟨o.upper, s.upper, .inc, .exc⟩]) ?_ ?_
      · simp [difference, ho.nonempty, h1, h2, mk?, not_lt.2 a1, not_lt.2 a2, bind, Except.bind, hl,
          ho.2.1, hs.2.1, Br.flip]
      · intro c hc
        rcases List.mem_cons.1 hc with rfl | hc
        · exact ⟨b1, rfl, hs.2.2⟩
        · rw [List.mem_singleton] at hc; subst hc
          refine ⟨b2, rfl, .inr ⟨?_, rfl⟩⟩
          intro e
          have := ho.1
          simp only at e
          rw [e] at this; exact absurd this (not_lt.2 (ninf_le _))
    · rw [Bool.not_eq_true] at h2
      by_cases h3 : s.intersects o = true
      · by_cases h4 : s.containsValue o.uppermost = true ∧ s.uppermost ≠ o.uppermost
        · have h5 := (containsValue_iff _ _).1 h4.1
          have h6 := h4.2
          rw [hs.uppermost, ho.uppermost, ne_eq, dn_inj] at h6
          have h7 := h5.2
          rw [hs.2.1, ho.uppermost] at h7
          have h8 : o.upper.dn < s.upper := by
            rcases h7 with h | ⟨-, h⟩
            · exact h
            · exact absurd h (by simp)
          have h9 : o.upper < s.upper := by
            have := FP.up_le h8
            rw [up_dn] at this
            exact lt_of_le_of_ne this (fun e => h6 e.symm)
          refine fin (.cs ⟨o.upper, s.upper, .inc, .exc⟩) ?_ ?_
          · simp only [difference, ho.nonempty, h1, h2, h3, hself, bind, Except.bind, if_pos h4, ho.2.1,
              Br.flip]
            simp [hs.2.1]
          · refine ⟨h9, rfl, .inr ⟨?_, rfl⟩⟩
            intro e
            have := ho.1
            simp only at e
            rw [e] at this; exact absurd this (not_lt.2 (ninf_le _))
        · by_cases h5 : s.containsValue o.lowermost = true ∧ s.lowermost ≠ o.lowermost
          · have h6 := (containsValue_iff _ _).1 h5.1
            have h7 := h5.2
            rw [hs.lowermost, ho.lowermost] at h7
            have h8 := h6.1
            rw [ho.lowermost] at h8
            have h9 : s.lower < o.lower := by
              rcases h8 with h | ⟨h, -⟩
              · exact h
              · exact absurd h h7
            have hne : o.lower ≠ ninf := by
              intro e; rw [e] at h9; exact absurd h9 (not_lt.2 (ninf_le _))
            have hl : o.left = .inc := by
              rcases ho.2.2 with h | h
              · exact absurd h.1 hne
              · exact h.2
            refine fin (.cs ⟨s.lower, o.lower, s.left, .exc⟩) ?_ ⟨h9, rfl, hs.2.2⟩
            simp only [difference, ho.nonempty, h1, h2, h3, hself, bind, Except.bind, if_neg h4,
              if_pos h5, hl, Br.flip]
            simp
          · refine fin (.cs s) ?_ hs
            simp only [difference, ho.nonempty, h1, h2, h3, hself, bind, Except.bind, if_neg h4,
              if_neg h5]
            simp
      · rw [Bool.not_eq_true] at h3
        refine fin (.cs s) ?_ hs
        simp [difference, ho.nonempty, h1, h2, h3, hself, bind, Except.bind]

/-- The intersection of two half-open intervals. -/
theorem halfOpen_intersection {a b : CS} (ha : a.HalfOpen) (hb : b.HalfOpen) :
    (a.intersects b = false ∧ (a.upper ≤ b.lower ∨ b.upper ≤ a.lower) ∧
      a.intersection b = .ok .emptyset) ∨
    (a.intersects b = true ∧ b.lower < a.upper ∧ a.lower < b.upper ∧ ∃ br,
      a.intersection b = .ok ⟨max a.lower b.lower, min a.upper b.upper, br, .exc⟩ ∧
      HalfOpen ⟨max a.lower b.lower, min a.upper b.upper, br, .exc⟩) := by
  have hbe := hb.nonempty
  obtain ⟨l, u, p, q⟩ := a
  obtain ⟨l', u', p', q'⟩ := b
  obtain ⟨a1, a2, a3⟩ := ha
  obtain ⟨b1, b2, b3⟩ := hb
  simp only at a1 a2 a3 b1 b2 b3
  subst a2 b2
  by_cases h1 : u ≤ l'
  · left
    have hi : CS.intersects ⟨l, u, p, .exc⟩ ⟨l', u', p', .exc⟩ = false := by
      simp only [CS.intersects, hbe]
      rcases lt_or_eq_of_le h1 with h | h
      · simp [h]
      · simp [h]
    exact ⟨hi, .inl h1, by simp [CS.intersection, hi]⟩
  · by_cases h2 : u' ≤ l
    · left
      have hi : CS.intersects ⟨l, u, p, .exc⟩ ⟨l', u', p', .exc⟩ = false := by
        simp only [CS.intersects, hbe]
        rcases lt_or_eq_of_le h2 with h | h
        · simp [h]
        · simp [h]
      exact ⟨hi, .inr h2, by simp [CS.intersection, hi]⟩
    · right
      rw [not_le] at h1 h2
      have hi : CS.intersects ⟨l, u, p, .exc⟩ ⟨l', u', p', .exc⟩ = true := by
        simp [CS.intersects, hbe, not_lt.2 (le_of_lt h1), not_lt.2 (le_of_lt h2), ne_of_gt h1,
          ne_of_lt h2]
      have hmm : max l l' < min u u' := by
        simp [*]
      refine ⟨hi, h1, h2, if l' = l then Br.max p p' else if l > l' then p else p', ?_, hmm, rfl, ?_⟩
      · simp only [CS.intersection, hi, not_true_eq_false, if_false, CS.mk?, if_neg (not_lt.2 (le_of_lt hmm)),
          bind, Except.bind]
        simp [Br.max]
      · simp only
        rcases lt_trichotomy l l' with h | h | h
        · rw [max_eq_right (le_of_lt h), if_neg (ne_of_gt h), if_neg (not_lt.2 (le_of_lt h))]
          exact b3
        · subst h
          rw [max_self, if_pos rfl]
          rcases a3 with ⟨rfl, rfl⟩ | ⟨h3, rfl⟩
          · left; refine ⟨rfl, ?_⟩; cases p' <;> simp [Br.max, Br.code]
          · rcases b3 with ⟨h4, rfl⟩ | ⟨h4, rfl⟩
            · exact absurd h4 h3
            · right; exact ⟨h3, by simp [Br.max]⟩
        · rw [max_eq_left (le_of_lt h), if_neg (ne_of_lt h), if_pos h]
          exact a3

theorem halfOpenOrEmpty_intersection {a b : CS} (ha : a.HalfOpenOrEmpty) (hb : b.HalfOpenOrEmpty) :
    ∃ c, a.intersection b = .ok c ∧ c.HalfOpenOrEmpty := by
  rcases hb with hb | rfl
  · rcases ha with ha | rfl
    · rcases halfOpen_intersection ha hb with ⟨-, -, e⟩ | ⟨-, -, -, br, e, hn⟩
      · exact ⟨_, e, .inr rfl⟩
      · exact ⟨_, e, .inl hn⟩
    · refine ⟨emptyset, ?_, .inr rfl⟩
      by_cases hi : emptyset.intersects b = true
      · obtain ⟨l, u, p, q⟩ := b
        have hbe := hb.nonempty
        obtain ⟨b1, b2, b3⟩ := hb
        simp only at b1 b2 b3
        subst b2
        have h1 : l < fin 0 ∧ fin 0 < u := by
          revert hi
          simp only [intersects, hbe, emptyset]
          grind
        simp only [intersection, hi, mk?, bind, Except.bind]
        simp only [emptyset, max_eq_left (le_of_lt h1.1), min_eq_left (le_of_lt h1.2), ne_of_lt h1.1,
          h1, ne_of_gt h1.2]
        simp
      · simp [intersection, hi]
  · have : emptyset.isempty = true := by decide
    exact ⟨emptyset, by simp [intersection, intersects, this], .inr rfl⟩

theorem difference_emptyset {s : CS} (h : s.WF) : s.difference emptyset = .ok (.cs s) := by
  have : emptyset.isempty = true := by decide
  simp [difference, this, mk?, not_lt.2 h, bind, Except.bind]

theorem emptyset_difference {o : CS} (ho : o.HalfOpen) :
    emptyset.difference o = .ok (.cs emptyset) := by
  have h0 : emptyset.isempty = true := by decide
  have hv : ∀ x, emptyset.containsValue x = false := by
    intro x
    rw [Bool.eq_false_iff, ne_eq, containsValue_iff]
    simp only [emptyset, Mem]; grind
  have h1 : emptyset.containsInterval o true = false := by simp [containsInterval, h0]
  have hm : mk? emptyset.lower emptyset.upper emptyset.left emptyset.right = .ok emptyset := by decide
  by_cases h : o.containsInterval emptyset = true
  · simp [difference, ho.nonempty, h]
  · simp [difference, ho.nonempty, h, h1, hv, hm, bind, Except.bind]

theorem HalfOpenOrEmpty.good {s : CS} (h : s.HalfOpenOrEmpty) : RS.Good s := by
  rcases h with h | rfl
  · exact ⟨h.wf, h.reg⟩
  · decide

theorem halfOpenOrEmpty_difference {s o : CS} (hs : s.HalfOpenOrEmpty) (ho : o.HalfOpenOrEmpty) :
    ∃ d, s.difference o = .ok d ∧ d.All HalfOpenOrEmpty := by
  rcases ho with ho | rfl
  · rcases hs with hs | rfl
    · obtain ⟨d, h1, h2, -⟩ := halfOpen_difference hs ho
      exact ⟨d, h1, h2⟩
    · exact ⟨_, emptyset_difference ho, .inr rfl⟩
  · exact ⟨_, difference_emptyset hs.good.1, hs⟩

end CS

namespace RS
open CS

theorem disjointify_halfOpen : ∀ (n : Nat) (l : List CS), (∀ s ∈ l, s.HalfOpenOrEmpty) →
    (∃ r, disjointify n l = .ok r ∧ ∀ s ∈ r, s.HalfOpen) ∨ disjointify n l = .error .outOfFuel
  | _, [], _ => by simp [disjointify]
  | 0, _ :: _, _ => by simp [disjointify]
  | n + 1, h :: t, hl => by
    have hh := hl h (by simp)
    have ht : ∀ s ∈ t, s.HalfOpenOrEmpty := fun s hs => hl s (by simp [hs])
    have : ∃ ds, t.mapM (fun s => s.difference h) = .ok ds := by
      cases hm : t.mapM (fun s => s.difference h) with
      | ok ds => exact ⟨ds, rfl⟩
      | error e =>
        obtain ⟨s, hs, he⟩ := mapM_error _ _ _ hm
        obtain ⟨d, hd, -⟩ := halfOpenOrEmpty_difference (ht s hs) hh
        rw [hd] at he; cases he
    obtain ⟨ds, hds⟩ := this
    have hf := (mapM_ok_iff _ _ _).1 hds
    have hall : ∀ c ∈ (ds.map pieces).flatten, c.HalfOpenOrEmpty := by
      intro c hc
      obtain ⟨l', hl', hc⟩ := List.mem_flatten.1 hc
      obtain ⟨d, hd, rfl⟩ := List.mem_map.1 hl'
      obtain ⟨s, hs, hd'⟩ := forall₂_mem_right hf hd
      obtain ⟨d', h1, h2⟩ := halfOpenOrEmpty_difference (ht s hs) hh
      rw [hd'] at h1; cases h1
      exact all_pieces h2 c hc
    have ih := disjointify_halfOpen n _ hall
    simp only [disjointify, hds, bind, Except.bind]
    rcases ih with ⟨r, hr, hr'⟩ | hr
    · left; rw [hr]
      refine ⟨_, rfl, ?_⟩
      rcases hh with hh | rfl
      · simp only [hh.nonempty]
        intro c hc
        rcases List.mem_cons.1 hc with rfl | hc
        · exact hh
        · exact hr' c hc
      · have : emptyset.isempty = true := by decide
        simp only [this, if_true]; exact hr'
    · right; rw [hr]

/-- Disjoint half-open intervals are in the order of their upper bounds. -/
theorem halfOpen_before {a b : CS} (ha : a.HalfOpen) (hb : b.HalfOpen) (hd : a.Disjoint b)
    (h : a.upper ≤ b.upper) : Before a b := by
  have hi : a.intersects b = false := by
    by_contra hc
    rw [Bool.not_eq_false, halfOpen_intersects ha hb] at hc
    have h1 := ha.1
    have h2 := hb.1
    -- the larger of the two lower bounds is a common point
    obtain ⟨x, h3, h4⟩ : ∃ x : CS, x.HalfOpen ∧ ∀ y, x.Mem y → a.Mem y ∧ b.Mem y := by
      by_cases hl : a.lower ≤ b.lower
      · refine ⟨⟨b.lower, a.upper, b.left, .exc⟩, ⟨hc.1, rfl, hb.2.2⟩, ?_⟩
        intro y
        have a2 := ha.2
        have b2 := hb.2
        simp only [CS.Mem]
        grind
      · rw [not_le] at hl
        refine ⟨⟨a.lower, a.upper, a.left, .exc⟩, ⟨h1, rfl, ha.2.2⟩, ?_⟩
        intro y
        have a2 := ha.2
        have b2 := hb.2
        simp only [CS.Mem]
        grind
    obtain ⟨y, hy⟩ := exists_mem h3.wf h3.nonempty
    exact hd y (h4 y hy)
  rw [Bool.eq_false_iff, ne_eq, halfOpen_intersects ha hb] at hi
  have h1 := ha.1
  have h2 := hb.1
  have h3 : a.upper ≤ b.lower := by
    by_contra hc
    rw [not_le] at hc
    exact hi ⟨hc, lt_of_lt_of_le h1 h⟩
  intro x y hx hy
  have a2 := ha.2
  have b2 := hb.2
  revert hx hy
  simp only [CS.Mem]
  grind

theorem mergeLoop_halfOpen : ∀ (t : List CS) (last : CS), (∀ s ∈ last :: t, s.HalfOpen) →
    (last :: t).Pairwise Before → ∀ s ∈ mergeLoop last t, s.HalfOpen
  | [], last, h, _ => by simpa [mergeLoop] using h
  | s :: t, last, h, hp => by
    obtain ⟨hp1, hp2⟩ := List.pairwise_cons.1 hp
    obtain ⟨hp3, hp4⟩ := List.pairwise_cons.1 hp2
    have hl := h last (by simp)
    have hs := h s (by simp)
    unfold mergeLoop
    split
    · rename_i hc
      have hu : last.upper = s.lower := by
        have hb := hp1 s (by simp)
        obtain ⟨x, hx⟩ := exists_mem hl.wf hl.nonempty
        obtain ⟨y, hy⟩ := exists_mem hs.wf hs.nonempty
        have hxy := hb x y hx hy
        have a1 := hl.1
        have b1 := hs.1
        revert hx hy hc
        simp only [contiguous, CS.Mem]
        clear h hp hp1 hp2 hp3 hp4 hb
        grind
      have hm : ({ last with upper := s.upper, right := s.right } : CS).HalfOpen := by
        refine ⟨?_, hs.2.1, hl.2.2⟩
        have := hl.1
        rw [hu] at this
        exact lt_trans this hs.1
      refine mergeLoop_halfOpen t _ ?_ ?_
      · intro c hc
        rcases List.mem_cons.1 hc with rfl | hc
        · exact hm
        · exact h c (by simp [hc])
      · refine List.pairwise_cons.2 ⟨fun c hc' x y hx hy => ?_, hp4⟩
        rcases contiguous_sub hc hx with hx | hx
        · exact hp1 c (by simp [hc']) x y hx hy
        · exact hp3 c hc' x y hx hy
    · intro c hc
      rcases List.mem_cons.1 hc with rfl | hc
      · exact hl
      · exact mergeLoop_halfOpen t s (fun c hc => h c (by simp at hc ⊢; tauto)) hp2 c hc

/-- `simplify` of half-open intervals in any order: it returns, keeps exactly the members and gives
half-open intervals in increasing order. -/
theorem simplifyList_halfOpen {l : List CS} (hl : ∀ s ∈ l, s.HalfOpenOrEmpty) :
    ∃ r, simplifyList l = .ok r ∧ (∀ x, RS.Mem r x ↔ RS.Mem l x) ∧ (∀ s ∈ r, s.HalfOpen) ∧
      r.Pairwise Before ∧ r.IsChain (fun a b => a.contiguous b = false) := by
  have hg : ∀ s ∈ l, Good s := fun s hs => (hl s hs).good
  rcases disjointify_halfOpen (2 ^ l.length) l hl with ⟨d, hd, hh⟩ | hd
  · obtain ⟨i1, i2, i3⟩ := disjointify_spec _ hg hd
    have hperm := sortUpper_perm d
    have hbef : (sortUpper d).Pairwise Before := by
      have h1 := sortUpper_sorted d
      have h2 : (sortUpper d).Pairwise CS.Disjoint :=
        (hperm.pairwise_iff (fun {a b} h x hx => h x ⟨hx.2, hx.1⟩)).2 i3
      have h3 := List.Pairwise.and_mem.1 (h1.and h2)
      refine h3.imp ?_
      rintro a b ⟨ha, hb, hu, hdj⟩
      exact halfOpen_before (hh a (hperm.mem_iff.1 ha)) (hh b (hperm.mem_iff.1 hb)) hdj hu
    simp only [simplifyList, hd, bind, Except.bind]
    cases hs : sortUpper d with
    | nil =>
      have : d = [] := by rw [hs] at hperm; exact hperm.symm.eq_nil
      subst this
      exact ⟨[], rfl, i1, by simp, by simp, by simp⟩
    | cons a t =>
      rw [hs] at hbef
      have hall : ∀ s ∈ a :: t, s.HalfOpen := fun s h => hh s (hperm.mem_iff.1 (hs ▸ h))
      have hw : ∀ s ∈ a :: t, s.WF ∧ s.isempty = false := fun s h =>
        ⟨(hall s h).wf, (hall s h).nonempty⟩
      obtain ⟨j1, j2, j3⟩ := mergeLoop_spec t a hw hbef
      refine ⟨_, rfl, fun x => ?_, mergeLoop_halfOpen t a hall hbef, j3, mergeLoop_chain t a hw hbef⟩
      rw [j1, ← hs, mem_perm hperm, i1]
  · exact absurd hd (disjointify_terminates hg)

theorem simplify_halfOpen {l : List CS} (hl : ∀ s ∈ l, s.HalfOpenOrEmpty) :
    ∃ d, simplify l = .ok d ∧ (∀ x, d.Mem x ↔ RS.Mem l x) ∧ d.All HalfOpenOrEmpty ∧
      ∃ r : List CS, (d = .cs .emptyset ∧ r = [] ∨ (∃ c, d = .cs c ∧ r = [c]) ∨ d = .rs r ∧ 2 ≤ r.length) ∧
        (∀ s ∈ r, s.HalfOpen) ∧ r.Pairwise Before ∧
        r.IsChain (fun a b => a.contiguous b = false) := by
  obtain ⟨r, hr, h1, h2, h3, h4⟩ := simplifyList_halfOpen hl
  have hok : ∃ d, simplify l = .ok d := by
    simp only [simplify, hr, bind, Except.bind]
    match r with
    | [] => exact ⟨_, rfl⟩
    | [a] => exact ⟨_, rfl⟩
    | a :: b :: c => exact ⟨_, rfl⟩
  obtain ⟨d, hd⟩ := hok
  obtain ⟨r', hr', hm, hform⟩ := simplify_ok hd
  rw [hr] at hr'; cases hr'
  refine ⟨d, hd, fun x => by rw [hm, h1], ?_, r, hform, h2, h3, h4⟩
  rcases hform with ⟨rfl, -⟩ | ⟨c, rfl, rfl⟩ | ⟨rfl, -⟩
  · exact .inr rfl
  · exact .inl (h2 c (by simp))
  · exact fun c hc => .inl (h2 c hc)

theorem diffInner_halfOpen : ∀ (os : List CS) (s : CS) (p : List CS), s.HalfOpenOrEmpty →
    (∀ o ∈ os, o.HalfOpenOrEmpty) → (∀ c ∈ p, c.HalfOpenOrEmpty) →
    ∃ p' s', diffInner s os p = .ok (p', s') ∧ s'.HalfOpenOrEmpty ∧ ∀ c ∈ p', c.HalfOpenOrEmpty
  | [], s, p, hs, _, hp => ⟨p, s, rfl, hs, hp⟩
  | o :: os, s, p, hs, ho, hp => by
    obtain ⟨d, hd, hall⟩ := halfOpenOrEmpty_difference hs (ho o (by simp))
    simp only [diffInner, hd, bind, Except.bind]
    cases d with
    | cs c => exact diffInner_halfOpen os c p hall (fun o h => ho o (by simp [h])) hp
    | rs l =>
      obtain ⟨rfl, -, -⟩ := CS.difference_rs hd
      refine diffInner_halfOpen os _ _ (hall _ (by simp)) (fun o h => ho o (by simp [h])) ?_
      intro c hc
      rcases List.mem_cons.1 hc with rfl | hc
      · exact hall _ (by simp)
      · exact hp c hc

theorem diffOuter_halfOpen {o : List CS} (ho : ∀ c ∈ o, c.HalfOpenOrEmpty) : ∀ (n : Nat) (q : List CS),
    (∀ s ∈ q, s.HalfOpenOrEmpty) →
    (∃ r, diffOuter o n q = .ok r ∧ ∀ s ∈ r, s.HalfOpenOrEmpty) ∨
      diffOuter o n q = .error .outOfFuel
  | n, [], _ => by cases n <;> simp [diffOuter]
  | 0, _ :: _, _ => by simp [diffOuter]
  | n + 1, s :: q, hq => by
    obtain ⟨p, s', h1, h2, h3⟩ := diffInner_halfOpen o s [] (hq s (by simp)) ho (by simp)
    have ih := diffOuter_halfOpen ho n (p ++ q) (by
      intro c hc
      rcases List.mem_append.1 hc with hc | hc
      · exact h3 c hc
      · exact hq c (by simp [hc]))
    simp only [diffOuter, h1, bind, Except.bind]
    rcases ih with ⟨r, hr, hr'⟩ | hr
    · left; rw [hr]
      refine ⟨_, rfl, fun c hc => ?_⟩
      rcases List.mem_cons.1 hc with rfl | hc
      · exact h2
      · exact hr' c hc
    · right; rw [hr]

/-- `RealSet.difference` of half-open intervals in any order. -/
theorem difference_halfOpen {l o : List CS} (hl : ∀ s ∈ l, s.HalfOpenOrEmpty)
    (ho : ∀ s ∈ o, s.HalfOpenOrEmpty) :
    ∃ d, difference l o = .ok d ∧ (∀ x, d.Mem x ↔ RS.Mem l x ∧ ¬ RS.Mem o x) ∧
      d.All HalfOpenOrEmpty := by
  have hgl : ∀ s ∈ l, Good s := fun s hs => (hl s hs).good
  have hgo : ∀ s ∈ o, Good s := fun s hs => (ho s hs).good
  unfold difference
  by_cases he : isempty o = true
  · rw [if_pos he, mapM_mk? (fun s hs => (hgl s hs).1)]
    rw [isempty_iff (fun s hs => (hgo s hs).1)] at he
    exact ⟨.rs l, rfl, fun x => ⟨fun h => ⟨h, fun h' => he ⟨x, h'⟩⟩, fun h => h.1⟩, hl⟩
  · rw [if_neg he]
    rcases diffOuter_halfOpen ho (l.length * (o.length + 1)) l hl with ⟨r, hr, hr'⟩ | hr
    · obtain ⟨k1, -, -⟩ := diffOuter_spec hgo _ hgl hr
      obtain ⟨d, hd, h1, h2, -⟩ := simplify_halfOpen hr'
      refine ⟨d, by simp only [hr, bind, Except.bind, hd], fun x => by rw [h1, k1], h2⟩
    · exact absurd hr (diffOuter_terminates hgl hgo)

end RS
end Verif.Iv
