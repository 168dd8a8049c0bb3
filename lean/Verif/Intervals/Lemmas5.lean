import Verif.Intervals.Lemmas4

/-! # Lemmas about `simplify` as a whole, and about `RealSet.difference` -/

namespace Verif.Iv
open FP
namespace RS

theorem mem_perm {a b : List CS} (h : a.Perm b) (x : FP) : RS.Mem a x ↔ RS.Mem b x := by
  simp only [RS.Mem, h.mem_iff]

theorem simplifyList_sub {l r : List CS} (hl : ∀ s ∈ l, Good s) (h : simplifyList l = .ok r)
    {x : FP} (hx : RS.Mem r x) : RS.Mem l x := by
  simp only [simplifyList, bind, Except.bind] at h
  cases hd : disjointify (2 ^ l.length) l with
  | error e => simp [hd] at h
  | ok d =>
    rw [hd] at h
    have hs := disjointify_spec _ hl hd
    cases hsort : sortUpper d with
    | nil =>
      simp only [hsort, Except.ok.injEq] at h
      subst h
      simp [RS.Mem] at hx
    | cons a t =>
      simp only [hsort, Except.ok.injEq] at h
      subst h
      have := mergeLoop_sub t a hx
      rw [← hsort, mem_perm (sortUpper_perm d), hs.1] at this
      exact this

theorem simplifyList_spec {l r : List CS} (hl : ∀ s ∈ l, Good s) (ho : l.Pairwise CS.NotBelow)
    (h : simplifyList l = .ok r) :
    (∀ x, RS.Mem r x ↔ RS.Mem l x) ∧ (∀ s ∈ r, s.WF ∧ s.isempty = false) ∧
    r.Pairwise Before ∧ r.IsChain (fun a b => a.contiguous b = false) := by
  simp only [simplifyList, bind, Except.bind] at h
  cases hd : disjointify (2 ^ l.length) l with
  | error e => simp [hd] at h
  | ok d =>
    rw [hd] at h
    obtain ⟨i1, i2, i3⟩ := disjointify_spec _ hl hd
    have hnb := disjointify_notBelow _ hl ho hd
    have hbef : d.Pairwise Before := hnb.imp₂ (fun a b => before_of) i3
    have hsorted : sortUpper d = d := by
      apply sortUpper_eq
      have : d.Pairwise (fun a b => a ∈ d ∧ b ∈ d ∧ Before a b) :=
        List.Pairwise.and_mem.1 hbef
      exact this.imp (fun {a b} h => upper_le_of_before (i2 a h.1) (i2 b h.2.1) h.2.2)
    simp only [hsorted] at h
    cases d with
    | nil =>
      simp only [Except.ok.injEq] at h
      subst h
      exact ⟨i1, by simp, by simp, by simp⟩
    | cons a t =>
      simp only [Except.ok.injEq] at h
      subst h
      have hw : ∀ s ∈ a :: t, s.WF ∧ s.isempty = false := fun s hs => ⟨(i2 s hs).1, (i2 s hs).2.2⟩
      obtain ⟨j1, j2, j3⟩ := mergeLoop_spec t a hw hbef
      exact ⟨fun x => by rw [j1, i1], j2, j3, mergeLoop_chain t a hw hbef⟩

/-- The result of `simplify` is that of `simplifyList`, wrapped. -/
theorem simplify_ok {l : List CS} {d : NS} (h : simplify l = .ok d) :
    ∃ r, simplifyList l = .ok r ∧ (∀ x, d.Mem x ↔ RS.Mem r x) ∧
      (d = .cs .emptyset ∧ r = [] ∨ (∃ c, d = .cs c ∧ r = [c]) ∨ d = .rs r ∧ 2 ≤ r.length) := by
  simp only [simplify, bind, Except.bind] at h
  cases hr : simplifyList l with
  | error e => simp [hr] at h
  | ok r =>
    rw [hr] at h
    refine ⟨r, rfl, ?_⟩
    match r, h with
    | [], h =>
      simp only [Except.ok.injEq] at h
      subst h
      refine ⟨fun x => ?_, by simp⟩
      simp only [NS.Mem, CS.emptyset, CS.Mem, RS.Mem]; grind
    | [c], h =>
      simp only [Except.ok.injEq] at h
      subst h
      exact ⟨fun x => by simp [NS.Mem, RS.Mem], by simp⟩
    | a :: b :: t, h =>
      simp only [Except.ok.injEq] at h
      subst h
      exact ⟨fun x => by simp [NS.Mem], by simp⟩

theorem simplifyList_error {l : List CS} {e : Err} (hl : ∀ s ∈ l, Good s)
    (h : simplifyList l = .error e) : e ≠ .outOfFuel := by
  simp only [simplifyList, bind, Except.bind] at h
  cases hd : disjointify (2 ^ l.length) l with
  | error e' =>
    simp only [hd, Except.error.injEq] at h
    subst h
    intro he
    subst he
    exact disjointify_terminates hl hd
  | ok d =>
    rw [hd] at h
    simp only at h
    split at h <;> cases h

theorem simplify_error {l : List CS} {e : Err} (hl : ∀ s ∈ l, Good s)
    (h : simplify l = .error e) : e ≠ .outOfFuel := by
  simp only [simplify, bind, Except.bind] at h
  cases hr : simplifyList l with
  | error e' =>
    simp only [hr, Except.error.injEq] at h
    subst h
    exact simplifyList_error hl hr
  | ok r =>
    rw [hr] at h
    simp only at h
    split at h <;> cases h

/-! ### `RealSet.difference` -/

/-- The inner loop: what it cuts off is in `os`; the pieces stay in order. -/
theorem diffInner_spec : ∀ {os : List CS} {s : CS} {p p' : List CS} {s' : CS}, Good s →
    (∀ o ∈ os, Good o) → diffInner s os p = .ok (p', s') →
    ∃ new, p' = new ++ p ∧ Good s' ∧ (∀ c ∈ new, Good c) ∧
      (∀ x, s'.Mem x → s.Mem x ∧ ¬ RS.Mem os x) ∧ (∀ x, RS.Mem new x → s.Mem x) ∧
      (∀ x, ¬ RS.Mem os x → s.Mem x → s'.Mem x ∨ RS.Mem new x) ∧
      (s' :: new).Pairwise Before
  | [], s, p, p', s', hs, _, h => by
    simp only [diffInner, Except.ok.injEq, Prod.mk.injEq] at h
    obtain ⟨rfl, rfl⟩ := h
    exact ⟨[], by simp, hs, by simp, by simp [RS.Mem], by simp [RS.Mem], by simp_all, by simp⟩
  | o :: os, s, p, p', s', hs, hos, h => by
    simp only [diffInner, bind, Except.bind] at h
    have ho := hos o (by simp)
    have hos' : ∀ o ∈ os, Good o := fun c hc => hos c (by simp [hc])
    cases hd : s.difference o with
    | error e => simp [hd] at h
    | ok d =>
      rw [hd] at h
      obtain ⟨j1, j2, j3⟩ := CS.difference_mem hs.1 ho.1 hs.2 ho.2 hd
      cases d with
      | cs c =>
        simp only at h
        obtain ⟨new, rfl, k2, k3, k4, k5, k6, k7⟩ := diffInner_spec ⟨j2, j3⟩ hos' h
        simp only [NS.Mem] at j1
        refine ⟨new, rfl, k2, k3, fun x hx => ?_, fun x hx => ?_, fun x hx hsx => ?_, k7⟩
        · have := k4 x hx; rw [mem_cons]; grind
        · have := k5 x hx; grind
        · rw [mem_cons] at hx; have := k6 x; grind
      | rs l =>
        obtain ⟨rfl, he, hsub⟩ := CS.difference_rs hd
        simp only at h
        simp only [NS.All, List.mem_cons, List.not_mem_nil, or_false, forall_eq_or_imp,
          forall_eq] at j2 j3
        obtain ⟨new, rfl, k2, k3, k4, k5, k6, k7⟩ := diffInner_spec ⟨j2.1, j3.1⟩ hos' h
        have j1' := CS.split_mem (s := s) ho.1 he j2.1 j2.2
        refine ⟨new ++ [⟨o.upper, s.upper, o.right.flip, s.right⟩], by simp, k2, ?_,
          fun x hx => ?_, fun x hx => ?_, fun x hx hsx => ?_, ?_⟩
        · intro c hc
          rcases List.mem_append.1 hc with hc | hc
          · exact k3 c hc
          · rw [List.mem_singleton] at hc; subst hc; exact ⟨j2.2, j3.2⟩
        · have h1 := k4 x hx
          have h2 := (j1' x).1 (.inl h1.1)
          rw [mem_cons]; grind
        · rw [mem_append] at hx
          rcases hx with hx | hx
          · exact ((j1' x).1 (.inl (k5 x hx))).1
          · have hx' : (⟨o.upper, s.upper, o.right.flip, s.right⟩ : CS).Mem x := by
              simpa [RS.Mem] using hx
            exact ((j1' x).1 (.inr hx')).1
        · rw [mem_cons] at hx
          rw [mem_append]
          have := (j1' x).2 ⟨hsx, fun hc => hx (.inl hc)⟩
          rcases this with h1 | h1
          · have := k6 x (fun hc => hx (.inr hc)) h1; grind
          · exact .inr (.inr ⟨_, by simp, h1⟩)
        · rw [← List.cons_append, List.pairwise_append]
          refine ⟨k7, by simp, ?_⟩
          intro a ha b hb x y hx hy
          rw [List.mem_singleton] at hb
          subst hb
          have : (⟨s.lower, o.lower, s.left, o.left.flip⟩ : CS).Mem x := by
            rcases List.mem_cons.1 ha with rfl | ha
            · exact (k4 x hx).1
            · exact k5 x ⟨a, ha, hx⟩
          exact CS.difference_rs_disjoint ho.1 he this hy

theorem diffOuter_cons {o : List CS} {n : Nat} {s : CS} {q r : List CS}
    (h : diffOuter o (n + 1) (s :: q) = .ok r) :
    ∃ p s' r', diffInner s o [] = .ok (p, s') ∧ diffOuter o n (p ++ q) = .ok r' ∧ r = s' :: r' := by
  simp only [diffOuter, bind, Except.bind] at h
  cases hi : diffInner s o [] with
  | error e => simp [hi] at h
  | ok ps =>
    obtain ⟨p, s'⟩ := ps
    rw [hi] at h
    simp only at h
    cases hr : diffOuter o n (p ++ q) with
    | error e => simp [hr] at h
    | ok r' =>
      simp only [hr, Except.ok.injEq] at h
      exact ⟨p, s', r', rfl, hr, h.symm⟩

theorem diffOuter_spec {o : List CS} (ho : ∀ c ∈ o, Good c) : ∀ (n : Nat) {q r : List CS},
    (∀ s ∈ q, Good s) → diffOuter o n q = .ok r →
    (∀ x, RS.Mem r x ↔ RS.Mem q x ∧ ¬ RS.Mem o x) ∧ (∀ s ∈ r, Good s) ∧
    (q.Pairwise Before → r.Pairwise Before)
  | n, [], r, _, h => by
    have : r = [] := by cases n <;> simpa [diffOuter] using h.symm
    subst this
    simp [RS.Mem]
  | 0, _ :: _, _, _, h => by simp [diffOuter] at h
  | n + 1, s :: q, r, hq, h => by
    obtain ⟨p, s', r', hi, hr, rfl⟩ := diffOuter_cons h
    obtain ⟨new, hp, k2, k3, k4, k5, k6, k7⟩ := diffInner_spec (hq s (by simp)) ho hi
    rw [List.append_nil] at hp
    subst hp
    have hq' : ∀ c ∈ q, Good c := fun c hc => hq c (by simp [hc])
    obtain ⟨i1, i2, i3⟩ := diffOuter_spec ho n (q := p ++ q) (fun c hc => by
      rcases List.mem_append.1 hc with hc | hc
      · exact k3 c hc
      · exact hq' c hc) hr
    refine ⟨fun x => ?_, ?_, ?_⟩
    · rw [mem_cons, i1, mem_append, mem_cons]
      have := k4 x; have := k5 x; have := k6 x
      grind
    · intro c hc
      rcases List.mem_cons.1 hc with rfl | hc
      · exact k2
      · exact i2 c hc
    · intro hb
      obtain ⟨hb1, hb2⟩ := List.pairwise_cons.1 hb
      have hpq : (p ++ q).Pairwise Before := by
        rw [List.pairwise_append]
        refine ⟨(List.pairwise_cons.1 k7).2, hb2, fun a ha b hb' x y hx hy => ?_⟩
        exact hb1 b hb' x y (k5 x ⟨a, ha, hx⟩) hy
      refine List.pairwise_cons.2 ⟨fun c hc x y hx hy => ?_, i3 hpq⟩
      have hy' := ((i1 y).1 ⟨c, hc, hy⟩).1
      rw [mem_append] at hy'
      rcases hy' with ⟨a, ha, hya⟩ | ⟨a, ha, hya⟩
      · exact (List.pairwise_cons.1 k7).1 a ha x y hx hya
      · exact hb1 a ha x y (k4 x hx).1 hya

theorem notBelow_of_before {a b : CS} (h : Before a b) : CS.NotBelow a b :=
  fun y hy ⟨x, hx⟩ => ⟨x, hx, le_of_lt (h x y hx hy)⟩

/-! ### Termination of the loop of `RealSet.difference` -/

/-- How many intervals of `o` can still split `s`. -/
def splits (o : List CS) (s : CS) : Nat := o.countP (fun k => !k.isempty && s.containsInterval k)

theorem splits_mono {o : List CS} (ho : ∀ c ∈ o, c.WF) {s t : CS} (h : ∀ x, s.Mem x → t.Mem x) :
    splits o s ≤ splits o t := by
  unfold splits
  apply List.countP_mono_left
  intro k hk
  simp only [Bool.and_eq_true, Bool.not_eq_true']
  intro ⟨h1, h2⟩
  exact ⟨h1, CS.containsInterval_complete (ho k hk) h1
    (fun x hx => h x (CS.containsInterval_sound h2 hx))⟩

theorem splits_two : ∀ {o : List CS}, (∀ c ∈ o, c.WF) → ∀ {s a b k : CS}, k ∈ o →
    k.isempty = false → (∀ x, k.Mem x → s.Mem x) → (∀ x, a.Mem x → s.Mem x) →
    (∀ x, b.Mem x → s.Mem x) → CS.Disjoint a b → CS.Disjoint a k → CS.Disjoint b k →
    splits o a + splits o b + 1 ≤ splits o s
  | [], _, _, _, _, _, hk, _, _, _, _, _, _, _ => by simp at hk
  | c :: o, ho, s, a, b, k, hk, he, hks, has, hbs, hab, hak, hbk => by
    have ho' : ∀ c ∈ o, c.WF := fun c hc => ho c (by simp [hc])
    have hcw := ho c (by simp)
    have e1 : ∀ t : CS, splits (c :: o) t =
        splits o t + (if (!c.isempty && t.containsInterval c) = true then 1 else 0) := by
      intro t; simp only [splits, List.countP_cons]
    -- the contribution of `c` to `a` and `b` together is at most its contribution to `s`
    have hsem : ∀ {t : CS}, (!c.isempty && t.containsInterval c) = true →
        c.isempty = false ∧ ∀ x, c.Mem x → t.Mem x := by
      intro t ht
      simp only [Bool.and_eq_true, Bool.not_eq_true'] at ht
      exact ⟨ht.1, fun x hx => CS.containsInterval_sound ht.2 hx⟩
    have hback : ∀ {t : CS}, c.isempty = false → (∀ x, c.Mem x → t.Mem x) →
        (!c.isempty && t.containsInterval c) = true := by
      intro t h1 h2
      simp only [Bool.and_eq_true, Bool.not_eq_true']
      exact ⟨h1, CS.containsInterval_complete hcw h1 h2⟩
    rw [e1, e1, e1]
    by_cases hce : c.isempty = true
    · simp only [hce, Bool.not_true, Bool.false_and, Bool.false_eq_true, if_false]
      have : k ∈ o := by
        rcases List.mem_cons.1 hk with rfl | h
        · rw [hce] at he; cases he
        · exact h
      have := splits_two ho' this he hks has hbs hab hak hbk
      omega
    · rw [Bool.not_eq_true] at hce
      obtain ⟨x, hx⟩ := CS.exists_mem hcw hce
      have mono_a := splits_mono ho' has
      have mono_b := splits_mono ho' hbs
      by_cases hck : c = k
      · subst hck
        have na : ¬ (!c.isempty && a.containsInterval c) = true :=
          fun h => hak x ⟨(hsem h).2 x hx, hx⟩
        have nb : ¬ (!c.isempty && b.containsInterval c) = true :=
          fun h => hbk x ⟨(hsem h).2 x hx, hx⟩
        rw [if_neg na, if_neg nb, if_pos (hback hce hks)]
        by_cases hko : c ∈ o
        · have := splits_two ho' hko he hks has hbs hab hak hbk
          omega
        · -- no further copy of `k`: `a` and `b` cannot share an interval
          have : splits o a + splits o b ≤ splits o s := by
            clear e1 hsem hback na nb mono_a mono_b hko hk ho
            induction o with
            | nil => simp [splits]
            | cons d o ih =>
              have ih := ih (fun c hc => ho' c (by simp [hc]))
              simp only [splits, List.countP_cons] at ih ⊢
              have hd := ho' d (by simp)
              by_cases h1 : (!d.isempty && a.containsInterval d) = true
              · have h1' := h1
                simp only [Bool.and_eq_true, Bool.not_eq_true'] at h1'
                have hs' : (!d.isempty && s.containsInterval d) = true := by
                  simp only [Bool.and_eq_true, Bool.not_eq_true']
                  exact ⟨h1'.1, CS.containsInterval_complete hd h1'.1
                    (fun x hx => has x (CS.containsInterval_sound h1'.2 hx))⟩
                have h2 : ¬ (!d.isempty && b.containsInterval d) = true := by
                  intro h2
                  simp only [Bool.and_eq_true, Bool.not_eq_true'] at h2
                  obtain ⟨z, hz⟩ := CS.exists_mem hd h1'.1
                  exact hab z ⟨CS.containsInterval_sound h1'.2 hz,
                    CS.containsInterval_sound h2.2 hz⟩
                rw [if_pos h1, if_neg h2, if_pos hs']; omega
              · by_cases h2 : (!d.isempty && b.containsInterval d) = true
                · have h2' := h2
                  simp only [Bool.and_eq_true, Bool.not_eq_true'] at h2'
                  have hs' : (!d.isempty && s.containsInterval d) = true := by
                    simp only [Bool.and_eq_true, Bool.not_eq_true']
                    exact ⟨h2'.1, CS.containsInterval_complete hd h2'.1
                      (fun x hx => hbs x (CS.containsInterval_sound h2'.2 hx))⟩
                  rw [if_neg h1, if_pos h2, if_pos hs']; omega
                · rw [if_neg h1, if_neg h2]; omega
          omega
      · have hko : k ∈ o := by
          rcases List.mem_cons.1 hk with rfl | h
          · exact absurd rfl hck
          · exact h
        have ih := splits_two ho' hko he hks has hbs hab hak hbk
        by_cases h1 : (!c.isempty && a.containsInterval c) = true
        · have h2 : ¬ (!c.isempty && b.containsInterval c) = true :=
            fun h => hab x ⟨(hsem h1).2 x hx, (hsem h).2 x hx⟩
          have h3 := hback hce (fun x hx => has x ((hsem h1).2 x hx))
          rw [if_pos h1, if_neg h2, if_pos h3]; omega
        · by_cases h2 : (!c.isempty && b.containsInterval c) = true
          · have h3 := hback hce (fun x hx => hbs x ((hsem h2).2 x hx))
            rw [if_neg h1, if_pos h2, if_pos h3]; omega
          · rw [if_neg h1, if_neg h2]; omega

/-- Sum of `splits + 1` over a queue. -/
def work (o q : List CS) : Nat := (q.map (fun s => splits o s + 1)).sum

theorem diffInner_work {O : List CS} (hO : ∀ c ∈ O, Good c) :
    ∀ {os : List CS} {s : CS} {p p' : List CS} {s' : CS}, (∀ c ∈ os, c ∈ O) → Good s →
    diffInner s os p = .ok (p', s') →
    work O p' + splits O s' ≤ work O p + splits O s
  | [], s, p, p', s', _, _, h => by
    simp only [diffInner, Except.ok.injEq, Prod.mk.injEq] at h
    obtain ⟨rfl, rfl⟩ := h
    omega
  | o :: os, s, p, p', s', hsub, hs, h => by
    simp only [diffInner, bind, Except.bind] at h
    have ho := hO o (hsub o (by simp))
    have hsub' : ∀ c ∈ os, c ∈ O := fun c hc => hsub c (by simp [hc])
    cases hd : s.difference o with
    | error e => simp [hd] at h
    | ok d =>
      rw [hd] at h
      obtain ⟨j1, j2, j3⟩ := CS.difference_mem hs.1 ho.1 hs.2 ho.2 hd
      cases d with
      | cs c =>
        simp only at h
        have ih := diffInner_work hO hsub' ⟨j2, j3⟩ h
        have := splits_mono (fun c hc => (hO c hc).1) (fun x hx => ((j1 x).1 hx).1)
        omega
      | rs l =>
        obtain ⟨rfl, he, hos⟩ := CS.difference_rs hd
        simp only at h
        simp only [NS.All, List.mem_cons, List.not_mem_nil, or_false, forall_eq_or_imp,
          forall_eq] at j2 j3
        have ih := diffInner_work hO hsub' ⟨j2.1, j3.1⟩ h
        have j1' := CS.split_mem (s := s) ho.1 he j2.1 j2.2
        have := splits_two (fun c hc => (hO c hc).1) (hsub o (by simp)) he hos
          (fun x hx => ((j1' x).1 (.inl hx)).1) (fun x hx => ((j1' x).1 (.inr hx)).1)
          (fun x hx => absurd (CS.difference_rs_disjoint ho.1 he hx.1 hx.2) (lt_irrefl x))
          (fun x hx => ((j1' x).1 (.inl hx.1)).2 hx.2)
          (fun x hx => ((j1' x).1 (.inr hx.1)).2 hx.2)
        simp only [work, List.map_cons, List.sum_cons] at ih ⊢
        omega

theorem diffInner_ne_outOfFuel : ∀ {os : List CS} {s : CS} {p : List CS},
    diffInner s os p ≠ .error .outOfFuel
  | [], s, p => by simp [diffInner]
  | o :: os, s, p => by
    intro h
    simp only [diffInner, bind, Except.bind] at h
    cases hd : s.difference o with
    | error e =>
      simp only [hd, Except.error.injEq] at h
      exact CS.difference_ne_outOfFuel (h ▸ hd)
    | ok d =>
      rw [hd] at h
      cases d with
      | cs c => exact diffInner_ne_outOfFuel h
      | rs l =>
        match l, h with
        | [], h => simp at h
        | [_], h => simp at h
        | a :: b :: t, h => exact diffInner_ne_outOfFuel h

theorem diffOuter_fuel {o : List CS} (ho : ∀ c ∈ o, Good c) : ∀ (n : Nat) {q : List CS},
    (∀ s ∈ q, Good s) → work o q ≤ n → diffOuter o n q ≠ .error .outOfFuel
  | n, [], _, _ => by cases n <;> simp [diffOuter]
  | 0, s :: q, _, h => by
    simp only [work, List.map_cons, List.sum_cons] at h; omega
  | n + 1, s :: q, hq, h => by
    intro herr
    simp only [diffOuter, bind, Except.bind] at herr
    cases hi : diffInner s o [] with
    | error e =>
      simp only [hi, Except.error.injEq] at herr
      exact diffInner_ne_outOfFuel (herr ▸ hi)
    | ok ps =>
      obtain ⟨p, s'⟩ := ps
      rw [hi] at herr
      simp only at herr
      obtain ⟨new, hp, k2, k3, -, -, -, -⟩ := diffInner_spec (hq s (by simp)) ho hi
      rw [List.append_nil] at hp
      subst hp
      have hw := diffInner_work ho (fun c hc => hc) (hq s (by simp)) hi
      have ih := diffOuter_fuel ho n (q := p ++ q) (fun c hc => by
        rcases List.mem_append.1 hc with hc | hc
        · exact k3 c hc
        · exact hq c (by simp [hc])) (by
          simp only [work, List.map_cons, List.sum_cons, List.map_append, List.sum_append,
            List.map_nil, List.sum_nil] at h hw ⊢
          omega)
      cases hr : diffOuter o n (p ++ q) with
      | error e =>
        simp only [hr, Except.error.injEq] at herr
        exact ih (herr ▸ hr)
      | ok r => simp [hr] at herr

theorem work_le (o q : List CS) : work o q ≤ q.length * (o.length + 1) := by
  induction q with
  | nil => simp [work]
  | cons s q ih =>
    simp only [work, List.map_cons, List.sum_cons, List.length_cons] at ih ⊢
    have : splits o s ≤ o.length := List.countP_le_length
    rw [Nat.add_mul]
    omega

theorem diffOuter_terminates {l o : List CS} (hl : ∀ s ∈ l, Good s) (ho : ∀ s ∈ o, Good s) :
    diffOuter o (l.length * (o.length + 1)) l ≠ .error .outOfFuel :=
  diffOuter_fuel ho _ hl (work_le o l)

end RS
end Verif.Iv
