import Verif.Intervals.Lemmas7

/-! # When the set operations cannot raise: bounds that are not neighbouring floats -/

namespace Verif.Iv
open FP

/-- Both bounds of the interval satisfy `P`. -/
def CS.Bounds (P : FP → Prop) (s : CS) : Prop := P s.lower ∧ P s.upper

theorem CS.difference_spaced {P : FP → Prop} (hP : ∀ a b, P a → P b → a.up = b → a = b) {s o : CS}
    (hs : s.WF) (ps : s.Bounds P) (po : o.Bounds P) : ∃ d, s.difference o = .ok d := by
  cases h : s.difference o with
  | ok d => exact ⟨d, rfl⟩
  | error e =>
    exfalso
    obtain ⟨-, ho, hc, hp, hb⟩ := (CS.difference_error hs e).1 h
    have hl := hP o.lower s.lower po.1 ps.1
    have hu := hP s.upper o.upper ps.2 po.2
    have e1 : o.lower < s.lower → o.lower.up < s.lower := fun h => by
      have := FP.up_le h; grind
    have e2 : s.upper < o.upper → s.upper < o.upper.dn := fun h => by
      have := FP.le_dn h
      have h3 := FP.up_dn o.upper
      grind
    clear h hs ps po hc hl hu hP
    revert hp
    simp only [containsInterval, lowermost, uppermost]
    have := FP.le_up s.lower
    have := FP.dn_le s.upper
    have := FP.le_up o.lower
    have := FP.dn_le o.upper
    have i1 : ∀ x, (if s.left = .inc then s.lower else s.lower.up) ≤ x → s.lower ≤ x := by grind
    have i2 : ∀ x, x ≤ (if s.right = .inc then s.upper else s.upper.dn) → x ≤ s.upper := by grind
    grind

theorem CS.difference_bounds {P : FP → Prop} {s o : CS} (ps : s.Bounds P) (po : o.Bounds P)
    (p0 : P (fin 0)) {d : NS} (h : s.difference o = .ok d) : d.All (CS.Bounds P) := by
  simp only [difference, mk?, bind, Except.bind] at h
  simp only [Bounds] at ps po
  simp only [NS.All, Bounds]
  obtain ⟨p1, p2⟩ := ps
  obtain ⟨p3, p4⟩ := po
  grind [emptyset]

namespace RS

theorem disjointify_spaced {P : FP → Prop} (hP : ∀ a b, P a → P b → a.up = b → a = b)
    (p0 : P (fin 0)) : ∀ (n : Nat) (l : List CS), (∀ s ∈ l, Good s ∧ s.Bounds P) →
    (∃ r, disjointify n l = .ok r) ∨ disjointify n l = .error .outOfFuel
  | _, [], _ => by simp [disjointify]
  | 0, _ :: _, _ => by simp [disjointify]
  | n + 1, h :: t, hl => by
    have hh := hl h (by simp)
    have ht : ∀ s ∈ t, Good s ∧ s.Bounds P := fun s hs => hl s (by simp [hs])
    have : ∃ ds, t.mapM (fun s => s.difference h) = .ok ds := by
      cases hm : t.mapM (fun s => s.difference h) with
      | ok ds => exact ⟨ds, rfl⟩
      | error e =>
        obtain ⟨s, hs, he⟩ := mapM_error _ _ _ hm
        obtain ⟨d, hd⟩ := CS.difference_spaced hP (ht s hs).1.1 (ht s hs).2 hh.2
        rw [hd] at he; cases he
    obtain ⟨ds, hds⟩ := this
    have hf := (mapM_ok_iff _ _ _).1 hds
    have hall : ∀ c ∈ (ds.map pieces).flatten, Good c ∧ c.Bounds P := by
      intro c hc
      obtain ⟨l', hl', hc⟩ := List.mem_flatten.1 hc
      obtain ⟨d, hd, rfl⟩ := List.mem_map.1 hl'
      obtain ⟨s, hs, hd'⟩ := forall₂_mem_right hf hd
      obtain ⟨-, j1, j2⟩ := CS.difference_mem (ht s hs).1.1 hh.1.1 (ht s hs).1.2 hh.1.2 hd'
      have j3 := CS.difference_bounds (ht s hs).2 hh.2 p0 hd'
      exact ⟨⟨all_pieces j1 c hc, all_pieces j2 c hc⟩, all_pieces j3 c hc⟩
    have ih := disjointify_spaced hP p0 n _ hall
    simp only [disjointify, hds, bind, Except.bind]
    rcases ih with ⟨r, hr⟩ | hr
    · left; rw [hr]; exact ⟨_, rfl⟩
    · right; rw [hr]

theorem simplify_spaced {P : FP → Prop} (hP : ∀ a b, P a → P b → a.up = b → a = b)
    (p0 : P (fin 0)) {l : List CS} (hl : ∀ s ∈ l, Good s ∧ s.Bounds P) : ∃ r, simplify l = .ok r := by
  rcases disjointify_spaced hP p0 (2 ^ l.length) l hl with ⟨d, hd⟩ | hd
  · simp only [simplify, simplifyList, hd, bind, Except.bind]
    cases hs : sortUpper d with
    | nil => exact ⟨_, rfl⟩
    | cons h t =>
      cases hm : mergeLoop h t with
      | nil => exact ⟨.cs .emptyset, by simp only [hm]⟩
      | cons a b =>
        cases b with
        | nil => exact ⟨.cs a, by simp only [hm]⟩
        | cons b c => exact ⟨.rs (a :: b :: c), by simp only [hm]⟩
  · exact absurd hd (disjointify_terminates fun s hs => (hl s hs).1)

theorem diffInner_spaced {P : FP → Prop} (hP : ∀ a b, P a → P b → a.up = b → a = b)
    (p0 : P (fin 0)) : ∀ (os : List CS) (s : CS) (p : List CS), Good s ∧ s.Bounds P →
    (∀ o ∈ os, Good o ∧ o.Bounds P) → (∀ c ∈ p, Good c ∧ c.Bounds P) →
    ∃ p' s', diffInner s os p = .ok (p', s') ∧ (Good s' ∧ s'.Bounds P) ∧ ∀ c ∈ p', Good c ∧ c.Bounds P
  | [], s, p, hs, _, hp => ⟨p, s, rfl, hs, hp⟩
  | o :: os, s, p, hs, ho, hp => by
    have hoo := ho o (by simp)
    obtain ⟨d, hd⟩ := CS.difference_spaced hP hs.1.1 hs.2 hoo.2
    obtain ⟨-, j1, j2⟩ := CS.difference_mem hs.1.1 hoo.1.1 hs.1.2 hoo.1.2 hd
    have j3 := CS.difference_bounds hs.2 hoo.2 p0 hd
    simp only [diffInner, hd, bind, Except.bind]
    cases d with
    | cs c => exact diffInner_spaced hP p0 os c p ⟨⟨j1, j2⟩, j3⟩ (fun o h => ho o (by simp [h])) hp
    | rs l =>
      obtain ⟨rfl, -, -⟩ := CS.difference_rs hd
      refine diffInner_spaced hP p0 os _ _ ⟨⟨j1 _ (by simp), j2 _ (by simp)⟩, j3 _ (by simp)⟩
        (fun o h => ho o (by simp [h])) ?_
      intro c hc
      rcases List.mem_cons.1 hc with rfl | hc
      · exact ⟨⟨j1 _ (by simp), j2 _ (by simp)⟩, j3 _ (by simp)⟩
      · exact hp c hc

theorem diffOuter_spaced {P : FP → Prop} (hP : ∀ a b, P a → P b → a.up = b → a = b)
    (p0 : P (fin 0)) {o : List CS} (ho : ∀ c ∈ o, Good c ∧ c.Bounds P) : ∀ (n : Nat) (q : List CS),
    (∀ s ∈ q, Good s ∧ s.Bounds P) →
    (∃ r, diffOuter o n q = .ok r ∧ ∀ s ∈ r, Good s ∧ s.Bounds P) ∨
      diffOuter o n q = .error .outOfFuel
  | n, [], _ => by cases n <;> simp [diffOuter]
  | 0, _ :: _, _ => by simp [diffOuter]
  | n + 1, s :: q, hq => by
    obtain ⟨p, s', h1, h2, h3⟩ := diffInner_spaced hP p0 o s [] (hq s (by simp)) ho (by simp)
    have ih := diffOuter_spaced hP p0 ho n (p ++ q) (by
      intro c hc
      rcases List.mem_append.1 hc with hc | hc
      · exact h3 c hc
      · exact hq c (by simp [hc]))
    simp only [diffOuter, h1, bind, Except.bind]
    rcases ih with ⟨r, hr, hr'⟩ | hr
    · left; rw [hr]
      refine ⟨_, rfl, fun c hc => ?_⟩
      rcases List.mem_cons.1 hc with rfl | hc
      · exact h2
      · exact hr' c hc
    · right; rw [hr]

theorem difference_spaced {P : FP → Prop} (hP : ∀ a b, P a → P b → a.up = b → a = b)
    (p0 : P (fin 0)) {l o : List CS} (hl : ∀ s ∈ l, Good s ∧ s.Bounds P)
    (ho : ∀ s ∈ o, Good s ∧ s.Bounds P) : ∃ r, difference l o = .ok r := by
  unfold difference
  split
  · have : ∃ c, l.mapM (fun s => CS.mk? s.lower s.upper s.left s.right) = .ok c := by
      cases hm : l.mapM (fun s => CS.mk? s.lower s.upper s.left s.right) with
      | ok c => exact ⟨c, rfl⟩
      | error e =>
        obtain ⟨s, hs, he⟩ := mapM_error _ _ _ hm
        rw [CS.mk?_self (hl s hs).1.1] at he; cases he
    obtain ⟨c, hc⟩ := this
    exact ⟨_, by rw [hc]; rfl⟩
  · rcases diffOuter_spaced hP p0 ho (l.length * (o.length + 1)) l hl with ⟨r, hr, hr'⟩ | hr
    · obtain ⟨d, hd⟩ := simplify_spaced hP p0 hr'
      exact ⟨d, by simp only [hr, bind, Except.bind, hd]⟩
    · exact absurd hr (diffOuter_terminates (fun s hs => (hl s hs).1) (fun s hs => (ho s hs).1))

/-- Copying the intervals of a valid set gives the same intervals. -/
theorem mapM_mk? : ∀ {l : List CS}, (∀ s ∈ l, s.WF) →
    l.mapM (fun s => CS.mk? s.lower s.upper s.left s.right) = .ok l
  | [], _ => rfl
  | s :: l, h => by
    rw [List.mapM_cons, CS.mk?_self (h s (by simp)), mapM_mk? (fun s hs => h s (by simp [hs]))]
    rfl

theorem isempty_iff {l : List CS} (h : ∀ s ∈ l, s.WF) : isempty l = true ↔ ¬ ∃ x, RS.Mem l x := by
  simp only [isempty, List.all_eq_true, RS.Mem]
  constructor
  · rintro h1 ⟨x, s, hs, hx⟩
    exact (CS.isempty_iff s (h s hs)).1 (h1 s hs) ⟨x, hx⟩
  · intro h1 s hs
    rw [CS.isempty_iff s (h s hs)]
    rintro ⟨x, hx⟩
    exact h1 ⟨x, s, hs, hx⟩

/-- `RealSet.difference`, when the receiver's intervals are in order. -/
theorem difference_spec {l o : List CS} (hl : ∀ s ∈ l, Good s) (ho : ∀ s ∈ o, Good s) {d : NS}
    (h : difference l o = .ok d) :
    (∀ x, d.Mem x → RS.Mem l x ∧ ¬ RS.Mem o x) ∧
    (l.Pairwise Before → ∀ x, d.Mem x ↔ RS.Mem l x ∧ ¬ RS.Mem o x) := by
  unfold difference at h
  split at h
  · rename_i he
    rw [isempty_iff (fun s hs => (ho s hs).1)] at he
    rw [mapM_mk? (fun s hs => (hl s hs).1)] at h
    simp only [bind, Except.bind, Except.ok.injEq] at h
    subst h
    have : ∀ x, (NS.rs l).Mem x ↔ RS.Mem l x ∧ ¬ RS.Mem o x := fun x =>
      ⟨fun h => ⟨h, fun h' => he ⟨x, h'⟩⟩, fun h => h.1⟩
    exact ⟨fun x => (this x).1, fun _ => this⟩
  · simp only [bind, Except.bind] at h
    cases hr : diffOuter o (l.length * (o.length + 1)) l with
    | error e => rw [hr] at h; cases h
    | ok r =>
      rw [hr] at h
      obtain ⟨k1, k2, k3⟩ := diffOuter_spec ho _ hl hr
      obtain ⟨r', hr', hm, -⟩ := simplify_ok h
      refine ⟨fun x hx => (k1 x).1 (simplifyList_sub k2 hr' ((hm x).1 hx)), fun hb x => ?_⟩
      obtain ⟨q1, -⟩ := simplifyList_spec k2 ((k3 hb).imp notBelow_of_before) hr'
      rw [hm, q1, k1]

/-- Elementwise equal lists have the same members. -/
theorem eqLists_sound : ∀ {a b : List CS}, (∀ s ∈ a, Good s) → (∀ s ∈ b, Good s) →
    eqLists a b = true → ∀ x, RS.Mem a x ↔ RS.Mem b x
  | [], [], _, _, _, _ => Iff.rfl
  | [], _ :: _, _, _, h, _ => by simp [eqLists] at h
  | _ :: _, [], _, _, h, _ => by simp [eqLists] at h
  | s :: a, t :: b, ha, hb, h, x => by
    simp only [eqLists, Bool.and_eq_true] at h
    have h1 := (CS.eq_iff (ha s (by simp)).1 (hb t (by simp)).1 (ha s (by simp)).2 (hb t (by simp)).2).1 h.1 x
    rw [mem_cons, mem_cons, h1, eqLists_sound (fun s hs => ha s (by simp [hs]))
      (fun s hs => hb s (by simp [hs])) h.2 x]

theorem mergeLoop_reg : ∀ (t : List CS) (last : CS), (∀ s ∈ last :: t, s.Reg) →
    ∀ s ∈ mergeLoop last t, s.Reg
  | [], last, h => by simpa [mergeLoop] using h
  | s :: t, last, h => by
    unfold mergeLoop
    split
    · apply mergeLoop_reg t
      intro c hc
      rcases List.mem_cons.1 hc with rfl | hc
      · have h1 := h last (by simp)
        have h2 := h s (by simp)
        exact ⟨h1.1, h2.2.1, h1.2.2.1, h2.2.2.2⟩
      · exact h c (by simp [hc])
    · intro c hc
      rcases List.mem_cons.1 hc with rfl | hc
      · exact h _ (by simp)
      · exact mergeLoop_reg t s (fun c hc => h c (by simp [hc])) c hc

theorem simplifyList_reg {l r : List CS} (hl : ∀ s ∈ l, Good s) (h : simplifyList l = .ok r) :
    ∀ s ∈ r, s.Reg := by
  simp only [simplifyList, bind, Except.bind] at h
  cases hd : disjointify (2 ^ l.length) l with
  | error e => simp [hd] at h
  | ok d =>
    rw [hd] at h
    obtain ⟨-, h3, -⟩ := disjointify_spec _ hl hd
    cases hsort : sortUpper d with
    | nil => simp only [hsort, Except.ok.injEq] at h; subst h; simp
    | cons a t =>
      simp only [hsort, Except.ok.injEq] at h
      subst h
      apply mergeLoop_reg
      intro s hs
      rw [← hsort, (sortUpper_perm d).mem_iff] at hs
      exact (h3 s hs).2.1

end RS
end Verif.Iv
