import Verif.Functions.Lemmas6

/-!
# Lemmas about sums and products of piecewise functions
-/

namespace Verif.Fun

open Iv Iv.FP Iv.CS

namespace PF

/-- `x` selects, among disjoint half-open pieces, the one that contains `d`. -/
def Selects (d : CS) (x : FP) : Prop :=
  (∃ n, x = fin n ∧ d.Mem (fin n)) ∨ (x = ninf ∧ d.lower = ninf) ∨ (x = pinf ∧ d.upper = pinf)

theorem find?_unique {α : Type} {P : α → Bool} {l : List α} {a : α} (ha : a ∈ l) (hP : P a = true)
    (hu : ∀ b ∈ l, P b = true → b = a) : l.find? P = some a := by
  cases h : l.find? P with
  | none => rw [List.find?_eq_none] at h; exact absurd hP (h a ha)
  | some b => rw [hu b (List.mem_of_find?_eq_some h) (List.find?_some h)]

theorem hit_ninf {i : CS} (h : i.HalfOpen) : hit ninf i = true ↔ i.lower = ninf := by
  have : i.containsValue ninf = false := by
    rw [Bool.eq_false_iff, ne_eq, containsValue_iff]
    intro hm
    obtain ⟨n, hn⟩ := norm_mem_fin h hm
    cases hn
  simp [hit, this]

theorem hit_pinf {i : CS} (h : i.HalfOpen) : hit pinf i = true ↔ i.upper = pinf := by
  have : i.containsValue pinf = false := by
    rw [Bool.eq_false_iff, ne_eq, containsValue_iff]
    intro hm
    obtain ⟨n, hn⟩ := norm_mem_fin h hm
    cases hn
  simp [hit, this]

theorem ho_mem {i : CS} (h : i.HalfOpen) : ∃ n, i.Mem (fin n) := by
  obtain ⟨x, hx⟩ := CS.exists_mem h.wf h.nonempty
  obtain ⟨n, rfl⟩ := norm_mem_fin h hx
  exact ⟨n, hx⟩

theorem fin_le {a b : ℤ} : (fin a ≤ fin b) ↔ a ≤ b := by simp [FP.le_def, leb]
theorem fin_lt {a b : ℤ} : (fin a < fin b) ↔ a < b := by simp [FP.lt_def, leb]

theorem atPos_selects {p : PF} (hp : ∀ s ∈ p, s.1.HalfOpen) (hd : p.Disj) {s : CS × Fn} (hs : s ∈ p)
    {d : CS} (hdn : d.HalfOpen) (hsub : ∀ x, d.Mem x → s.1.Mem x) {x : FP} (hx : Selects d x) :
    atPos p x = some s.2 := by
  obtain ⟨m, hm⟩ := ho_mem hdn
  have hm' := hsub _ hm
  rw [hdn.mem_iff] at hm
  rw [(hp s hs).mem_iff] at hm'
  rcases hx with ⟨n, rfl, hn⟩ | ⟨rfl, hn⟩ | ⟨rfl, hn⟩
  · exact atPos_of_mem hd hs (hsub _ hn)
  · have hl : s.1.lower = ninf := by
      cases hl : s.1.lower with
      | ninf => rfl
      | pinf => rw [hl] at hm'; exact absurd hm'.1 (by simp [FP.le_def, leb])
      | fin a =>
        have h1 : d.Mem (fin (min m (a - 1))) := by
          rw [hdn.mem_iff, hn]
          refine ⟨ninf_le _, lt_of_le_of_lt ?_ hm.2⟩
          rw [fin_le]; exact min_le_left _ _
        have h2 := hsub _ h1
        rw [(hp s hs).mem_iff, hl, fin_le] at h2
        have := h2.1; omega
    unfold atPos
    rw [find?_unique hs ((hit_ninf (hp s hs)).2 hl)]
    · rfl
    · intro t ht hht
      rw [hit_ninf (hp t ht)] at hht
      obtain ⟨k, hk⟩ := ho_mem (hp t ht)
      refine disj_unique hd (x := fin (min m k)) ht hs ?_ ?_
      · rw [(hp t ht).mem_iff] at hk ⊢
        rw [hht]
        exact ⟨ninf_le _, lt_of_le_of_lt (by rw [fin_le]; exact min_le_right _ _) hk.2⟩
      · rw [(hp s hs).mem_iff, hl]
        exact ⟨ninf_le _, lt_of_le_of_lt (by rw [fin_le]; exact min_le_left _ _) hm'.2⟩
  · have fin_lt_pinf : ∀ k : ℤ, fin k < pinf := fun k => by simp [FP.lt_def, leb]
    have hl : s.1.upper = pinf := by
      cases hl : s.1.upper with
      | pinf => rfl
      | ninf => rw [hl] at hm'; exact absurd hm'.2 (not_lt.2 (ninf_le _))
      | fin a =>
        have h1 : d.Mem (fin (max m a)) := by
          rw [hdn.mem_iff, hn]
          refine ⟨le_trans hm.1 ?_, fin_lt_pinf _⟩
          rw [fin_le]; exact le_max_left _ _
        have h2 := hsub _ h1
        rw [(hp s hs).mem_iff, hl, fin_lt] at h2
        have := h2.2; omega
    unfold atPos
    rw [find?_unique hs ((hit_pinf (hp s hs)).2 hl)]
    · rfl
    · intro t ht hht
      rw [hit_pinf (hp t ht)] at hht
      obtain ⟨k, hk⟩ := ho_mem (hp t ht)
      refine disj_unique hd (x := fin (max m k)) ht hs ?_ ?_
      · rw [(hp t ht).mem_iff] at hk ⊢
        rw [hht]
        exact ⟨le_trans hk.1 (by rw [fin_le]; exact le_max_right _ _), fin_lt_pinf _⟩
      · rw [(hp s hs).mem_iff, hl]
        exact ⟨le_trans hm'.1 (by rw [fin_le]; exact le_max_left _ _), fin_lt_pinf _⟩

theorem pivot_selects {d : CS} (h : d.HalfOpen) : Selects d (pivot d) := by
  unfold pivot
  have h1 := h.1
  cases hl : d.lower with
  | ninf =>
    have : d.isninf = true := by simp [CS.isninf, hl, FP.isInf]
    rw [if_pos this, h.uppermost]
    cases hu : d.upper with
    | ninf => rw [hl, hu] at h1; exact absurd h1 (lt_irrefl _)
    | pinf => exact .inr (.inr ⟨rfl, hu⟩)
    | fin b =>
      refine .inl ⟨b - 1, rfl, ?_⟩
      rw [h.mem_iff, hl, hu, fin_lt]
      exact ⟨ninf_le _, by omega⟩
  | pinf => rw [hl] at h1; exact absurd h1 (not_lt.2 (le_pinf _))
  | fin a =>
    have : d.isninf = false := by simp [CS.isninf, hl, FP.isInf]
    rw [if_neg (by simp [this]), h.lowermost, hl]
    refine .inl ⟨a, rfl, ?_⟩
    rw [h.mem_iff, hl]
    exact ⟨le_refl _, hl ▸ h1⟩

theorem middle_selects {mid : ℤ → ℤ → ℤ} {d : CS} (h : d.HalfOpen)
    (hm : ∀ a b, d.lower = fin a → d.upper = fin b → a ≤ mid a b ∧ mid a b < b) :
    Selects d (middle mid d) := by
  unfold middle
  have h1 := h.1
  cases hl : d.lower with
  | ninf => exact .inr (.inl ⟨rfl, hl⟩)
  | pinf => rw [hl] at h1; exact absurd h1 (not_lt.2 (le_pinf _))
  | fin a =>
    cases hu : d.upper with
    | ninf => rw [hu] at h1; exact absurd h1 (not_lt.2 (ninf_le _))
    | pinf => exact .inr (.inr ⟨rfl, hu⟩)
    | fin b =>
      refine .inl ⟨mid a b, rfl, ?_⟩
      rw [h.mem_iff, hl, hu, fin_le, fin_lt]
      exact hm a b hl hu

/-- The loop of `add` and `mul` over the common intervals. -/
theorem fold_spec {F : CS → Except Err Fn} : ∀ {dom : List CS} {r0 r : PF},
    (∀ d ∈ dom, d.HalfOpen) → dom.Pairwise CS.Disjoint → (∀ s ∈ r0, s.1.HalfOpenOrEmpty) → r0.Disj →
    dom.foldlM (fun r i => do let f ← F i; overwriteAt r i f) r0 = .ok r →
    (∀ s ∈ r, s.1.HalfOpenOrEmpty) ∧ (dom ≠ [] → ∀ s ∈ r, s.1.HalfOpen) ∧ r.Disj ∧
      (∀ (val : ℤ → ℚ) n v, Value val r n v ↔
        (∃ d ∈ dom, d.Mem (fin n) ∧ ∃ f, F d = .ok f ∧ f.eval (val n) = v) ∨
        (¬ RS.Mem dom (fin n) ∧ Value val r0 n v))
  | [], r0, r, _, _, h3, h4, h => by
    simp only [List.foldlM_nil, pure, Except.pure] at h
    cases h
    exact ⟨h3, by simp, h4, fun val n v => by simp [RS.Mem]⟩
  | d :: dom, r0, r, h1, h2, h3, h4, h => by
    obtain ⟨p1, p2⟩ := List.pairwise_cons.1 h2
    simp only [List.foldlM_cons, bind, Except.bind] at h
    cases hF : F d with
    | error e => simp [hF] at h
    | ok f =>
      obtain ⟨r1, e1, e2, e3, e4, -⟩ := overwriteAt_spec (f := f) h3 (h1 d (by simp))
      simp only [hF, e1] at h
      obtain ⟨g1, g2, g3, g4⟩ := fold_spec (F := F) (dom := dom) (r0 := r1) (r := r)
        (fun c hc => h1 c (by simp [hc])) p2 (fun s hs => .inl (e2 s hs)) (e3 h4) h
      refine ⟨g1, fun _ => ?_, g3, fun val n v => ?_⟩
      · cases dom with
        | nil => simp only [List.foldlM_nil, pure, Except.pure] at h; cases h; exact e2
        | cons c dom => exact g2 (by simp)
      · rw [g4, e4]
        constructor
        · rintro (⟨c, hc, hcn, hv⟩ | ⟨hn, ⟨hd, hv⟩ | ⟨hd, hv⟩⟩)
          · exact .inl ⟨c, by simp [hc], hcn, hv⟩
          · exact .inl ⟨d, by simp, hd, f, hF, hv⟩
          · refine .inr ⟨?_, hv⟩
            rintro ⟨c, hc, hcn⟩
            rcases List.mem_cons.1 hc with rfl | hc
            · exact hd hcn
            · exact hn ⟨c, hc, hcn⟩
        · rintro (⟨c, hc, hcn, g, hg, hv⟩ | ⟨hn, hv⟩)
          · rcases List.mem_cons.1 hc with rfl | hc
            · rw [hF] at hg; cases hg
              refine .inr ⟨?_, .inl ⟨hcn, hv⟩⟩
              rintro ⟨c', hc', hcn'⟩
              exact p1 c' hc' _ ⟨hcn, hcn'⟩
            · exact .inl ⟨c, hc, hcn, g, hg, hv⟩
          · refine .inr ⟨fun ⟨c, hc, hcn⟩ => hn ⟨c, by simp [hc], hcn⟩, .inr ⟨fun hdn => hn ⟨d, by simp, hdn⟩, hv⟩⟩

/-- If the loop returns, so did the operation on every common interval. -/
theorem fold_all {F : CS → Except Err Fn} : ∀ {dom : List CS} {r0 r : PF},
    dom.foldlM (fun r i => do let f ← F i; overwriteAt r i f) r0 = .ok r → ∀ d ∈ dom, ∃ f, F d = .ok f
  | [], _, _, _ => by simp
  | d :: dom, r0, r, h => by
    simp only [List.foldlM_cons, bind, Except.bind] at h
    cases hF : F d with
    | error e => simp [hF] at h
    | ok f =>
      simp only [hF] at h
      cases h1 : overwriteAt r0 d f with
      | error e => simp [h1] at h
      | ok r1 =>
        simp only [h1] at h
        intro c hc
        rcases List.mem_cons.1 hc with rfl | hc
        · exact ⟨f, hF⟩
        · exact fold_all (F := F) (r0 := r1) (r := r) h c hc

/-- The loop does not raise if no operation on two functions does. -/
theorem fold_ok {F : CS → Except Err Fn} {P : Fn → Prop} : ∀ {dom : List CS} {r0 : PF},
    (∀ d ∈ dom, d.HalfOpen) → (∀ s ∈ r0, s.1.HalfOpenOrEmpty) → (∀ d ∈ dom, ∃ f, F d = .ok f ∧ P f) →
    (∀ s ∈ r0, s.1.HalfOpen → P s.2) →
    ∃ r, dom.foldlM (fun r i => do let f ← F i; overwriteAt r i f) r0 = .ok r ∧
      ∀ s ∈ r, s.1.HalfOpen → P s.2
  | [], r0, _, _, _, h4 => ⟨r0, rfl, h4⟩
  | d :: dom, r0, h1, h2, h3, h4 => by
    obtain ⟨f, hF, hf⟩ := h3 d (by simp)
    obtain ⟨r1, e1, e2, -, -, e5⟩ := overwriteAt_spec (f := f) h2 (h1 d (by simp))
    obtain ⟨r, hr, hP⟩ := fold_ok (F := F) (P := P) (dom := dom) (r0 := r1) (fun c hc => h1 c (by simp [hc]))
      (fun s hs => .inl (e2 s hs)) (fun c hc => h3 c (by simp [hc])) (fun s hs _ => by
        rcases e5 s hs with h | ⟨t, ht, h, h'⟩
        · rw [h]; exact hf
        · rw [h]; exact h4 t ht h')
    refine ⟨r, ?_, hP⟩
    simp only [List.foldlM_cons, bind, Except.bind, hF, e1]
    exact hr

/-- Normal form of a set. -/
def Normal (D : NS) : Prop :=
  (RS.pieces D).Pairwise CS.Disjoint ∧ D.All HalfOpenOrEmpty ∧ ((∃ n : ℤ, D.Mem (fin n)) → D.All HalfOpen)

theorem simplify_normal {l : List CS} (hl : ∀ s ∈ l, s.HalfOpenOrEmpty) :
    ∃ D, RS.simplify l = .ok D ∧ (∀ x, D.Mem x ↔ RS.Mem l x) ∧ Normal D := by
  obtain ⟨D, h1, h2, h3, r, h4, h5, h6, -⟩ := RS.simplify_halfOpen hl
  refine ⟨D, h1, h2, ?_, h3, ?_⟩
  · rcases h4 with ⟨rfl, -⟩ | ⟨c, rfl, -⟩ | ⟨rfl, -⟩
    · simp [RS.pieces]
    · simp [RS.pieces]
    · exact h6.imp (fun hb x hx => lt_irrefl _ (hb x x hx.1 hx.2))
  · rintro ⟨n, hn⟩
    rcases h4 with ⟨rfl, -⟩ | ⟨c, rfl, rfl⟩ | ⟨rfl, -⟩
    · exact absurd hn (emptyset_not_mem _)
    · exact h5 c (by simp)
    · exact h5

theorem cs_union_normal {a b : CS} (ha : a.HalfOpen) (hb : b.HalfOpen) :
    ∃ D, a.union b = .ok D ∧ (∀ x, D.Mem x ↔ a.Mem x ∨ b.Mem x) ∧ Normal D := by
  obtain ⟨D, h1, h2⟩ := CS.union_spec ha.wf hb.wf ha.reg hb.reg
  refine ⟨D, h1, h2, ?_⟩
  unfold CS.union at h1
  by_cases hc : ¬ a.intersects b ∧ ¬ a.contiguous b
  · rw [if_pos hc, if_neg (by simp [ha.nonempty])] at h1
    obtain ⟨D', h3, -, h4⟩ := simplify_normal (l := [a] ++ [b]) (by
      intro s hs
      simp only [List.cons_append, List.nil_append, List.mem_cons, List.not_mem_nil, or_false] at hs
      rcases hs with rfl | rfl
      · exact .inl ha
      · exact .inl hb)
    have h1' : RS.simplify ([a] ++ [b]) = .ok D := h1
    rw [h3] at h1'; cases h1'
    exact h4
  · rw [if_neg hc] at h1
    have hmk : ∀ p q, CS.mk? (min a.lower b.lower) (max a.upper b.upper) p q =
        .ok ⟨min a.lower b.lower, max a.upper b.upper, p, q⟩ := by
      intro p q
      have h1 := ha.1
      have h2 := hb.1
      rw [CS.mk?, if_neg]; grind
    rw [hmk] at h1
    simp only [bind, Except.bind] at h1
    cases h1
    have hh : HalfOpen ⟨min a.lower b.lower, max a.upper b.upper,
        if a.lower = b.lower then Br.min a.left b.left else if a.lower < b.lower then a.left else b.left,
        if a.upper = b.upper then Br.min a.right b.right else if a.upper > b.upper then a.right else b.right⟩ := by
      obtain ⟨a1, a2, a3⟩ := ha
      obtain ⟨b1, b2, b3⟩ := hb
      refine ⟨?_, ?_, ?_⟩
      · simp only; grind
      · simp only [a2, b2, Br.min]; grind
      · have := ninf_le a.lower
        have := ninf_le b.lower
        simp only
        rcases a3 with ⟨a3, a4⟩ | ⟨a3, a4⟩ <;> rcases b3 with ⟨b3, b4⟩ | ⟨b3, b4⟩ <;>
          simp only [a4, b4, Br.min, ite_self] <;> grind
    exact ⟨by simp [RS.pieces], .inl hh, fun _ => hh⟩

theorem all_pieces {P : CS → Prop} {D : NS} : D.All P ↔ ∀ c ∈ RS.pieces D, P c := by
  cases D <;> simp [NS.All, RS.pieces]

theorem mem_pieces {D : NS} {x : FP} : D.Mem x ↔ RS.Mem (RS.pieces D) x := by
  cases D <;> simp [NS.Mem, RS.pieces, RS.Mem]

/-- The union of two domains. -/
theorem nsUnion_spec {A B : NS} (hA : Normal A) (hB : Normal B) (nA : ∃ n : ℤ, A.Mem (fin n))
    (nB : ∃ n : ℤ, B.Mem (fin n)) {D : NS} (h : nsUnion A B = .ok D) :
    (∀ x, D.Mem x ↔ A.Mem x ∨ B.Mem x) ∧ Normal D := by
  have hA' := all_pieces.1 (hA.2.2 nA)
  have hB' := all_pieces.1 (hB.2.2 nB)
  have key : ∀ l o : List CS, (∀ c ∈ l, c.HalfOpen) → (∀ c ∈ o, c.HalfOpen) → RS.union l o = .ok D →
      (∀ x, D.Mem x ↔ RS.Mem l x ∨ RS.Mem o x) ∧ Normal D := by
    intro l o hl ho h
    obtain ⟨D', h3, h4, h5⟩ := simplify_normal (l := l ++ o) (by
      intro s hs
      rcases List.mem_append.1 hs with hs | hs
      · exact .inl (hl s hs)
      · exact .inl (ho s hs))
    have h' : RS.simplify (l ++ o) = .ok D := h
    rw [h3] at h'; cases h'
    exact ⟨fun x => by rw [h4, RS.mem_append], h5⟩
  cases A with
  | cs a =>
    cases B with
    | cs b =>
      obtain ⟨D', h1, h2, h3⟩ := cs_union_normal (hA' a (by simp [RS.pieces])) (hB' b (by simp [RS.pieces]))
      simp only [nsUnion] at h
      rw [h1] at h; cases h
      exact ⟨h2, h3⟩
    | rs o => cases h
  | rs l =>
    cases B with
    | cs b =>
      have := key l [b] hA' hB' h
      simpa [RS.mem_single, NS.Mem] using this
    | rs o => exact key l o hA' hB' h

/-- The part of the domains that only one of the two functions covers. -/
theorem nsDifference_spec {A : NS} (hA : Normal A) {o : List CS} (ho : ∀ c ∈ o, c.HalfOpen) :
    ∃ D, nsDifference A o = .ok D ∧ (∀ x, D.Mem x ↔ A.Mem x ∧ ¬ RS.Mem o x) ∧ Normal D := by
  have hA1 := all_pieces.1 hA.2.1
  have hog : ∀ c ∈ o, RS.Good c := fun c hc => ⟨(ho c hc).wf, (ho c hc).reg⟩
  have key : ∀ l : List CS, (∀ c ∈ l, c.HalfOpenOrEmpty) → RS.isempty o = false →
      ∃ D, RS.difference l o = .ok D ∧ (∀ x, D.Mem x ↔ RS.Mem l x ∧ ¬ RS.Mem o x) ∧ Normal D := by
    intro l hl he
    have hgl : ∀ s ∈ l, RS.Good s := fun s hs => (hl s hs).good
    rcases RS.diffOuter_halfOpen (o := o) (fun c hc => .inl (ho c hc)) (l.length * (o.length + 1)) l hl with
      ⟨r, hr, hr'⟩ | hr
    · obtain ⟨k1, -, -⟩ := RS.diffOuter_spec hog _ hgl hr
      obtain ⟨d, hd, h1, h2⟩ := simplify_normal hr'
      refine ⟨d, by simp only [RS.difference, he, hr, bind, Except.bind]; exact hd, fun x => by rw [h1, k1], h2⟩
    · exact absurd hr (RS.diffOuter_terminates hgl hog)
  by_cases he : RS.isempty o = true
  · have he' := he
    rw [RS.isempty_iff (fun s hs => (hog s hs).1)] at he'
    refine ⟨A, ?_, fun x => ⟨fun h => ⟨h, fun h' => he' ⟨x, h'⟩⟩, fun h => h.1⟩, hA⟩
    cases A with
    | cs a =>
      have := (hA1 a (by simp [RS.pieces])).good.1
      simp [nsDifference, he, CS.mk?_self this, Except.map]
    | rs l =>
      simp only [nsDifference, RS.difference, if_pos he]
      rw [RS.mapM_mk? (l := l) (fun s hs => (hA1 s hs).good.1)]
      rfl
  · rw [Bool.not_eq_true] at he
    obtain ⟨D, h1, h2, h3⟩ := key (RS.pieces A) hA1 he
    refine ⟨D, ?_, fun x => by rw [h2, mem_pieces], h3⟩
    cases A with
    | cs a => simpa [nsDifference, he, RS.pieces] using h1
    | rs l => simpa [nsDifference, RS.pieces] using h1

theorem domain_spec {p : PF} (hp : ∀ s ∈ p, s.1.HalfOpen) :
    ∃ D, domain p = .ok D ∧ (∀ n : ℤ, D.Mem (fin n) ↔ p.Covers n) ∧ Normal D := by
  obtain ⟨D, h1, h2, h3⟩ := simplify_normal (l := p.map (·.1)) (by
    intro s hs
    obtain ⟨t, ht, rfl⟩ := List.mem_map.1 hs
    exact .inl (hp t ht))
  refine ⟨D, h1, fun n => ?_, h3⟩
  rw [h2]
  simp [RS.Mem, Covers]

theorem undefOn_spec {l : List CS} : (undefOn l).Perm (l.map (fun i => (i, Fn.undef))) :=
  (List.perm_insertionSort _ _).map _

/-- What `add` and `mul` of two piecewise functions yield. -/
theorem pointwise_spec {op : Fn → Fn → Except Err Fn} {pv : CS → FP} {und : List CS → List CS} {p q r : PF}
    (hund : ∀ l, und l = l ∨ (und l = [] ∧ ∀ c ∈ l, c.isempty = true))
    (hp : ∀ s ∈ p, s.1.HalfOpen) (hq : ∀ s ∈ q, s.1.HalfOpen) (dp : p.Disj) (dq : q.Disj)
    (np : p ≠ []) (nq : q ≠ [])
    (hpv : ∀ s ∈ p, ∀ t ∈ q, ∀ d : CS, d.HalfOpen → d.lower = max s.1.lower t.1.lower →
      d.upper = min s.1.upper t.1.upper → Selects d (pv d))
    (h : pointwise op pv und p q = .ok r) :
    r.Pairwise (fun s t => RS.Before s.1 t.1) ∧ (∀ s ∈ r, Ne s.1) ∧
    (∀ s ∈ p, ∀ t ∈ q, ∀ n : ℤ, s.1.Mem (fin n) → t.1.Mem (fin n) → ∃ f, op s.2 t.2 = .ok f) ∧
    ∀ (val : ℤ → ℚ) n v, Value val r n v ↔
      (∃ s ∈ p, ∃ t ∈ q, s.1.Mem (fin n) ∧ t.1.Mem (fin n) ∧ ∃ f, op s.2 t.2 = .ok f ∧ f.eval (val n) = v) ∨
      (v = none ∧ (p.Covers n ∧ ¬ q.Covers n ∨ q.Covers n ∧ ¬ p.Covers n)) := by
  obtain ⟨dom, hdom, d1, d2, d3, d4⟩ := intersections_spec (l := p.map (·.1)) (o := q.map (·.1))
    (by simpa using fun a b h => hp (a, b) h) (by simpa using fun a b h => hq (a, b) h)
    (disj_map_fst.1 dp) (disj_map_fst.1 dq)
  have d3' : ∀ d ∈ dom, ∃ s ∈ p, ∃ t ∈ q, d.lower = max s.1.lower t.1.lower ∧
      d.upper = min s.1.upper t.1.upper ∧ ∀ x, d.Mem x ↔ s.1.Mem x ∧ t.1.Mem x := by
    intro d hd
    obtain ⟨i, hi, j, hj, h⟩ := d3 d hd
    obtain ⟨s, hs, rfl⟩ := List.mem_map.1 hi
    obtain ⟨t, ht, rfl⟩ := List.mem_map.1 hj
    exact ⟨s, hs, t, ht, h⟩
  have hmd : ∀ n : ℤ, RS.Mem dom (fin n) ↔ p.Covers n ∧ q.Covers n := by
    intro n
    constructor
    · rintro ⟨d, hd, hn⟩
      obtain ⟨s, hs, t, ht, -, -, hm⟩ := d3' d hd
      exact ⟨⟨s, hs, ((hm _).1 hn).1⟩, ⟨t, ht, ((hm _).1 hn).2⟩⟩
    · rintro ⟨⟨s, hs, h1⟩, ⟨t, ht, h2⟩⟩
      exact d4 _ ⟨s.1, List.mem_map.2 ⟨s, hs, rfl⟩, h1⟩ ⟨t.1, List.mem_map.2 ⟨t, ht, rfl⟩, h2⟩
  obtain ⟨A, hA, a1, a2⟩ := domain_spec hp
  obtain ⟨B, hB, b1, b2⟩ := domain_spec hq
  have nA : ∃ n : ℤ, A.Mem (fin n) := by
    obtain ⟨s, hs⟩ := List.exists_mem_of_ne_nil p np
    obtain ⟨n, hn⟩ := ho_mem (hp s hs)
    exact ⟨n, (a1 n).2 ⟨s, hs, hn⟩⟩
  have nB : ∃ n : ℤ, B.Mem (fin n) := by
    obtain ⟨s, hs⟩ := List.exists_mem_of_ne_nil q nq
    obtain ⟨n, hn⟩ := ho_mem (hq s hs)
    exact ⟨n, (b1 n).2 ⟨s, hs, hn⟩⟩
  simp only [pointwise, hdom, hA, hB, bind, Except.bind] at h
  cases hU : nsUnion A B with
  | error e => simp [hU] at h
  | ok W =>
    obtain ⟨w1, w2⟩ := nsUnion_spec a2 b2 nA nB hU
    obtain ⟨u, hu, u1, u2⟩ := nsDifference_spec w2 d1
    simp only [hU, hu] at h
    -- the undefined pieces
    have hst : ∀ s ∈ undefOn (und (RS.pieces u)), s.1 ∈ RS.pieces u ∧ s.2 = .undef := by
      intro s hs
      obtain ⟨i, hi, rfl⟩ := List.mem_map.1 (undefOn_spec.mem_iff.1 hs)
      refine ⟨?_, rfl⟩
      rcases hund (RS.pieces u) with e | e
      · rwa [e] at hi
      · rw [e.1] at hi; simp at hi
    have hst1 : ∀ s ∈ undefOn (und (RS.pieces u)), s.1.HalfOpenOrEmpty :=
      fun s hs => all_pieces.1 u2.2.1 _ (hst s hs).1
    have hst2 : (undefOn (und (RS.pieces u))).Disj := by
      refine disj_perm undefOn_spec.symm ?_
      rw [disj_map_fst, List.map_map]
      have : (fun s : CS × Fn => s.1) ∘ (fun i : CS => (i, Fn.undef)) = id := rfl
      rw [this, List.map_id]
      rcases hund (RS.pieces u) with e | e
      · rw [e]; exact u2.1
      · rw [e.1]; exact List.Pairwise.nil
    have hst3 : ∀ (val : ℤ → ℚ) n v, Value val (undefOn (und (RS.pieces u))) n v ↔
        v = none ∧ (p.Covers n ∨ q.Covers n) ∧ ¬ (p.Covers n ∧ q.Covers n) := by
      intro val n v
      have hum : u.Mem (fin n) ↔ (p.Covers n ∨ q.Covers n) ∧ ¬ (p.Covers n ∧ q.Covers n) := by
        rw [u1, w1, a1, b1, hmd]
      rw [← hum, mem_pieces]
      constructor
      · rintro ⟨s, hs, hm, hv⟩
        obtain ⟨h1, h2⟩ := hst s hs
        rw [h2] at hv
        exact ⟨hv.symm, s.1, h1, hm⟩
      · rintro ⟨rfl, c, hc, hm⟩
        rcases hund (RS.pieces u) with e | e
        · refine ⟨(c, .undef), undefOn_spec.mem_iff.2 (List.mem_map.2 ⟨c, by rwa [e], rfl⟩), hm, rfl⟩
        · have := e.2 c hc
          rcases all_pieces.1 u2.2.1 c hc with h | h
          · rw [h.nonempty] at this; cases this
          · rw [h] at hm; exact absurd hm (emptyset_not_mem _)
    let F : CS → Except Err Fn := fun i => op ((atPos p (pv i)).getD .undef) ((atPos q (pv i)).getD .undef)
    have hstep : pointwiseStep op pv p q = fun (r : PF) (i : CS) => (do let f ← F i; overwriteAt r i f : Except Err PF) := rfl
    rw [hstep] at h
    cases hr : dom.foldlM (fun r i => do let f ← F i; overwriteAt r i f) (undefOn (und (RS.pieces u))) with
    | error e => rw [hr] at h; cases h
    | ok r1 =>
      rw [hr] at h
      simp only at h
      obtain ⟨g1, g2, g3, g4⟩ := fold_spec d1 d2 hst1 hst2 hr
      have hne : ∀ s ∈ r1, Ne s.1 := by
        by_cases hd : dom = []
        · subst hd
          simp only [List.foldlM_nil, pure, Except.pure] at hr
          cases hr
          intro s hs
          refine norm_ne (all_pieces.1 (u2.2.2 ?_) _ (hst s hs).1)
          obtain ⟨n, hn⟩ := nA
          exact ⟨n, (u1 _).2 ⟨(w1 _).2 (.inl hn), by simp [RS.Mem]⟩⟩
        · exact fun s hs => norm_ne (g2 hd s hs)
      have hsp := fun val => simplify_spec (val := val) hne h
      have hF : ∀ d ∈ dom, ∀ s ∈ p, ∀ t ∈ q, d.lower = max s.1.lower t.1.lower →
          d.upper = min s.1.upper t.1.upper → (∀ x, d.Mem x ↔ s.1.Mem x ∧ t.1.Mem x) →
          F d = op s.2 t.2 := by
        intro d hd s hs t ht e1 e2 hm
        have hsel := hpv s hs t ht d (d1 d hd) e1 e2
        have x1 := atPos_selects hp dp hs (d1 d hd) (fun x hx => ((hm x).1 hx).1) hsel
        have x2 := atPos_selects hq dq ht (d1 d hd) (fun x hx => ((hm x).1 hx).2) hsel
        simp only [F, x1, x2, Option.getD_some]
      refine ⟨(hsp (fun _ => 0)).2.2, (hsp (fun _ => 0)).2.1, ?_, fun val n v => ?_⟩
      · intro s hs t ht n h1 h2
        obtain ⟨d, hd, hn⟩ := (hmd n).2 ⟨⟨s, hs, h1⟩, ⟨t, ht, h2⟩⟩
        obtain ⟨s', hs', t', ht', e1, e2, hm⟩ := d3' d hd
        have es : s' = s := disj_unique dp hs' hs ((hm _).1 hn).1 h1
        have et : t' = t := disj_unique dq ht' ht ((hm _).1 hn).2 h2
        subst es; subst et
        rw [← hF d hd _ hs' _ ht' e1 e2 hm]
        exact fold_all (F := F) hr d hd
      rw [(hsp val).1, g4, hst3, hmd]
      constructor
      · rintro (⟨d, hd, hn, f, hf, hv⟩ | ⟨hn, rfl, h1, h2⟩)
        · left
          obtain ⟨s, hs, t, ht, e1, e2, hm⟩ := d3' d hd
          rw [hF d hd s hs t ht e1 e2 hm] at hf
          exact ⟨s, hs, t, ht, ((hm _).1 hn).1, ((hm _).1 hn).2, f, hf, hv⟩
        · right
          refine ⟨rfl, ?_⟩
          tauto
      · rintro (⟨s, hs, t, ht, h1, h2, f, hf, hv⟩ | ⟨rfl, h1⟩)
        · left
          obtain ⟨d, hd, hn⟩ := (hmd n).2 ⟨⟨s, hs, h1⟩, ⟨t, ht, h2⟩⟩
          obtain ⟨s', hs', t', ht', e1, e2, hm⟩ := d3' d hd
          have es : s' = s := disj_unique dp hs' hs ((hm _).1 hn).1 h1
          have et : t' = t := disj_unique dq ht' ht ((hm _).1 hn).2 h2
          subst es; subst et
          exact ⟨d, hd, hn, f, by rw [hF d hd _ hs' _ ht' e1 e2 hm]; exact hf, hv⟩
        · right
          refine ⟨by tauto, rfl, by tauto, by tauto⟩

end PF
end Verif.Fun
