import Verif.Trees.Equal
import Verif.Trees.EqualSpec
import Verif.Trees.MixLaws
import Verif.Intervals.Lemmas7
import Verif.Dict

/-!
# Lemmas about `==` on trees
-/

namespace Verif.Trees

open Iv (FP CS Br NS)
open Iv.FP (fin ninf pinf)
open Fun (PF Fn)
open Num (tile Knots segs lineOf)

variable {α D L : Type}

/-! ## Lists and dictionaries -/

theorem allEq_iff {f : α → α → Except Err Bool} : ∀ {a b : List α}, a.length = b.length →
    (allEq f a b = .ok true ↔ List.Forall₂ (fun x y => f x y = .ok true) a b)
  | [], [], _ => by simp [allEq]
  | x :: a, y :: b, h => by
    have ih := allEq_iff (f := f) (a := a) (b := b) (by simpa using h)
    rw [List.forall₂_cons, ← ih, allEq]
    cases hf : f x y with
    | error e => simp [bind, Except.bind]
    | ok t => cases t <;> simp [bind, Except.bind, pure, Except.pure]

theorem listEq_iff {f : α → α → Except Err Bool} {a b : List α} :
    listEq f a b = .ok true ↔ List.Forall₂ (fun x y => f x y = .ok true) a b := by
  unfold listEq
  split
  · exact allEq_iff ‹_›
  · constructor
    · intro h; simp at h
    · intro h; exact absurd h.length_eq ‹_›

theorem lookupEq_iff {f : α → α → Except Err Bool} {b : List (ℕ × α)} : ∀ {a : List (ℕ × α)},
    lookupEq f b a = .ok true ↔ ∀ p ∈ a, ∃ y, b.lookup p.1 = some y ∧ f p.2 y = .ok true
  | [] => by simp [lookupEq]
  | (k, x) :: a => by
    have ih := lookupEq_iff (f := f) (b := b) (a := a)
    rw [List.forall_mem_cons, ← ih, lookupEq]
    cases hb : b.lookup k with
    | none => simp
    | some y =>
      cases hf : f x y with
      | error e => simp [hf, bind, Except.bind]
      | ok t => cases t <;> simp [hf, bind, Except.bind, pure, Except.pure]

theorem itemsEq_iff {f : α → α → Except Err Bool} {a b : List (ℕ × α)} (ha : (a.map Prod.fst).Nodup)
    (hb : (b.map Prod.fst).Nodup) :
    itemsEq f a b = .ok true ↔ ∀ k, Option.Rel (fun x y => f x y = .ok true) (a.lookup k) (b.lookup k) := by
  unfold itemsEq
  constructor
  · intro h k
    split at h
    · rename_i hlen
      rw [lookupEq_iff] at h
      have hsub : a.map Prod.fst ⊆ b.map Prod.fst := by
        intro k hk
        obtain ⟨p, hp, rfl⟩ := List.mem_map.1 hk
        obtain ⟨y, hy, -⟩ := h p hp
        exact Dict.lookup_isSome.1 ⟨y, hy⟩
      have hperm : (a.map Prod.fst).Perm (b.map Prod.fst) :=
        (List.subperm_of_subset ha hsub).perm_of_length_le (by simp [hlen])
      cases hak : a.lookup k with
      | none =>
        have : b.lookup k = none := by
          rw [Dict.lookup_none] at hak ⊢
          exact fun hc => hak (hperm.mem_iff.2 hc)
        rw [this]
        exact .none
      | some x =>
        obtain ⟨y, hy, hf⟩ := h _ (Dict.lookup_mem hak)
        simp only at hy hf
        rw [hy]
        exact .some hf
    · simp at h
  · intro h
    have hmem : ∀ k, k ∈ a.map Prod.fst ↔ k ∈ b.map Prod.fst := by
      intro k
      rw [← Dict.lookup_isSome, ← Dict.lookup_isSome]
      have := h k
      cases hak : a.lookup k <;> cases hbk : b.lookup k <;> rw [hak, hbk] at this <;> cases this <;> simp
    have hperm := (List.perm_ext_iff_of_nodup ha hb).2 hmem
    rw [if_pos (by simpa using hperm.length_eq), lookupEq_iff]
    intro p hp
    have := h p.1
    rw [Dict.mem_lookup ha (k := p.1) (b := p.2) hp] at this
    cases hbk : b.lookup p.1 with
    | none => rw [hbk] at this; cases this
    | some y =>
      rw [hbk] at this
      cases this with
      | some hf => exact ⟨y, rfl, hf⟩

/-- What related dictionaries have in common. -/
theorem perm_of_rel {β : Type} {R : α → α → Prop} {g : α → β} {a b : List (ℕ × α)} (ha : (a.map Prod.fst).Nodup)
    (hb : (b.map Prod.fst).Nodup) (h : ∀ k, Option.Rel R (a.lookup k) (b.lookup k))
    (hg : ∀ p ∈ a, ∀ q ∈ b, R p.2 q.2 → g p.2 = g q.2) : (a.map (fun p => g p.2)).Perm (b.map (fun p => g p.2)) := by
  have key : ∀ c : List (ℕ × α), (c.map Prod.fst).Nodup → (c.map (fun p => (p.1, g p.2))).Nodup := by
    intro c hc
    apply List.Nodup.of_map Prod.fst
    rw [List.map_map]
    exact hc
  have h1 : (a.map (fun p => (p.1, g p.2))).Perm (b.map (fun p => (p.1, g p.2))) := by
    rw [List.perm_ext_iff_of_nodup (key a ha) (key b hb)]
    rintro ⟨k, z⟩
    simp only [List.mem_map, Prod.mk.injEq]
    have hk := h k
    constructor
    · rintro ⟨⟨k', x⟩, hp, rfl, rfl⟩
      rw [Dict.mem_lookup ha hp] at hk
      cases hbk : b.lookup k' with
      | none => rw [hbk] at hk; cases hk
      | some y =>
        rw [hbk] at hk
        cases hk with
        | some hR => exact ⟨_, Dict.lookup_mem hbk, rfl, (hg _ hp _ (Dict.lookup_mem hbk) hR).symm⟩
    · rintro ⟨⟨k', y⟩, hp, rfl, rfl⟩
      rw [Dict.mem_lookup hb hp] at hk
      cases hak : a.lookup k' with
      | none => rw [hak] at hk; cases hk
      | some x =>
        rw [hak] at hk
        cases hk with
        | some hR => exact ⟨_, Dict.lookup_mem hak, rfl, hg _ (Dict.lookup_mem hak) _ hp hR⟩
  have := h1.map Prod.snd
  simpa [List.map_map, Function.comp_def] using this

/-! ## Nodes -/

theorem regionEq_iff {idx : ℚ → ℤ} {a b : Region} (ha : RegularRegion idx a) (hb : RegularRegion idx b) :
    regionEq idx a b = .ok true ↔ SameRegion idx a b := by
  cases a with
  | num a =>
    cases b with
    | num b =>
      simp only [regionEq, Except.ok.injEq, CS.eq_iff ha.1 hb.1 ha.2 hb.2]
      exact ⟨.num, fun h => by cases h; assumption⟩
    | set m => exact ⟨fun h => by simp [regionEq] at h, fun h => by cases h⟩
  | set l =>
    cases b with
    | num b => exact ⟨fun h => by simp [regionEq] at h, fun h => by cases h⟩
    | set m =>
      simp only [regionEq, Except.ok.injEq, Bool.and_eq_true, List.all_eq_true, List.contains_iff_mem]
      exact ⟨fun h => .set fun z => ⟨h.1 z, h.2 z⟩, fun h => by
        cases h with
        | set h => exact ⟨fun z hz => (h z).1 hz, fun z hz => (h z).2 hz⟩⟩

theorem forall₂_iff_mem {R S : α → α → Prop} : ∀ {a b : List α}, (∀ x ∈ a, ∀ y ∈ b, (R x y ↔ S x y)) →
    (List.Forall₂ R a b ↔ List.Forall₂ S a b)
  | [], [], _ => by simp
  | [], _ :: _, _ => by simp
  | _ :: _, [], _ => by simp
  | x :: a, y :: b, h => by
    rw [List.forall₂_cons, List.forall₂_cons, h x (by simp) y (by simp),
      forall₂_iff_mem (a := a) (b := b) (fun x hx y hy => h x (by simp [hx]) y (by simp [hy]))]

theorem mapM_id_some : ∀ {c : List (Option ℕ)}, none ∉ c → ∃ l, c.mapM (fun x => x) = some l ∧ c = l.map some
  | [], _ => ⟨[], rfl, rfl⟩
  | none :: _, h => absurd (by simp) h
  | some x :: c, h => by
    obtain ⟨l, h1, h2⟩ := mapM_id_some (c := c) (fun hc => h (by simp [hc]))
    exact ⟨x :: l, by rw [List.mapM_cons, h1]; rfl, by rw [h2]; rfl⟩

theorem kids_ok {n : Inner} (h : none ∉ n.children) : ∃ l, n.kids = .ok l ∧ n.children = l.map some := by
  obtain ⟨l, h1, h2⟩ := mapM_id_some h
  exact ⟨l, by rw [Inner.kids, h1], h2⟩

theorem innerEq_iff {idx : ℚ → ℤ} {a b : Inner} (ha : none ∉ a.children) (hb : none ∉ b.children)
    (ra : ∀ s ∈ a.splits, RegularRegion idx s) (rb : ∀ s ∈ b.splits, RegularRegion idx s) :
    innerEq idx a b = .ok true ↔ SameInner idx a b := by
  obtain ⟨x, hx, ex⟩ := kids_ok ha
  obtain ⟨y, hy, ey⟩ := kids_ok hb
  have hkids : a.children = b.children ↔ x = y := by
    rw [ex, ey]
    exact (List.map_injective_iff.2 (Option.some_injective _)).eq_iff
  have hsp : listEq (regionEq idx) a.splits b.splits = .ok true ↔ List.Forall₂ (SameRegion idx) a.splits b.splits := by
    rw [listEq_iff]
    exact forall₂_iff_mem fun s hs t ht => regionEq_iff (ra s hs) (rb t ht)
  have e : SameInner idx a b ↔ a.parent = b.parent ∧ x = y ∧
      listEq (regionEq idx) a.splits b.splits = .ok true ∧ a.var = b.var ∧ a.samples = b.samples := by
    rw [hsp, ← hkids]
    exact ⟨fun h => ⟨h.1, h.2, h.3, h.4, h.5⟩, fun ⟨h1, h2, h3, h4, h5⟩ => ⟨h1, h2, h3, h4, h5⟩⟩
  rw [e, innerEq]
  simp only [hx, hy, bind, Except.bind, pure, Except.pure]
  by_cases h1 : a.parent = b.parent
  · rw [if_pos h1]
    by_cases h2 : x = y
    · rw [if_pos h2]
      cases h3 : listEq (regionEq idx) a.splits b.splits with
      | error e => simp
      | ok t => cases t <;> simp [h1, h2]
    · simp [h2]
  · simp [h1]

theorem stepEq_iff {idx : ℚ → ℤ} {s t : ℕ × Region} (hs : RegularRegion idx s.2) (ht : RegularRegion idx t.2) :
    stepEq idx s t = .ok true ↔ s.1 = t.1 ∧ SameRegion idx s.2 t.2 := by
  unfold stepEq
  split
  · rw [regionEq_iff hs ht]; simp [*]
  · simp [*]

theorem leafEq_iff {idx : ℚ → ℤ} {deq : D → D → Except Err Bool} {a b : Leaf D}
    (ra : ∀ s ∈ a.path, RegularRegion idx s.2) (rb : ∀ s ∈ b.path, RegularRegion idx s.2) :
    leafEq idx deq a b = .ok true ↔ SameLeaf idx (fun d e => deq d e = .ok true) a b := by
  have hp : listEq (stepEq idx) a.path b.path = .ok true ↔
      List.Forall₂ (fun s t => s.1 = t.1 ∧ SameRegion idx s.2 t.2) a.path b.path := by
    rw [listEq_iff]
    exact forall₂_iff_mem fun s hs t ht => stepEq_iff (ra s hs) (rb t ht)
  have hd := listEq_iff (f := deq) (a := a.dists) (b := b.dists)
  have e : SameLeaf idx (fun d e => deq d e = .ok true) a b ↔ listEq (stepEq idx) a.path b.path = .ok true ∧
      a.samples = b.samples ∧ listEq deq a.dists b.dists = .ok true ∧ a.prior = b.prior := by
    rw [hp, hd]
    exact ⟨fun h => ⟨h.1, h.2, h.3, h.4⟩, fun ⟨h1, h2, h3, h4⟩ => ⟨h1, h2, h3, h4⟩⟩
  rw [e, leafEq]
  simp only [bind, Except.bind, pure, Except.pure]
  cases h1 : listEq (stepEq idx) a.path b.path with
  | error e => simp
  | ok t =>
    cases t
    · simp
    · by_cases h2 : a.samples = b.samples
      · cases h3 : listEq deq a.dists b.dists with
        | error e => simp [h2]
        | ok t => cases t <;> simp [h2]
      · simp [h2]

theorem rel_iff {R S : α → α → Prop} {x y : Option α} (h : ∀ a b, x = some a → y = some b → (R a b ↔ S a b)) :
    Option.Rel R x y ↔ Option.Rel S x y := by
  constructor
  · intro hr
    cases hr with
    | none => exact .none
    | some hr => exact .some ((h _ _ rfl rfl).1 hr)
  · intro hr
    cases hr with
    | none => exact .none
    | some hr => exact .some ((h _ _ rfl rfl).2 hr)

theorem treeEq_iff {idx : ℚ → ℤ} {deq : D → D → Except Err Bool} {h h' : Heap D} {priors priors' : List (ℕ × D)}
    (hs : Shape h) (hs' : Shape h') (hf : Full h) (hf' : Full h') (hr : RegularTree idx h) (hr' : RegularTree idx h')
    (hp : (priors.map Prod.fst).Nodup) (hp' : (priors'.map Prod.fst).Nodup) :
    treeEq idx deq h h' priors priors' = .ok true ↔
      SameTree idx (fun d e => deq d e = .ok true) h h' priors priors' := by
  have n1 := List.nodup_append.1 hs.nodup
  have n2 := List.nodup_append.1 hs'.nodup
  have e1 : itemsEq (innerEq idx) h.inner h'.inner = .ok true ↔
      ∀ k, Option.Rel (SameInner idx) (h.inner.lookup k) (h'.inner.lookup k) := by
    rw [itemsEq_iff n1.1 n2.1]
    exact forall_congr' fun k => rel_iff fun a b ha hb => innerEq_iff (hf k a ha) (hf' k b hb)
      (hr.inner _ (Dict.lookup_mem ha)) (hr'.inner _ (Dict.lookup_mem hb))
  have e2 : itemsEq (leafEq idx deq) h.leaves h'.leaves = .ok true ↔
      ∀ k, Option.Rel (SameLeaf idx (fun d e => deq d e = .ok true)) (h.leaves.lookup k) (h'.leaves.lookup k) := by
    rw [itemsEq_iff n1.2.1 n2.2.1]
    exact forall_congr' fun k => rel_iff fun a b ha hb => leafEq_iff
      (hr.leaves _ (Dict.lookup_mem ha)) (hr'.leaves _ (Dict.lookup_mem hb))
  have e3 := itemsEq_iff (f := deq) hp hp'
  have e : SameTree idx (fun d e => deq d e = .ok true) h h' priors priors' ↔
      itemsEq (innerEq idx) h.inner h'.inner = .ok true ∧ itemsEq (leafEq idx deq) h.leaves h'.leaves = .ok true ∧
      itemsEq deq priors priors' = .ok true := by
    rw [e1, e2, e3]
    exact ⟨fun h => ⟨h.1, h.2, h.3⟩, fun ⟨h1, h2, h3⟩ => ⟨h1, h2, h3⟩⟩
  rw [e, treeEq]
  cases itemsEq (innerEq idx) h.inner h'.inner with
  | error e => simp [bind, Except.bind]
  | ok a =>
    cases itemsEq (leafEq idx deq) h.leaves h'.leaves with
    | error e => simp [bind, Except.bind]
    | ok b =>
      cases itemsEq deq priors priors' with
      | error e => simp [bind, Except.bind]
      | ok c => simp [bind, Except.bind, pure, Except.pure, and_assoc]

/-! ## Fitted distributions -/

/-- Constants and lines that are not constant. -/
def PlainFn : Fn → Prop
  | .const _ => True
  | .lin m _ => m ≠ 0
  | _ => False

theorem plain_eq {f g : Fn} (hf : PlainFn f) (hg : PlainFn g) (h : f.eq g = .ok true) : f = g := by
  cases f <;> cases g <;> simp_all [PlainFn, Fn.eq]

theorem tile_eq_inj : ∀ {l m : List (ℤ × Fn)} {lo : FP} {f g : Fn}, lo ≠ pinf → Knots l → Knots m →
    (∀ s ∈ l, lo < fin s.1) → (∀ s ∈ m, lo < fin s.1) → PlainFn f → PlainFn g → (∀ s ∈ l, PlainFn s.2) →
    (∀ s ∈ m, PlainFn s.2) → PF.eq (tile lo f l pinf) (tile lo g m pinf) = .ok true → f = g ∧ l = m
  | [], [], lo, f, g, _, _, _, _, _, pf, pg, _, _, h => by
    refine ⟨plain_eq pf pg ?_, rfl⟩
    have hr : CS.eq ⟨lo, pinf, Num.brOf lo, .exc⟩ ⟨lo, pinf, Num.brOf lo, .exc⟩ = true := by simp [CS.eq]
    simp only [tile, PF.eq, hr, not_true_eq_false, if_false] at h
    cases hf : f.eq g with
    | error e => simp [hf] at h
    | ok t => cases t <;> simp [hf] at h ⊢
  | [], (k, g') :: m, lo, f, g, hlo, _, _, _, hm, _, _, _, _, h => by
    exfalso
    have := hm _ List.mem_cons_self
    have hne : CS.eq ⟨lo, pinf, Num.brOf lo, .exc⟩ ⟨lo, fin k, Num.brOf lo, .exc⟩ = false := by
      cases lo <;> simp_all [CS.eq, CS.lowermost, CS.uppermost, CS.isempty, Num.brOf, FP.lt_def, FP.le_def, FP.up, FP.dn,
        Iv.FP.leb, CS.itype, Br.code, CS.isclosed]
    simp [tile, PF.eq, hne] at h
  | (k, f') :: l, [], lo, f, g, hlo, _, _, hl, _, _, _, _, _, h => by
    exfalso
    have := hl _ List.mem_cons_self
    have hne : CS.eq ⟨lo, fin k, Num.brOf lo, .exc⟩ ⟨lo, pinf, Num.brOf lo, .exc⟩ = false := by
      cases lo <;> simp_all [CS.eq, CS.lowermost, CS.uppermost, CS.isempty, Num.brOf, FP.lt_def, FP.le_def, FP.up, FP.dn,
        Iv.FP.leb, CS.itype, Br.code, CS.isclosed]
    simp [tile, PF.eq, hne] at h
  | (k, f') :: l, (k', g') :: m, lo, f, g, hlo, kl, km, hl, hm, pf, pg, pl, pm, h => by
    have h1 := hl _ List.mem_cons_self
    have h2 := hm _ List.mem_cons_self
    simp only [tile, PF.eq] at h
    have hkk : CS.eq ⟨lo, fin k, Num.brOf lo, .exc⟩ ⟨lo, fin k', Num.brOf lo, .exc⟩ = true → k = k' := by
      cases lo <;> simp_all [CS.eq, CS.lowermost, CS.uppermost, CS.isempty, Num.brOf, FP.lt_def, FP.le_def, FP.up, FP.dn,
        Iv.FP.leb, CS.itype, Br.code, CS.isclosed] <;> omega
    cases hc : CS.eq ⟨lo, fin k, Num.brOf lo, .exc⟩ ⟨lo, fin k', Num.brOf lo, .exc⟩ with
    | false => simp [hc] at h
    | true =>
      have := hkk hc
      subst this
      cases hf : f.eq g with
      | error e => simp [hc, hf] at h
      | ok t =>
        cases t with
        | false => simp [hc, hf] at h
        | true =>
          simp only [hc, hf, not_true_eq_false, if_false] at h
          have kl' := List.pairwise_cons.1 kl
          have km' := List.pairwise_cons.1 km
          obtain ⟨i1, i2⟩ := tile_eq_inj (l := l) (m := m) (lo := fin k) (by simp) kl'.2 km'.2
            (fun s hs => by have := kl'.1 s hs; simp only [FP.lt_def, Iv.FP.leb]; simp; exact this)
            (fun s hs => by have := km'.1 s hs; simp only [FP.lt_def, Iv.FP.leb]; simp; exact this)
            (pl _ List.mem_cons_self) (pm _ List.mem_cons_self)
            (fun s hs => pl s (List.mem_cons_of_mem _ hs)) (fun s hs => pm s (List.mem_cons_of_mem _ hs)) h
          simp only at i1
          exact ⟨plain_eq pf pg hf, by rw [i1, i2]⟩

theorem fit_plain {val : ℤ → ℚ} (hval : StrictMono val) {eps : ℚ} {data : List ℤ} (hne : data ≠ []) {p : PF}
    (hp : Num.fit val eps data = .ok p) : ∃ l, p = tile ninf (.const 0) l pinf ∧ Knots l ∧ ∀ s ∈ l, PlainFn s.2 := by
  have hs : Num.loadBuffer data none none = .ok data := by simp [Num.loadBuffer]
  obtain ⟨lo, hlo, hmin⟩ := Num.exists_least hne
  obtain ⟨hi, hhi, hmax⟩ := Num.exists_greatest hne
  rcases (hmin hi hhi).lt_or_eq with hlt | rfl
  · obtain ⟨pts, p', F, hq, hp', -, -, hrise, -, -, hlast, -⟩ := Num.fit_spec hval (eps := eps) hs hlo hhi hlt hmin hmax
    rw [hp] at hq
    injection hq with hq
    refine ⟨_, hq.trans hp', Num.full_knots hrise hlast, ?_⟩
    intro s hs
    rcases List.mem_append.1 hs with hs | hs
    · obtain ⟨i, a, b, h1, h2, rfl⟩ := Num.segs_get hs
      have h3 := Num.rising_get hrise h1 h2
      have h4 := hval h3.1
      simp only [lineOf, PlainFn]
      exact div_ne_zero (by linarith [h3.2]) (by linarith)
    · simp only [List.mem_singleton] at hs
      subst hs
      trivial
  · rw [Num.fit_single (eps := eps) hs hlo (fun y hy => le_antisymm (hmax y hy) (hmin y hy))] at hp
    injection hp with hp
    refine ⟨[(lo, .const 1)], hp.symm, by simp [Knots], ?_⟩
    intro s hs
    simp only [List.mem_singleton] at hs
    subst hs
    trivial

/-- Fitted distributions that compare equal are the same. -/
theorem fit_eq_inj {val : ℤ → ℚ} (hval : StrictMono val) {eps eps' : ℚ} {data data' : List ℤ} (hne : data ≠ [])
    (hne' : data' ≠ []) {p q : PF} (hp : Num.fit val eps data = .ok p) (hq : Num.fit val eps' data' = .ok q)
    (h : PF.eq p q = .ok true) : p = q := by
  obtain ⟨l, rfl, kl, pl⟩ := fit_plain hval hne hp
  obtain ⟨m, rfl, km, pm⟩ := fit_plain hval hne' hq
  obtain ⟨-, rfl⟩ := tile_eq_inj (f := .const 0) (g := .const 0) (by simp) kl km (fun s _ => by simp [FP.lt_def, Iv.FP.leb])
    (fun s _ => by simp [FP.lt_def, Iv.FP.leb]) trivial trivial pl pm h
  rfl

end Verif.Trees
