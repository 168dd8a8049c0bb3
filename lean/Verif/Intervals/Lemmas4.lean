import Verif.Intervals.Lemmas3

/-! # `RealSet.simplify`: the first loop ends; order of the pieces; the merging loop -/

namespace Verif.Iv
open FP

namespace CS

/-- What it means when `difference` returns two pieces. -/
theorem difference_rs {s o : CS} {l : List CS} (h : s.difference o = .ok (.rs l)) :
    l = [⟨s.lower, o.lower, s.left, o.left.flip⟩, ⟨o.upper, s.upper, o.right.flip, s.right⟩] ∧
    o.isempty = false ∧ ∀ x, o.Mem x → s.Mem x := by
  unfold difference at h
  by_cases he : o.isempty = true
  · rw [if_pos he] at h
    cases hm : mk? s.lower s.upper s.left s.right <;> simp [hm, bind, Except.bind] at h
  rw [if_neg he] at h
  by_cases hc : o.containsInterval s = true
  · simp [hc] at h
  rw [if_neg hc] at h
  by_cases hp : s.containsInterval o true = true
  · rw [if_pos hp] at h
    cases h1 : mk? s.lower o.lower s.left o.left.flip with
    | error e => simp [h1, bind, Except.bind] at h
    | ok a =>
      cases h2 : mk? o.upper s.upper o.right.flip s.right with
      | error e => simp [h1, h2, bind, Except.bind] at h
      | ok b =>
        simp only [h1, h2, bind, Except.bind, Except.ok.injEq, NS.rs.injEq] at h
        rw [← h, (mk?_ok h1).1, (mk?_ok h2).1]
        exact ⟨rfl, by simpa using he, fun x hx => containsInterval_sound hp hx⟩
  · rw [if_neg hp] at h
    cases hm : mk? s.lower s.upper s.left s.right with
    | error e => simp [hm, bind, Except.bind] at h
    | ok r =>
      simp only [hm, bind, Except.bind] at h
      grind

theorem difference_rs_disjoint {s o : CS} (ho : o.WF) (he : o.isempty = false) {x y : FP}
    (hx : (⟨s.lower, o.lower, s.left, o.left.flip⟩ : CS).Mem x)
    (hy : (⟨o.upper, s.upper, o.right.flip, s.right⟩ : CS).Mem y) : x < y := by
  obtain ⟨l, u, a, b⟩ := s
  obtain ⟨l', u', a', b'⟩ := o
  revert ho he hx hy
  cases a' <;> cases b' <;>
    simp only [isempty, isclosed, itype, Br.code, WF, Mem, Br.flip] <;> grind

theorem difference_ne_outOfFuel {s o : CS} : s.difference o ≠ .error .outOfFuel := by
  have hm : ∀ l u a b, mk? l u a b ≠ .error .outOfFuel := by
    intro l u a b; unfold mk?; split <;> simp
  intro h
  unfold difference at h
  simp only [bind, Except.bind] at h
  grind

end CS

namespace RS

/-- Every piece lies in the interval it was cut from. -/
theorem piece_subset {s h : CS} (hs : s.WF ∧ s.Reg) (hh : h.WF ∧ h.Reg) {d : NS}
    (hd : s.difference h = .ok d) {c : CS} (hc : c ∈ pieces d) {x : FP} (hx : c.Mem x) :
    s.Mem x ∧ ¬ h.Mem x := by
  obtain ⟨j1, -, -⟩ := CS.difference_mem hs.1 hh.1 hs.2 hh.2 hd
  exact (j1 x).1 ((mem_pieces d x).1 ⟨c, hc, hx⟩)

theorem group_len_eq {h : CS} (hh : h.WF) :
    ∀ {g : List CS} {ds : List NS}, (∀ s ∈ g, CS.Disjoint h s) →
    List.Forall₂ (fun s d => s.difference h = .ok d) g ds →
    (ds.map pieces).flatten.length = g.length
  | [], _, _, .nil => by simp
  | s :: g, d :: ds, hg, .cons hd hds => by
    have ih := group_len_eq hh (fun s hs => hg s (by simp [hs])) hds
    rw [List.map_cons, List.flatten_cons, List.length_append, ih]
    cases d with
    | cs c => simp [pieces]; omega
    | rs l =>
      obtain ⟨-, he, hsub⟩ := CS.difference_rs hd
      obtain ⟨x, hx⟩ := CS.exists_mem hh he
      exact absurd ⟨hx, hsub x hx⟩ (hg s (by simp) x)

theorem group_len_le {h : CS} (hh : h.WF) :
    ∀ {g : List CS} {ds : List NS}, g.Pairwise CS.Disjoint →
    List.Forall₂ (fun s d => s.difference h = .ok d) g ds →
    (ds.map pieces).flatten.length ≤ g.length + 1
  | [], _, _, .nil => by simp
  | s :: g, d :: ds, hg, .cons hd hds => by
    rw [List.map_cons, List.flatten_cons, List.length_append]
    cases d with
    | cs c =>
      have ih := group_len_le hh (List.pairwise_cons.1 hg).2 hds
      simp only [pieces, List.length_cons, List.length_nil]; omega
    | rs l =>
      obtain ⟨hl, he, hsub⟩ := CS.difference_rs hd
      have : (ds.map pieces).flatten.length = g.length := by
        refine group_len_eq hh (fun t ht x ⟨hx, hy⟩ => ?_) hds
        exact (List.pairwise_cons.1 hg).1 t ht x ⟨hsub x hx, hy⟩
      rw [this, hl]; simp [pieces]; omega

theorem group_disjoint {h : CS} (hh : h.WF ∧ h.Reg) :
    ∀ {g : List CS} {ds : List NS}, (∀ s ∈ g, s.WF ∧ s.Reg) → g.Pairwise CS.Disjoint →
    List.Forall₂ (fun s d => s.difference h = .ok d) g ds →
    (ds.map pieces).flatten.Pairwise CS.Disjoint
  | [], _, _, _, .nil => by simp
  | s :: g, d :: ds, hall, hg, .cons hd hds => by
    have ih := group_disjoint hh (fun s hs => hall s (by simp [hs])) (List.pairwise_cons.1 hg).2 hds
    rw [List.map_cons, List.flatten_cons, List.pairwise_append]
    refine ⟨?_, ih, ?_⟩
    · cases d with
      | cs c => simp [pieces]
      | rs l =>
        obtain ⟨rfl, he, hsub⟩ := CS.difference_rs hd
        refine List.pairwise_pair.2 fun x ⟨hx, hy⟩ => ?_
        exact absurd (CS.difference_rs_disjoint hh.1 he hx hy) (lt_irrefl x)
    · intro a ha b hb x ⟨hx, hy⟩
      have h1 := piece_subset (hall s (by simp)) hh hd ha hx
      have h2 := (diffAll_spec hh.1 hh.2 (fun s hs => hall s (by simp [hs])) hds).1 x
      obtain ⟨⟨t, ht, hxt⟩, -⟩ := h2.1 ⟨b, hb, hy⟩
      exact (List.pairwise_cons.1 hg).1 t ht x ⟨h1.1, hxt⟩

/-- Splitting the results along the groups. -/
theorem split_groups {R : CS → NS → Prop} :
    ∀ {gs : List (List CS)} {ds : List NS}, List.Forall₂ R gs.flatten ds →
    ∃ dss : List (List NS), ds = dss.flatten ∧ List.Forall₂ (List.Forall₂ R) gs dss
  | [], ds, h => by
    rw [List.flatten_nil, List.forall₂_nil_left_iff] at h
    subst h; exact ⟨[], rfl, .nil⟩
  | g :: gs, ds, h => by
    rw [List.flatten_cons] at h
    obtain ⟨d1, d2, rfl, h1, h2⟩ := forall₂_append_left h
    obtain ⟨dss, rfl, hf⟩ := split_groups h2
    exact ⟨d1 :: dss, by rw [List.flatten_cons], .cons h1 hf⟩

theorem flatten_map_pieces (dss : List (List NS)) :
    (dss.flatten.map pieces).flatten = (dss.map (fun ds => (ds.map pieces).flatten)).flatten := by
  induction dss with
  | nil => rfl
  | cons d dss ih =>
    rw [List.flatten_cons, List.map_append, List.flatten_append, ih, List.map_cons,
      List.flatten_cons]

theorem disjointify_fuel : ∀ (n m : Nat) (gs : List (List CS)),
    (∀ g ∈ gs, (∀ s ∈ g, s.WF ∧ s.Reg) ∧ g.Pairwise CS.Disjoint) → gs.length = m →
    need (gs.map List.length) ≤ n → disjointify n gs.flatten ≠ .error .outOfFuel
  | n, _, [], _, _, _ => by simp [disjointify]
  | n, m, [] :: gs, hg, hm, hn => by
    rw [List.flatten_cons, List.nil_append]
    refine disjointify_fuel n (m - 1) gs (fun g hg' => hg g (by simp [hg'])) (by simp at hm; omega) ?_
    rw [List.map_cons, need_cons, List.map_map] at hn
    simpa [Function.comp_def] using hn
  | 0, _, (h :: g) :: gs, hg, _, hn => by
    rw [List.map_cons, need_cons] at hn
    simp at hn
  | n + 1, m, (h :: g) :: gs, hg, hlen, hn => by
    clear hlen
    intro herr
    rw [List.flatten_cons, List.cons_append] at herr
    simp only [disjointify, bind, Except.bind] at herr
    cases hm : (g ++ gs.flatten).mapM (fun s => s.difference h) with
    | error e =>
      simp only [hm, Except.error.injEq] at herr
      obtain ⟨a, -, ha⟩ := mapM_error _ _ _ hm
      exact CS.difference_ne_outOfFuel (herr ▸ ha)
    | ok ds =>
      simp only [hm] at herr
      have hf := (mapM_ok_iff _ _ _).1 hm
      rw [← List.flatten_cons] at hf
      obtain ⟨dss, rfl, hdss⟩ := split_groups hf
      cases hdss with
      | cons hd1 hdss =>
        rename_i ds1 dss
        rw [flatten_map_pieces] at herr
        obtain ⟨hall, hpw⟩ := hg (h :: g) (by simp)
        have hh := hall h (by simp)
        have hlen1 := group_len_eq hh.1 (List.pairwise_cons.1 hpw).1 hd1
        have key : need (((ds1 :: dss).map (fun ds => (ds.map pieces).flatten)).map List.length) ≤ n := by
          have : need (((ds1 :: dss).map (fun ds => (ds.map pieces).flatten)).map List.length)
              ≤ need (g.length :: (gs.map List.length).map (· + 1)) := by
            refine need_mono _ rfl ?_
            rw [List.map_cons, List.map_cons]
            refine .cons (Nat.le_of_eq hlen1) ?_
            rw [List.forall₂_map_left_iff, List.forall₂_map_right_iff, List.forall₂_map_left_iff, List.forall₂_map_right_iff]
            clear herr hf hm hn
            induction hdss with
            | nil => exact .nil
            | cons hd hds ih =>
              refine .cons (group_len_le hh.1 (hg _ (by simp)).2 hd) (ih ?_)
              intro g' hg'
              simp only [List.mem_cons] at hg' ⊢
              rcases hg' with rfl | hg'
              · exact hg _ (by simp)
              · exact hg _ (by simp [hg'])
          have h2 := need_step g.length (gs.map List.length)
          rw [List.map_cons, List.length_cons] at hn
          omega
        have key2 : ∀ g' ∈ (ds1 :: dss).map (fun ds => (ds.map pieces).flatten),
            (∀ s ∈ g', s.WF ∧ s.Reg) ∧ g'.Pairwise CS.Disjoint := by
          have hall' : ∀ s ∈ g, s.WF ∧ s.Reg := fun s hs => hall s (by simp [hs])
          have h0 : (∀ s ∈ (ds1.map pieces).flatten, s.WF ∧ s.Reg) ∧ (ds1.map pieces).flatten.Pairwise CS.Disjoint :=
            ⟨(diffAll_spec hh.1 hh.2 hall' hd1).2, group_disjoint hh hall' (List.pairwise_cons.1 hpw).2 hd1⟩
          rw [List.map_cons]
          intro g' hgm
          rcases List.mem_cons.1 hgm with rfl | hg'
          · exact h0
          · obtain ⟨ds2, hds2, rfl⟩ := List.mem_map.1 hg'
            clear herr hf hm hn key hg' hgm
            induction hdss with
            | nil => simp at hds2
            | @cons g1 d1 gs1 dss1 hd hds ih =>
              rcases List.mem_cons.1 hds2 with rfl | hds2
              · have := hg g1 (by simp)
                exact ⟨(diffAll_spec hh.1 hh.2 this.1 hd).2, group_disjoint hh this.1 this.2 hd⟩
              · refine ih ?_ hds2
                intro g' hg'
                rcases List.mem_cons.1 hg' with rfl | hg'
                · exact hg _ (by simp)
                · exact hg _ (by simp [hg'])
        have ih := disjointify_fuel n _ _ key2 rfl key
        cases hr : disjointify n ((ds1 :: dss).map (fun ds => (ds.map pieces).flatten)).flatten with
        | error e =>
          simp only [hr, Except.error.injEq] at herr
          exact ih (herr ▸ hr)
        | ok r =>
          rw [hr] at herr
          simp only at herr
          split at herr <;> cases herr
termination_by n m => (n, m)

/-- The first loop of `simplify` ends within the iteration bound of the model. -/
theorem disjointify_terminates {l : List CS} (h : ∀ s ∈ l, s.WF ∧ s.Reg) :
    disjointify (2 ^ l.length) l ≠ .error .outOfFuel := by
  have := disjointify_fuel (2 ^ l.length) _ (l.map (fun s => [s])) (by
    intro g hg
    obtain ⟨s, hs, rfl⟩ := List.mem_map.1 hg
    simpa using h s hs) rfl (by
    have : (l.map (fun s => [s])).map List.length = List.replicate l.length 1 := by
      rw [List.map_map, List.eq_replicate_iff]
      simp
    rw [this, need_replicate, Nat.one_mul]
    exact Nat.sub_le _ _)
  have h2 : (l.map (fun s => [s])).flatten = l := by
    clear this h
    induction l with
    | nil => rfl
    | cons a l ih => simp [ih]
  rwa [h2] at this

/-! ### Order of the pieces -/

theorem convex {s : CS} {x y z : FP} (hx : s.Mem x) (hz : s.Mem z) (h1 : x ≤ y) (h2 : y ≤ z) :
    s.Mem y := by
  revert hx hz; simp only [CS.Mem]; grind

/-- Subtracting an interval that starts first keeps the order. -/
theorem diffAll_notBelow {h : CS} (hh : h.WF ∧ h.Reg) :
    ∀ {t : List CS} {ds : List NS}, (∀ s ∈ t, s.WF ∧ s.Reg) → (h :: t).Pairwise CS.NotBelow →
    List.Forall₂ (fun s d => s.difference h = .ok d) t ds →
    (ds.map pieces).flatten.Pairwise CS.NotBelow
  | [], _, _, _, .nil => by simp
  | s :: t, d :: ds, hall, hp, .cons hd hds => by
    obtain ⟨hp1, hp2⟩ := List.pairwise_cons.1 hp
    obtain ⟨hp3, hp4⟩ := List.pairwise_cons.1 hp2
    have hall' : ∀ s ∈ t, s.WF ∧ s.Reg := fun s hs => hall s (by simp [hs])
    have ih := diffAll_notBelow hh hall'
      (List.pairwise_cons.2 ⟨fun s hs => hp1 s (by simp [hs]), hp4⟩) hds
    rw [List.map_cons, List.flatten_cons, List.pairwise_append]
    refine ⟨?_, ih, ?_⟩
    · cases d with
      | cs c => simp [pieces]
      | rs l =>
        obtain ⟨rfl, he, hsub⟩ := CS.difference_rs hd
        refine List.pairwise_pair.2 fun y hy ⟨x, hx⟩ => ?_
        exact ⟨x, hx, le_of_lt (CS.difference_rs_disjoint hh.1 he hx hy)⟩
    · intro a ha b hb y hy ⟨z, hz⟩
      have hzs := piece_subset (hall s (by simp)) hh hd ha hz
      have h2 := (diffAll_spec hh.1 hh.2 hall' hds).1 y
      obtain ⟨⟨b0, hb0, hyb⟩, hyh⟩ := h2.1 ⟨b, hb, hy⟩
      rcases le_or_gt z y with hzy | hzy
      · exact ⟨z, hz, hzy⟩
      obtain ⟨x0, hx0, hxy⟩ := hp3 b0 hb0 y hyb ⟨z, hzs.1⟩
      have hys : s.Mem y := convex hx0 hzs.1 hxy (le_of_lt hzy)
      obtain ⟨j1, -, -⟩ := CS.difference_mem (hall s (by simp)).1 hh.1 (hall s (by simp)).2 hh.2 hd
      have hyd := (j1 y).2 ⟨hys, hyh⟩
      cases d with
      | cs c =>
        have : a = c := by simpa [pieces] using ha
        exact ⟨y, this ▸ hyd, le_refl y⟩
      | rs l =>
        obtain ⟨rfl, he, hsub⟩ := CS.difference_rs hd
        obtain ⟨w0, hw0⟩ := CS.exists_mem hh.1 he
        have key : ∀ v, s.Mem v →
            ¬ (⟨s.lower, h.lower, s.left, h.left.flip⟩ : CS).Mem v := by
          intro v hv hv'
          obtain ⟨w, hw, hwv⟩ := hp1 s (by simp) v hv ⟨w0, hw0⟩
          revert hv' hw hwv
          simp only [CS.Mem, Br.flip]
          cases h.left <;> grind
        have hy2 : (⟨h.upper, s.upper, h.right.flip, s.right⟩ : CS).Mem y := by
          have := hyd
          simp only [NS.Mem, RS.Mem, List.mem_cons, List.not_mem_nil, or_false] at this
          obtain ⟨c, rfl | rfl, hc⟩ := this
          · exact absurd hc (key y hys)
          · exact hc
        simp only [pieces, List.mem_cons, List.not_mem_nil, or_false] at ha
        rcases ha with rfl | rfl
        · exact absurd hz (key z hzs.1)
        · exact ⟨y, hy2, le_refl y⟩

theorem disjointify_notBelow : ∀ (n : Nat) {l d : List CS}, (∀ s ∈ l, s.WF ∧ s.Reg) →
    l.Pairwise CS.NotBelow → disjointify n l = .ok d → d.Pairwise CS.NotBelow
  | n, [], d, _, _, hd => by
    simp only [disjointify, Except.ok.injEq] at hd
    subst hd; simp
  | 0, _ :: _, d, _, _, hd => by simp [disjointify] at hd
  | n + 1, h :: t, d, hall, hp, hd => by
    obtain ⟨ds, r, hds, hr, rfl⟩ := disjointify_cons hd
    have hh := hall h (by simp)
    have hall' : ∀ s ∈ t, s.WF ∧ s.Reg := fun s hs => hall s (by simp [hs])
    obtain ⟨i1, i2⟩ := diffAll_spec hh.1 hh.2 hall' hds
    have ih := disjointify_notBelow n i2 (diffAll_notBelow hh hall' hp hds) hr
    split
    · exact ih
    · refine List.pairwise_cons.2 ⟨fun b hb y hy hne => ?_, ih⟩
      have := (disjointify_spec n i2 hr).1 y
      obtain ⟨⟨b0, hb0, hyb⟩, -⟩ := (i1 y).1 (this.1 ⟨b, hb, hy⟩)
      exact (List.pairwise_cons.1 hp).1 b0 hb0 y hyb hne

theorem before_of {a b : CS} (h1 : CS.NotBelow a b) (h2 : CS.Disjoint a b) : Before a b := by
  intro x y hx hy
  by_contra hc
  rw [not_lt] at hc
  obtain ⟨x0, hx0, hle⟩ := h1 y hy ⟨x, hx⟩
  exact h2 y ⟨convex hx0 hx hle hc, hy⟩

theorem upper_le_of_before {a b : CS} (ha : a.WF ∧ a.Reg ∧ a.isempty = false)
    (hb : b.WF ∧ b.Reg ∧ b.isempty = false) (h : Before a b) : a.upper ≤ b.upper := by
  obtain ⟨y, hy⟩ := CS.exists_mem hb.1 hb.2.2
  by_cases hu : a.upper ≠ pinf ∨ a.right = .inc
  · have h1 := CS.uppermost_mem ha.1 ha.2.2 hu
    have h2 := h _ _ h1 hy
    revert h2 hy
    simp only [CS.uppermost, CS.Mem]
    grind
  · simp only [not_or, Classical.not_not] at hu
    have : b.upper ≠ ninf := hb.2.1.2.1
    have h3 : y ≠ pinf := by
      have := hb.2.1.2.2.2
      revert hy; simp only [CS.Mem]; grind [le_pinf b.upper]
    obtain ⟨x, hx⟩ := CS.exists_mem ha.1 ha.2.2
    have := h _ _ hx hy
    cases y with
    | pinf => exact absurd rfl h3
    | ninf => exact absurd (lt_of_lt_of_le this (ninf_le x)) (lt_irrefl _)
    | fin n =>
      obtain ⟨x, hx, hm⟩ := CS.upper_unbounded ha.1 ha.2.2 hu.1 n
      exact absurd (lt_of_le_of_lt hx (h _ _ hm hy)) (lt_irrefl _)

theorem sortUpper_perm (l : List CS) : (sortUpper l).Perm l := List.perm_insertionSort _ _

theorem sortUpper_eq {l : List CS} (h : l.Pairwise (fun a b => a.upper ≤ b.upper)) :
    sortUpper l = l := List.Pairwise.insertionSort_eq h

instance : Std.Total (fun a b : CS => a.upper ≤ b.upper) := ⟨fun _ _ => le_total _ _⟩
instance : IsTrans CS (fun a b : CS => a.upper ≤ b.upper) := ⟨fun _ _ _ => le_trans⟩

theorem sortUpper_sorted (l : List CS) : (sortUpper l).Pairwise (fun a b => a.upper ≤ b.upper) :=
  List.pairwise_insertionSort _ _

theorem contiguous_sub {a s : CS} (h : a.contiguous s = true) {x : FP}
    (hx : ({ a with upper := s.upper, right := s.right } : CS).Mem x) : a.Mem x ∨ s.Mem x := by
  obtain ⟨l, u, p, q⟩ := a
  obtain ⟨l', u', p', q'⟩ := s
  revert h hx
  cases p <;> cases q <;> cases p' <;> cases q' <;>
    simp only [CS.contiguous, CS.Mem, Br.code] <;> grind

/-- The second loop of `simplify` never adds a point. -/
theorem mergeLoop_sub : ∀ (t : List CS) (last : CS) {x : FP}, RS.Mem (mergeLoop last t) x →
    RS.Mem (last :: t) x
  | [], _, _, h => h
  | s :: t, last, x, h => by
    unfold mergeLoop at h
    split at h
    · rename_i hc
      have := mergeLoop_sub t _ h
      rw [mem_cons] at this
      rw [mem_cons, mem_cons]
      rcases this with h | h
      · have := contiguous_sub hc h; grind
      · grind
    · rw [mem_cons] at h ⊢
      rcases h with h | h
      · exact .inl h
      · exact .inr (mergeLoop_sub t _ h)

theorem contiguous_merge {a s : CS} (h : a.contiguous s = true) (ha : a.WF ∧ a.isempty = false)
    (hs : s.WF ∧ s.isempty = false)
    (hb : Before a s) (x : FP) :
    (({ a with upper := s.upper, right := s.right } : CS).Mem x ↔ a.Mem x ∨ s.Mem x) := by
  obtain ⟨y, hy⟩ := CS.exists_mem ha.1 ha.2
  obtain ⟨z, hz⟩ := CS.exists_mem hs.1 hs.2
  have := hb y z hy hz
  obtain ⟨l, u, p, q⟩ := a
  obtain ⟨l', u', p', q'⟩ := s
  revert h hy hz
  cases p <;> cases q <;> cases p' <;> cases q' <;>
    simp only [CS.contiguous, CS.Mem, Br.code] <;> grind

/-- On intervals in order the second loop keeps the members; the result is in order, not empty, and
no two consecutive intervals touch. -/
theorem mergeLoop_spec : ∀ (t : List CS) (last : CS),
    (∀ s ∈ last :: t, s.WF ∧ s.isempty = false) → (last :: t).Pairwise Before →
    (∀ x, RS.Mem (mergeLoop last t) x ↔ RS.Mem (last :: t) x) ∧
    (∀ s ∈ mergeLoop last t, s.WF ∧ s.isempty = false) ∧
    (mergeLoop last t).Pairwise Before
  | [], last, h, hp => ⟨fun _ => Iff.rfl, h, hp⟩
  | s :: t, last, h, hp => by
    obtain ⟨hp1, hp2⟩ := List.pairwise_cons.1 hp
    obtain ⟨hp3, hp4⟩ := List.pairwise_cons.1 hp2
    unfold mergeLoop
    split
    · rename_i hc
      have hm := contiguous_merge hc (h last (by simp)) (h s (by simp)) (hp1 s (by simp))
      obtain ⟨y, hy⟩ := CS.exists_mem (h last (by simp)).1 (h last (by simp)).2
      have hne := (hm y).2 (.inl hy)
      have hwf := CS.wf_of_mem hne
      obtain ⟨i1, i2, i3⟩ := mergeLoop_spec t { last with upper := s.upper, right := s.right }
        (by
          intro r hr
          rcases List.mem_cons.1 hr with rfl | hr
          · exact ⟨hwf, CS.isempty_false_of_mem hne⟩
          · exact h r (by simp [hr]))
        (List.pairwise_cons.2 ⟨fun r hr x z hx hz => by
          rcases (hm x).1 hx with hx | hx
          · exact hp1 r (by simp [hr]) x z hx hz
          · exact hp3 r hr x z hx hz, hp4⟩)
      refine ⟨fun x => ?_, i2, i3⟩
      rw [i1, mem_cons, mem_cons, mem_cons, hm]; grind
    · obtain ⟨i1, i2, i3⟩ := mergeLoop_spec t s (fun r hr => h r (List.mem_cons_of_mem _ hr)) hp2
      refine ⟨fun x => ?_, ?_, ?_⟩
      · rw [mem_cons, i1, mem_cons, mem_cons, mem_cons]
      · intro r hr
        rcases List.mem_cons.1 hr with rfl | hr
        · exact h r (by simp)
        · exact i2 r hr
      · refine List.pairwise_cons.2 ⟨fun r hr x z hx hz => ?_, i3⟩
        obtain ⟨q, hq, hz'⟩ := (i1 z).1 ⟨r, hr, hz⟩
        exact hp1 q hq x z hx hz'

theorem mergeLoop_head : ∀ (t : List CS) (s : CS),
    ∃ u b rest, mergeLoop s t = { s with upper := u, right := b } :: rest
  | [], s => ⟨s.upper, s.right, [], rfl⟩
  | r :: t, s => by
    unfold mergeLoop
    split
    · obtain ⟨u, b, rest, h⟩ := mergeLoop_head t { s with upper := r.upper, right := r.right }
      exact ⟨u, b, rest, h⟩
    · exact ⟨s.upper, s.right, _, rfl⟩

theorem not_contiguous_of {a b : CS} (hb : Before a b) (ha : a.WF ∧ a.isempty = false)
    (hbw : b.WF ∧ b.isempty = false) {s : CS} (hs : a.contiguous s = false)
    (h1 : b.lower = s.lower) (h2 : b.left = s.left) : a.contiguous b = false := by
  obtain ⟨x, hx⟩ := CS.exists_mem ha.1 ha.2
  obtain ⟨y, hy⟩ := CS.exists_mem hbw.1 hbw.2
  have := hb x y hx hy
  revert hs hx hy
  simp only [CS.contiguous, h1, h2, CS.Mem]
  grind

/-- No two consecutive intervals of the result touch. -/
theorem mergeLoop_chain : ∀ (t : List CS) (last : CS),
    (∀ s ∈ last :: t, s.WF ∧ s.isempty = false) → (last :: t).Pairwise Before →
    (mergeLoop last t).IsChain (fun a b => a.contiguous b = false)
  | [], last, _, _ => by simp [mergeLoop]
  | s :: t, last, h, hp => by
    obtain ⟨hp1, hp2⟩ := List.pairwise_cons.1 hp
    obtain ⟨hp3, hp4⟩ := List.pairwise_cons.1 hp2
    have hspec := mergeLoop_spec (s :: t) last h hp
    unfold mergeLoop at hspec ⊢
    split
    · rename_i hc
      have hm := contiguous_merge hc (h last (by simp)) (h s (by simp)) (hp1 s (by simp))
      obtain ⟨y, hy⟩ := CS.exists_mem (h last (by simp)).1 (h last (by simp)).2
      have hne := (hm y).2 (.inl hy)
      exact mergeLoop_chain t { last with upper := s.upper, right := s.right }
        (by
          intro r hr
          rcases List.mem_cons.1 hr with rfl | hr
          · exact ⟨CS.wf_of_mem hne, CS.isempty_false_of_mem hne⟩
          · exact h r (by simp [hr]))
        (List.pairwise_cons.2 ⟨fun r hr x z hx hz => by
          rcases (hm x).1 hx with hx | hx
          · exact hp1 r (by simp [hr]) x z hx hz
          · exact hp3 r hr x z hx hz, hp4⟩)
    · rename_i hc
      rw [Bool.not_eq_true] at hc
      rw [if_neg (by simp [hc])] at hspec
      have ih := mergeLoop_chain t s (fun r hr => h r (List.mem_cons_of_mem _ hr)) hp2
      obtain ⟨u, b, rest, he⟩ := mergeLoop_head t s
      rw [he] at ih hspec ⊢
      refine List.isChain_cons_cons.2 ⟨?_, ih⟩
      refine not_contiguous_of ((List.pairwise_cons.1 hspec.2.2).1 _ (by simp))
        (h last (by simp)) (hspec.2.1 _ (by simp)) hc rfl rfl

end RS
end Verif.Iv
