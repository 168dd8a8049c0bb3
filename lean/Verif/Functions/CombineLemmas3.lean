import Verif.Functions.CombineLemmas2

/-!
# The intervals that `combine` looks at
-/

namespace Verif.Fun

open Iv Iv.FP

namespace PF

/-- A half-open interval before another one, not contiguous with it, leaves a gap. -/
theorem gap_of_before {a b : CS} (ha : a.HalfOpen) (hb : b.HalfOpen) (h : RS.Before a b) (hc : a.contiguous b = false) :
    ∃ u j : ℤ, a.upper = fin u ∧ b.lower = fin j ∧ u < j := by
  obtain ⟨m, hm⟩ := ho_mem ha
  obtain ⟨k, hk⟩ := ho_mem hb
  have hmk := h _ _ hm hk
  have hm' := (ha.mem_iff m).1 hm
  have hk' := (hb.mem_iff k).1 hk
  have hmk' : m < k := by simpa [FP.lt_def, leb] using hmk
  cases hu : a.upper with
  | ninf => rw [hu] at hm'; exact absurd hm'.2 (not_lt.2 (ninf_le _))
  | pinf =>
    exfalso
    have : a.Mem (fin k) := by
      rw [ha.mem_iff, hu]
      exact ⟨le_trans hm'.1 (le_of_lt hmk), by simp [FP.lt_def, leb]⟩
    exact lt_irrefl _ (h _ _ this hk)
  | fin u =>
    cases hl : b.lower with
    | pinf => rw [hl] at hk'; exact absurd hk'.1 (by simp [FP.le_def, leb])
    | ninf =>
      exfalso
      have : b.Mem (fin m) := by
        rw [hb.mem_iff, hl]
        exact ⟨ninf_le _, lt_trans hmk hk'.2⟩
      exact lt_irrefl _ (h _ _ hm this)
    | fin j =>
      refine ⟨u, j, rfl, rfl, ?_⟩
      rw [hu] at hm'
      rw [hl] at hk'
      have h1 : a.Mem (fin (u - 1)) := by
        rw [ha.mem_iff, hu]
        refine ⟨le_trans hm'.1 ?_, by simp [FP.lt_def, leb]⟩
        have := hm'.2
        simp [FP.lt_def, FP.le_def, leb] at this ⊢
        omega
      have h2 : b.Mem (fin j) := by
        rw [hb.mem_iff, hl]
        exact ⟨le_refl _, lt_of_le_of_lt hk'.1 hk'.2⟩
      have h3 := h _ _ h1 h2
      have h4 : u - 1 < j := by simpa [FP.lt_def, leb] using h3
      by_contra hcc
      have e : u = j := by omega
      subst e
      have hbl : b.left = .inc := by
        rcases hb.2.2 with ⟨h, -⟩ | ⟨-, h⟩
        · rw [hl] at h; cases h
        · exact h
      have har := ha.2.1
      obtain ⟨al, au, a1, a2⟩ := a
      obtain ⟨bl, bu, b1, b2⟩ := b
      simp only at hu hl hbl har
      subst hu hl hbl har
      simp [CS.contiguous, Br.code] at hc

/-- Two or more separate half-open intervals are not connected. -/
theorem gap {r : List CS} (h1 : ∀ s ∈ r, s.HalfOpen) (h2 : r.Pairwise RS.Before)
    (h3 : r.IsChain (fun a b => a.contiguous b = false)) (h4 : 2 ≤ r.length) :
    ∃ a b c : ℤ, a ≤ b ∧ b ≤ c ∧ RS.Mem r (fin a) ∧ RS.Mem r (fin c) ∧ ¬ RS.Mem r (fin b) := by
  obtain ⟨c, d, e, rfl⟩ : ∃ c d e, r = c :: d :: e := by
    match r, h4 with
    | c :: d :: e, _ => exact ⟨c, d, e, rfl⟩
  have hc := h1 c (by simp)
  have hd := h1 d (by simp)
  obtain ⟨u, j, hu, hj, huj⟩ := gap_of_before hc hd ((List.pairwise_cons.1 h2).1 d (by simp)) (List.isChain_cons_cons.1 h3).1
  obtain ⟨m, hm⟩ := ho_mem hc
  have hm' := (hc.mem_iff m).1 hm
  have hdj : d.Mem (fin j) := by
    rw [hd.mem_iff, hj]
    refine ⟨le_refl _, ?_⟩
    have := hd.1
    rwa [hj] at this
  refine ⟨m, u, j, ?_, le_of_lt huj, ⟨c, by simp, hm⟩, ⟨d, by simp, hdj⟩, ?_⟩
  · have := hm'.2
    rw [hu] at this
    simp [FP.lt_def, leb] at this
    omega
  · rintro ⟨x, hx, hxu⟩
    rcases List.mem_cons.1 hx with rfl | hx
    · rw [hc.mem_iff, hu] at hxu; exact absurd hxu.2 (lt_irrefl _)
    rcases List.mem_cons.1 hx with rfl | hx
    · rw [hd.mem_iff, hj] at hxu
      have := hxu.1
      simp [FP.le_def, leb] at this
      omega
    · have := (List.pairwise_cons.1 (List.pairwise_cons.1 h2).2).1 x hx _ _ hdj hxu
      simp [FP.lt_def, leb] at this
      omega

theorem halfOpen_convex {i : CS} (hi : i.HalfOpen) {a b c : ℤ} (h1 : a ≤ b) (h2 : b ≤ c) (ha : i.Mem (fin a))
    (hc : i.Mem (fin c)) : i.Mem (fin b) := by
  rw [hi.mem_iff] at *
  refine ⟨le_trans ha.1 ?_, lt_of_le_of_lt ?_ hc.2⟩ <;> simp [FP.le_def, leb] <;> omega

/-- `chop` of a half-open or empty interval. -/
theorem chop_spec {c : CS} (hc : c.HalfOpenOrEmpty) (ps : List FP) :
    (∀ i ∈ c.chop ps, i.HalfOpen) ∧ (c.chop ps).Pairwise RS.Before ∧
      (∀ x, (∃ i ∈ c.chop ps, i.Mem x) ↔ c.Mem x) ∧
      (∀ i ∈ c.chop ps, ∀ p ∈ ps, ∀ x y, i.Mem x → i.Mem y → ¬ (x < p ∧ p ≤ y)) := by
  have hw : c.WF := by
    rcases hc with h | rfl
    · exact h.wf
    · decide
  obtain ⟨h1, h2, h3, h4, -⟩ := C11_chop c hw ps
  refine ⟨?_, h3, h1, h4⟩
  intro i hi
  rcases hc with h | rfl
  · exact (chop_halfOpen h ps i hi).1
  · obtain ⟨x, hx⟩ := h2 i hi
    exact absurd ((h1 x).1 ⟨i, hi, hx⟩) (emptyset_not_mem x)

/-- `simplify` and `chop` of the intersection. -/
theorem chop_set {D : NS} (hD : D.All CS.HalfOpenOrEmpty) (ps : List FP) : ∃ d is, nsSimplify D = .ok d ∧
    nsChop d ps = .ok is ∧ (∀ i ∈ is, i.HalfOpen) ∧ is.Pairwise RS.Before ∧ (∀ x, (∃ i ∈ is, i.Mem x) ↔ D.Mem x) ∧
    (∀ i ∈ is, ∀ p ∈ ps, ∀ x y, i.Mem x → i.Mem y → ¬ (x < p ∧ p ≤ y)) := by
  cases D with
  | cs c => exact ⟨_, _, rfl, rfl, chop_spec hD ps⟩
  | rs l =>
    obtain ⟨d, h1, h2, h3, r, h4, h5, h6, h7⟩ := RS.simplify_halfOpen (l := l) hD
    rcases h4 with ⟨rfl, -⟩ | ⟨c, rfl, rfl⟩ | ⟨rfl, hlen⟩
    · obtain ⟨k1, k2, k3, k4⟩ := chop_spec (c := .emptyset) (.inr rfl) ps
      exact ⟨_, _, h1, rfl, k1, k2, fun x => (k3 x).trans (h2 x), k4⟩
    · obtain ⟨k1, k2, k3, k4⟩ := chop_spec (c := c) (.inl (h5 c (by simp))) ps
      exact ⟨_, _, h1, rfl, k1, k2, fun x => (k3 x).trans (h2 x), k4⟩
    · obtain ⟨d', g1, g2, g3, r', g4, g5, g6, g7⟩ := RS.simplify_halfOpen (l := r) (fun s hs => .inl (h5 s hs))
      obtain ⟨a, b, c, hab, hbc, ha, hc, hb⟩ := gap h5 h6 h7 hlen
      have hd' : d' = .rs r' := by
        rcases g4 with ⟨rfl, -⟩ | ⟨c', rfl, rfl⟩ | ⟨rfl, -⟩
        · exact absurd ((g2 _).2 ha) (emptyset_not_mem _)
        · exact absurd ((g2 _).1 (halfOpen_convex (g5 c' (by simp)) hab hbc ((g2 _).2 ha) ((g2 _).2 hc))) hb
        · rfl
      subst hd'
      have hch := fun i (hi : i ∈ r') => chop_spec (c := i) (.inl (g5 i hi)) ps
      refine ⟨_, r'.flatMap (fun i => i.chop ps), h1, ?_, ?_, ?_, ?_, ?_⟩
      · show RS.chop r ps = _
        simp only [RS.chop, g1, bind, Except.bind]
      · intro i hi
        obtain ⟨j, hj, hij⟩ := List.mem_flatMap.1 hi
        exact (hch j hj).1 i hij
      · rw [List.pairwise_flatMap]
        refine ⟨fun i hi => (hch i hi).2.1, ?_⟩
        refine (List.Pairwise.and_mem.1 g6).imp ?_
        rintro i j ⟨hi, hj, hij⟩ c1 hc1 c2 hc2 x y hx hy
        exact hij x y (((hch i hi).2.2.1 x).1 ⟨c1, hc1, hx⟩) (((hch j hj).2.2.1 y).1 ⟨c2, hc2, hy⟩)
      · intro x
        refine Iff.trans ?_ (h2 x)
        refine Iff.trans ?_ (g2 x)
        constructor
        · rintro ⟨i, hi, hx⟩
          obtain ⟨j, hj, hij⟩ := List.mem_flatMap.1 hi
          exact ⟨j, hj, ((hch j hj).2.2.1 x).1 ⟨i, hij, hx⟩⟩
        · rintro ⟨j, hj, hx⟩
          obtain ⟨i, hi, hix⟩ := ((hch j hj).2.2.1 x).2 hx
          exact ⟨i, List.mem_flatMap.2 ⟨j, hj, hi⟩, hix⟩
      · intro i hi
        obtain ⟨j, hj, hij⟩ := List.mem_flatMap.1 hi
        exact (hch j hj).2.2.2 i hij

/-- A function without gaps has an interval as its domain. -/
theorem domain_connected {g : PF} (hg : ∀ s ∈ g, s.1.HalfOpen) (hne : g ≠ [])
    (hc : g.Connected) :
    ∃ c, domain g = .ok (.cs c) ∧ c.HalfOpen ∧ ∀ n : ℤ, c.Mem (fin n) ↔ g.Covers n := by
  obtain ⟨d, h1, h2, h3, r, h4, h5, h6, h7⟩ := RS.simplify_halfOpen (l := g.map (·.1)) (by
    intro s hs
    obtain ⟨t, ht, rfl⟩ := List.mem_map.1 hs
    exact .inl (hg t ht))
  have hm : ∀ n : ℤ, d.Mem (fin n) ↔ g.Covers n := by
    intro n
    rw [h2]
    simp [RS.Mem, Covers]
  obtain ⟨s, hs⟩ := List.exists_mem_of_ne_nil g hne
  obtain ⟨n, hn⟩ := ho_mem (hg s hs)
  rcases h4 with ⟨rfl, -⟩ | ⟨c, rfl, rfl⟩ | ⟨rfl, hlen⟩
  · exact absurd ((hm n).2 ⟨s, hs, hn⟩) (emptyset_not_mem _)
  · exact ⟨c, h1, h5 c (by simp), hm⟩
  · obtain ⟨a, b, c, hab, hbc, ha, hc', hb⟩ := gap h5 h6 h7 hlen
    exact absurd ((hm b).2 (hc a b c hab hbc ((hm a).1 ha) ((hm c).1 hc'))) hb

/-- The intervals that `combine` looks at. -/
theorem combine_intervals {f g : PF} (hf : ∀ s ∈ f, s.1.HalfOpen) (hfn : f ≠ []) (hg : ∀ s ∈ g, s.1.HalfOpen) (hgn : g ≠ [])
    (hc : f.Connected → g.Connected) (ps : List FP) :
    ∃ d1 d2 d3 d is, domain f = .ok d1 ∧ domain g = .ok d2 ∧ nsIntersection d1 d2 = .ok d3 ∧ nsSimplify d3 = .ok d ∧
      nsChop d ps = .ok is ∧ (∀ i ∈ is, i.HalfOpen) ∧ is.Pairwise RS.Before ∧
      (∀ n : ℤ, (∃ i ∈ is, i.Mem (fin n)) ↔ f.Covers n ∧ g.Covers n) ∧
      (∀ i ∈ is, ∀ p ∈ ps, ∀ x y, i.Mem x → i.Mem y → ¬ (x < p ∧ p ≤ y)) := by
  obtain ⟨A, hA1, hA2, hA3⟩ := domain_spec hf
  obtain ⟨s, hs⟩ := List.exists_mem_of_ne_nil f hfn
  obtain ⟨n, hn⟩ := ho_mem (hf s hs)
  have hallA := hA3.2.2 ⟨n, (hA2 n).2 ⟨s, hs, hn⟩⟩
  obtain ⟨B, hB1, hB2, hB3⟩ := domain_spec hg
  obtain ⟨t, ht⟩ := List.exists_mem_of_ne_nil g hgn
  obtain ⟨n', hn'⟩ := ho_mem (hg t ht)
  have hallB := hB3.2.2 ⟨n', (hB2 n').2 ⟨t, ht, hn'⟩⟩
  obtain ⟨d3, h3, h4, h5⟩ : ∃ d3, nsIntersection A B = .ok d3 ∧ (∀ x, d3.Mem x ↔ A.Mem x ∧ B.Mem x) ∧
      d3.All CS.HalfOpenOrEmpty := by
    cases A with
    | cs a =>
      cases B with
      | cs b =>
        obtain ⟨c, hc1, hc2⟩ := CS.halfOpenOrEmpty_intersection (a := a) (b := b) (.inl hallA) (.inl hallB)
        obtain ⟨c', hc3, -, hc4⟩ := CS.intersection_ok a b (CS.HalfOpen.wf hallA) (CS.HalfOpen.wf hallB)
        rw [hc1] at hc3
        cases hc3
        exact ⟨.cs c, by simp [nsIntersection, hc1, bind, Except.bind, pure, Except.pure], hc4, hc2⟩
      | rs o =>
        have hconn : f.Connected := by
          intro x y z h1 h2 h3 h4
          rw [← hA2] at h3 h4 ⊢
          exact halfOpen_convex (i := a) hallA h1 h2 h3 h4
        obtain ⟨b, hb, -⟩ := domain_connected hg hgn (hc hconn)
        rw [hB1] at hb
        cases hb
    | rs l =>
      cases B with
      | cs b =>
        obtain ⟨D, e1, e2, e3⟩ := C04_realset_half_open (l := l) (o := [b]) hallA (fun s hs => by
          obtain rfl := List.mem_singleton.1 hs
          exact hallB)
        exact ⟨D, e1, fun x => (e2 x).trans (by simp [NS.Mem, RS.Mem]), e3⟩
      | rs o =>
        obtain ⟨D, e1, e2, e3⟩ := C04_realset_half_open (l := l) (o := o) hallA hallB
        exact ⟨D, e1, e2, e3⟩
  obtain ⟨d, is, k1, k2, k3, k4, k5, k6⟩ := chop_set h5 ps
  refine ⟨A, B, d3, d, is, hA1, hB1, h3, k1, k2, k3, k4, fun n => ?_, k6⟩
  rw [k5, h4, hA2, hB2]

end PF

end Verif.Fun
