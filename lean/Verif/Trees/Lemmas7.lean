import Verif.Trees.Lemmas6

/-!
# `conditional_jpt`: what the new tree says
-/

namespace Verif.Trees

variable {D E K : Type} {o : DistOps D E} {ok : K → D → Prop} {fits : K → Region → Prop}
  {P : D → Region → ℚ} {kind : ℕ → K} {full : ℕ → Region} {n : ℕ} {h : Heap D}

/-- A leaf of the new tree and the leaf it comes from. -/
structure Conditioned (fits : K → Region → Prop) (P : D → Region → ℚ) (kind : ℕ → K) (n : ℕ)
    (e : Query) (m : ℚ) (l l' : ℕ × Leaf D) : Prop where
  idx : l'.1 = l.1
  prior : l'.2.prior = l.2.prior * leafProb P l.2 e / m
  path : l'.2.path = l.2.path
  parent : l'.2.parent = l.2.parent
  samples : l'.2.samples = l.2.samples ∧ l'.2.rows = l.2.rows
  dists : ∀ (v : ℕ), v < n → ∃ d', l'.2.dists[v]? = some d' ∧
    ∀ S, fits (kind v) S → P d' S = condProb P l.2 e v S

/-- The leaf after conditioning. -/
def condLeaf (o : DistOps D E) (e : Query) (m : ℚ) (l : Leaf D) : Leaf D :=
  match l.condition o e m with
  | .ok l' => l'
  | .error _ => l

theorem condition_eq {e : Query} {m : ℚ} {l : Leaf D} {ds : List D}
    (hc : e.foldlM (cropAt o) l.dists = .ok ds) :
    l.condition o e m = .ok { l with prior := l.prior / m, dists := ds } := by
  unfold Leaf.condition
  rw [hc]
  rfl

theorem condLeaf_keeps (e : Query) (m : ℚ) (l : Leaf D) :
    (condLeaf o e m l).parent = l.parent ∧ (condLeaf o e m l).path = l.path := by
  unfold condLeaf Leaf.condition
  cases e.foldlM (cropAt o) l.dists with
  | error x => exact ⟨rfl, rfl⟩
  | ok ds => exact ⟨rfl, rfl⟩

/-- The probability of a query in a conditioned leaf. -/
theorem leafProb_cond {e q : Query} {l : Leaf D} {ds : List D}
    (hlen : l.dists.length = n) (hne : leafProb P l e ≠ 0) (he : (e.map Prod.fst).Nodup)
    (hq : QueryOK fits kind n q) {l' : Leaf D} (hl' : l'.dists = ds)
    (hds : ∀ (v : ℕ), v < n → ∃ d', ds[v]? = some d' ∧
      ∀ S, fits (kind v) S → P d' S = condProb P l e v S) :
    leafProb P l' q * leafProb P l e = leafProb P l (meet q e) := by
  obtain ⟨g, hg⟩ : ∃ g : ℕ × Region → ℚ, g = fun i => match l.dists[i.1]? with
    | some d => P d i.2
    | none => 0 := ⟨_, rfl⟩
  have e1 : ∀ q, leafProb P l q = (q.map g).prod := by
    intro q
    rw [hg]
    rfl
  have e0 : leafProb P l' q = (q.map (fun i => condProb P l e i.1 i.2)).prod := by
    unfold leafProb
    congr 1
    apply List.map_congr_left
    intro i hi
    obtain ⟨h1, h2, h3⟩ := hq.2 i hi
    obtain ⟨d', h4, h5⟩ := hds i.1 h1
    simp only [hl', h4]
    exact h5 i.2 h2
  rw [e0, e1, e1]
  unfold meet
  rw [List.map_append, List.prod_append, List.map_map]
  have e2 : q.map (g ∘ meetItem e) = q.map (fun i => condProb P l e i.1 i.2 * (match e.lookup i.1 with
      | some r => g (i.1, r)
      | none => 1)) := by
    apply List.map_congr_left
    intro i hi
    have hi1 := (hq.2 i hi).1
    obtain ⟨d, hd⟩ : ∃ d, l.dists[i.1]? = some d := ⟨_, List.getElem?_eq_getElem (by omega)⟩
    simp only [Function.comp, meetItem, condProb, hd]
    cases hl : e.lookup i.1 with
    | none => simp only [hg, hd, mul_one]
    | some r =>
      simp only [hg, hd]
      rw [div_mul_cancel₀]
      exact leafProb_factor hne (i := (i.1, r)) (Dict.lookup_mem hl) hd
  rw [e2, prod_map_mul]
  have e3 := prod_filter_mem g e he (q.map Prod.fst) hq.1
  rw [List.map_map] at e3
  replace e3 : ((e.filter (fun j => (q.map Prod.fst).contains j.1)).map g).prod =
      (q.map (fun i => match e.lookup i.1 with
        | some r => g (i.1, r)
        | none => 1)).prod := e3
  have e4 := prod_filter_split g (fun j => (q.map Prod.fst).contains j.1) e
  rw [← e4, e3]
  ring

/-- What `conditional_jpt` computes, after `copy`, if the distributions of all leaves that the evidence can reach can be
conditioned. -/
theorem conditionalOf_each {A : K → Prop} (L : LawsOn o ok fits P A) (hT : TreeOK ok fits P kind full n h)
    (hbin : Binary h) (priors : List (ℕ × D)) {e : Query} (he : QueryOK fits kind n e)
    (hC : ∀ l ∈ h.leaves, 0 < leafProb P l.2 e → ∀ i ∈ e, ∀ d, l.2.dists[i.1]? = some d →
      ∃ d', o.crop d i.2 = .ok d' ∧ ok (kind i.1) d' ∧ ∀ s, fits (kind i.1) s → P d' s = P d (s.inter i.2) / P d i.2)
    (hne : e ≠ []) (hpt : ∀ i ∈ e, i.2.point = none) :
    (mass P h e = 0 → conditionalOf o n full h priors e = .error .unsatisfiable) ∧
    (mass P h e ≠ 0 → ∃ h' ps, conditionalOf o n full h priors e = .ok (h', ps) ∧
      TreeOK ok fits P kind full n h' ∧
      List.Forall₂ (Conditioned fits P kind n e (mass P h e))
        (h.leaves.filter (fun l => decide (0 < leafProb P l.2 e))) h'.leaves ∧
      List.Forall₂ (fun l l' => ∀ v, e.lookup v = none → l'.2.dists[v]? = l.2.dists[v]?)
        (h.leaves.filter (fun l => decide (0 < leafProb P l.2 e))) h'.leaves ∧
      List.Forall₂ (fun v b => b.1 = v ∧ o.reload b.2 = .ok b.2 ∧
        (A (kind v) → ok (kind v) b.2 ∧ ∀ S, fits (kind v) S →
          P b.2 S = (h'.leaves.map (fun l => l.2.prior * condProb P l.2 [] v S)).sum) ∧
        ∃ (ls : List (ℕ × Leaf D)) (col : List D), ls.Perm h'.leaves ∧
          List.Forall₂ (fun l d => l.2.dists[v]? = some d) ls col ∧
          o.merge col (ls.map (fun l => l.2.prior)) = .ok b.2) (List.range n) ps) := by
  obtain ⟨r, hr⟩ := Option.ne_none_iff_exists'.1 hT.fitted
  have hmemL : ∀ id l, h.leaves.lookup id = some l → (id, l) ∈ h.leaves := fun _ _ hl => Dict.lookup_mem hl
  obtain ⟨R, S, hloop, hin, hout, hrm, hkept⟩ := condLoop_all (o := o) (e := e)
    (f := fun l => leafProb P l e) hT.shape hT.noNone hbin hr (by
      intro id l hl
      have hm := hmemL id l hl
      exact probability_eq L.toPLaws (hT.dists _ hm).1 (hT.dists _ hm).2 e he.2 hpt)
  have hfe : ∀ i ∈ e, fits (kind i.1) i.2 := fun i hi => (he.2 i hi).2.1
  have hnn : ∀ l ∈ h.leaves, 0 ≤ leafProb P l.2 e := fun l hl =>
    leafProb_nonneg L.toPLaws (hT.dists l hl).2 hfe
  -- the sum of the new priors
  have hleaves0 := without_leaves (f := fun l => leafProb P l e) (c := fun l => l) hin hout
  have hsum0 : (without h R (scaled (fun l => leafProb P l e) S)).priorSum = mass P h e := by
    unfold Heap.priorSum
    rw [show (without h R (scaled (fun l => leafProb P l e) S)).leaves = _ from hleaves0, List.map_map]
    unfold mass
    simp only [Function.comp_def, Leaf.scale]
    apply sum_filter (fun l : ℕ × Leaf D => decide (0 < leafProb P l.2 e))
      (fun l : ℕ × Leaf D => l.2.prior * leafProb P l.2 e)
    intro l hl hp
    simp only [decide_eq_true_eq] at hp
    have h0 : leafProb P l.2 e = 0 := le_antisymm (not_lt.1 hp) (hnn l hl)
    rw [h0, mul_zero]
  have hroot0 : r ∈ R → mass P h e = 0 := by
    intro hrR
    rw [← hsum0]
    unfold Heap.priorSum
    rw [without_root hT.shape hrm hr hrR]
    rfl
  have hmass : (if (without h R (scaled (fun l => leafProb P l e) S)).root = none then 0
      else (without h R (scaled (fun l => leafProb P l e) S)).priorSum) = mass P h e := by
    by_cases hrR : r ∈ R
    · have : (without h R (scaled (fun l => leafProb P l e) S)).root = none := by
        unfold without
        simp [hr, Option.filter, hrR]
      rw [if_pos this, hroot0 hrR]
    · have : ¬ (without h R (scaled (fun l => leafProb P l e) S)).root = none := by
        unfold without
        simp [hr, Option.filter, hrR]
      rw [if_neg this, hsum0]
  have hstart : ∀ (m : ℚ), m = mass P h e → conditionalOf o n full h priors e = (do
      if m = 0 then .error .unsatisfiable
      let ls ← mapVals (Leaf.condition o e m) (without h R (scaled (fun l => leafProb P l e) S)).leaves
      let ps ← posterior o n full ⟨(without h R (scaled (fun l => leafProb P l e) S)).inner, ls,
        (without h R (scaled (fun l => leafProb P l e) S)).root⟩ (List.range n) []
      return (⟨(without h R (scaled (fun l => leafProb P l e) S)).inner, ls,
        (without h R (scaled (fun l => leafProb P l e) S)).root⟩, ps)) := by
    intro m hm
    unfold conditionalOf
    rw [if_neg hne, hr]
    simp only
    rw [hloop]
    simp only [bind, Except.bind]
    rw [hmass, hm]
  have hstart' := hstart _ rfl
  constructor
  · intro h0
    rw [hstart', if_pos h0]
    rfl
  · intro h0
    have hpos : 0 < mass P h e := lt_of_le_of_ne (mass_nonneg L.toPLaws hT he) (Ne.symm h0)
    rw [hstart', if_neg h0]
    have hcrop : ∀ l ∈ h.leaves, 0 < leafProb P l.2 e → ∃ ds, e.foldlM (cropAt o) l.2.dists = .ok ds ∧
        ds.length = l.2.dists.length ∧
        ∀ (v : ℕ) (d : D), l.2.dists[v]? = some d → ∃ d', ds[v]? = some d' ∧ ok (kind v) d' ∧
          (e.lookup v = none → d' = d) ∧ ∀ S, fits (kind v) S → P d' S = match e.lookup v with
            | none => P d S
            | some r => P d (S.inter r) / P d r := by
      intro l hl hp
      exact crops_each e l.2.dists (hT.dists l hl).2 he.1
        (fun i hi => by rw [(hT.dists l hl).1]; exact (he.2 i hi).1) (hC l hl hp)
    obtain ⟨g, hgdef⟩ : ∃ g : ℕ → Leaf D → Leaf D,
        g = fun k l => condLeaf o e (mass P h e) (scaled (fun l => leafProb P l e) S k l) := ⟨_, rfl⟩
    have hgkeep : ∀ k l, (g k l).parent = l.parent ∧ (g k l).path = l.path := by
      intro k l
      rw [hgdef]
      simp only
      obtain ⟨h1, h2⟩ := condLeaf_keeps (o := o) e (mass P h e) (scaled (fun l => leafProb P l e) S k l)
      rw [h1, h2]
      unfold scaled
      split_ifs <;> exact ⟨rfl, rfl⟩
    have hleaves1 := without_leaves (f := fun l => leafProb P l e) (c := condLeaf o e (mass P h e)) hin hout
    rw [← hgdef] at hleaves1
    -- the leaf with its new distributions
    have hleaf : ∀ l ∈ h.leaves, 0 < leafProb P l.2 e → ∃ ds, ds.length = l.2.dists.length ∧
        (l.2.scale (leafProb P l.2 e)).condition o e (mass P h e)
          = .ok { l.2 with prior := l.2.prior * leafProb P l.2 e / mass P h e, dists := ds } ∧
        condLeaf o e (mass P h e) (l.2.scale (leafProb P l.2 e))
          = { l.2 with prior := l.2.prior * leafProb P l.2 e / mass P h e, dists := ds } ∧
        ∀ (v : ℕ) (d : D), l.2.dists[v]? = some d → ∃ d', ds[v]? = some d' ∧ ok (kind v) d' ∧
          (e.lookup v = none → d' = d) ∧ ∀ S, fits (kind v) S → P d' S = condProb P l.2 e v S := by
      intro l hl hp
      obtain ⟨ds, h1, h2, h3⟩ := hcrop l hl hp
      have hcond : (l.2.scale (leafProb P l.2 e)).condition o e (mass P h e)
          = .ok { l.2 with prior := l.2.prior * leafProb P l.2 e / mass P h e, dists := ds } :=
        condition_eq (l := l.2.scale (leafProb P l.2 e)) h1
      refine ⟨ds, h2, hcond, ?_, ?_⟩
      · unfold condLeaf
        rw [hcond]
      · intro v d hd
        obtain ⟨d', g1, g2, g4, g3⟩ := h3 v d hd
        refine ⟨d', g1, g2, g4, ?_⟩
        intro S hS
        rw [g3 S hS]
        unfold condProb
        rw [hd]
        cases e.lookup v <;> rfl
    have hmv : mapVals (Leaf.condition o e (mass P h e))
        (without h R (scaled (fun l => leafProb P l e) S)).leaves = .ok (without h R g).leaves := by
      rw [show (without h R (scaled (fun l => leafProb P l e) S)).leaves = _ from hleaves0, hleaves1]
      unfold mapVals
      rw [mapM_ok (g := fun a : ℕ × Leaf D => (a.1, condLeaf o e (mass P h e) a.2)), List.map_map]
      · rfl
      · intro a ha
        obtain ⟨l, hl, rfl⟩ := List.mem_map.1 ha
        rw [List.mem_filter, decide_eq_true_eq] at hl
        obtain ⟨ds, -, h1, h2, -⟩ := hleaf l hl.1 hl.2
        simp only [h1, h2, bind, Except.bind, pure, Except.pure]
    simp only [bind, Except.bind, pure, Except.pure]
    rw [hmv]
    simp only
    have hheap : (⟨(without h R (scaled (fun l => leafProb P l e) S)).inner, (without h R g).leaves,
        (without h R (scaled (fun l => leafProb P l e) S)).root⟩ : Heap D) = without h R g := rfl
    rw [hheap]
    have hF : List.Forall₂ (Conditioned fits P kind n e (mass P h e))
        (h.leaves.filter (fun l => decide (0 < leafProb P l.2 e))) (without h R g).leaves := by
      rw [hleaves1, List.forall₂_map_right_iff, List.forall₂_same]
      intro l hl
      rw [List.mem_filter, decide_eq_true_eq] at hl
      obtain ⟨ds, h1, h2, h3, h4⟩ := hleaf l hl.1 hl.2
      rw [h3]
      refine ⟨rfl, rfl, rfl, rfl, ⟨rfl, rfl⟩, ?_⟩
      intro v hv
      have hlt : v < l.2.dists.length := by rw [(hT.dists l hl.1).1]; exact hv
      obtain ⟨d', g1, -, -, g3⟩ := h4 v _ (List.getElem?_eq_getElem hlt)
      exact ⟨d', g1, g3⟩
    have hsame : List.Forall₂ (fun l l' => ∀ v, e.lookup v = none → l'.2.dists[v]? = l.2.dists[v]?)
        (h.leaves.filter (fun l => decide (0 < leafProb P l.2 e))) (without h R g).leaves := by
      rw [hleaves1, List.forall₂_map_right_iff, List.forall₂_same]
      intro l hl
      rw [List.mem_filter, decide_eq_true_eq] at hl
      obtain ⟨ds, h1, h2, h3, h4⟩ := hleaf l hl.1 hl.2
      rw [h3]
      intro v hv
      by_cases hlt : v < l.2.dists.length
      · obtain ⟨d', g1, -, g2, -⟩ := h4 v _ (List.getElem?_eq_getElem hlt)
        simp only
        rw [g1, g2 hv, List.getElem?_eq_getElem hlt]
      · simp only
        rw [List.getElem?_eq_none (by omega), List.getElem?_eq_none (by omega)]
    have hmem : ∀ l' ∈ (without h R g).leaves, ∃ l ∈ h.leaves, 0 < leafProb P l.2 e ∧
        ∃ ds, ds.length = l.2.dists.length ∧
          l' = (l.1, { l.2 with prior := l.2.prior * leafProb P l.2 e / mass P h e, dists := ds }) ∧
          ∀ (v : ℕ) (d : D), l.2.dists[v]? = some d → ∃ d', ds[v]? = some d' ∧ ok (kind v) d' ∧
            (e.lookup v = none → d' = d) ∧ ∀ S, fits (kind v) S → P d' S = condProb P l.2 e v S := by
      intro l' hl'
      rw [hleaves1] at hl'
      obtain ⟨l, hl, rfl⟩ := List.mem_map.1 hl'
      rw [List.mem_filter, decide_eq_true_eq] at hl
      obtain ⟨ds, h1, h2, h3, h4⟩ := hleaf l hl.1 hl.2
      exact ⟨l, hl.1, hl.2, ds, h1, by rw [h3], h4⟩
    obtain ⟨hsh, hfl⟩ := without_shape (g := g) hT.shape hT.noNone hgkeep hrm
    have hT' : TreeOK ok fits P kind full n (without h R g) := by
      refine ⟨hsh, hfl, ?_, ?_, ?_, ?_, hT.values, ?_⟩
      · have hrR : r ∉ R := fun hc => h0 (hroot0 hc)
        unfold without
        simp [hr, Option.filter, hrR]
      · intro l' hl'
        obtain ⟨l, hl, hp, ds, h1, rfl, h4⟩ := hmem l' hl'
        refine ⟨h1.trans (hT.dists l hl).1, ?_⟩
        intro v d hd
        have hlt : v < l.2.dists.length := by
          rw [← h1]
          exact (List.getElem?_eq_some_iff.1 hd).1
        obtain ⟨d', g1, g2, -⟩ := h4 v _ (List.getElem?_eq_getElem hlt)
        simp only at hd
        rw [g1] at hd
        cases hd
        exact g2
      · intro l' hl'
        obtain ⟨l, hl, hp, ds, h1, rfl, h4⟩ := hmem l' hl'
        exact div_nonneg (mul_nonneg (hT.prior l hl) hp.le) hpos.le
      · intro l' hl'
        obtain ⟨l, hl, hp, ds, h1, rfl, h4⟩ := hmem l' hl'
        exact hT.path l hl
      · intro l' hl' v d' R' hR' hd'
        obtain ⟨l, hl, hp, ds, h1, rfl, h4⟩ := hmem l' hl'
        simp only at hR' hd'
        have hlt : v < l.2.dists.length := by
          rw [← h1]
          exact (List.getElem?_eq_some_iff.1 hd').1
        obtain ⟨d, hd⟩ : ∃ d, l.2.dists[v]? = some d := ⟨_, List.getElem?_eq_getElem hlt⟩
        obtain ⟨d'', g1, g2, -, g3⟩ := h4 v d hd
        rw [g1] at hd'
        cases hd'
        have hfR := (pathMap_fits L.toPLaws l.2.path (hT.path l hl) hT.values v R' hR').2
        have hone := hT.support l hl v d R' hR' hd
        have hokd := (hT.dists l hl).2 v d hd
        rw [g3 R' hfR]
        unfold condProb
        rw [hd]
        simp only
        cases hev : e.lookup v with
        | none => exact hone
        | some s =>
          simp only
          have hme : (v, s) ∈ e := Dict.lookup_mem hev
          have hfs := hfe (v, s) hme
          have hs0 := leafProb_factor (ne_of_gt hp) hme hd
          have hswap : P d (R'.inter s) = P d (s.inter R') :=
            L.ext _ _ _ _ hokd (L.inter _ _ _ hfR hfs) (L.inter _ _ _ hfs hfR) (by
              intro x
              rw [Region.mem_inter, Region.mem_inter]
              exact And.comm)
          rw [hswap, L.sure _ _ _ _ hokd hfs hfR hone, div_self hs0]
    have hm1 : mass P (without h R g) [] = 1 := by
      unfold mass
      rw [hleaves1, List.map_map]
      have : (h.leaves.filter (fun l => decide (0 < leafProb P l.2 e))).map
          ((fun l => l.2.prior * leafProb P l.2 []) ∘
            fun l => (l.1, condLeaf o e (mass P h e) (l.2.scale (leafProb P l.2 e))))
          = (h.leaves.filter (fun l => decide (0 < leafProb P l.2 e))).map
            (fun l => l.2.prior * leafProb P l.2 e / mass P h e) := by
        apply List.map_congr_left
        intro l hl
        rw [List.mem_filter, decide_eq_true_eq] at hl
        obtain ⟨ds, h1, h2, h3, h4⟩ := hleaf l hl.1 hl.2
        simp only [Function.comp, h3]
        rw [show ∀ l' : Leaf D, leafProb P l' [] = 1 from fun l' => by simp [leafProb], mul_one]
      rw [this]
      have hs := sum_filter (fun l : ℕ × Leaf D => decide (0 < leafProb P l.2 e))
        (fun l : ℕ × Leaf D => l.2.prior * leafProb P l.2 e / mass P h e) h.leaves (by
          intro l hl hp
          simp only [decide_eq_true_eq] at hp
          have h0 : leafProb P l.2 e = 0 := le_antisymm (not_lt.1 hp) (hnn l hl)
          rw [h0, mul_zero, zero_div])
      rw [hs]
      have hdiv : ∀ (l : List (ℕ × Leaf D)) (m : ℚ), (l.map (fun l => l.2.prior * leafProb P l.2 e / m)).sum
          = (l.map (fun l => l.2.prior * leafProb P l.2 e)).sum / m := by
        intro l m
        induction l with
        | nil => simp
        | cons a l ih => rw [List.map_cons, List.sum_cons, List.map_cons, List.sum_cons, ih, add_div]
      rw [hdiv]
      exact div_self h0
    obtain ⟨ps, hps, hF2⟩ := (posterior_on L hT' (vs := List.range n) (e := []) ⟨by simp, by simp⟩
      (by simp) (by simp) (by simp) (by simp)).2 (by rw [hm1]; exact one_ne_zero)
    rw [hps]
    simp only
    have hone : ∀ l' : Leaf D, leafProb P l' [] = 1 := fun l' => by simp [leafProb]
    refine ⟨_, _, rfl, hT', hF, hsame, ?_⟩
    refine hF2.imp ?_
    rintro v b ⟨g1, g2, g3, ls, col, g4, g5, g6⟩
    refine ⟨g1, g2, fun hAv => ⟨(g3 hAv).1, ?_⟩, ls, col, ?_, g5.imp (fun l d h => h.2.1 rfl), ?_⟩
    · intro S' hS'
      have := (g3 hAv).2 S' hS'
      rw [hm1, mul_one] at this
      rw [this]
      congr 1
      apply List.map_congr_left
      intro l _
      simp [leafProb]
    · refine g4.trans (List.Perm.of_eq (List.filter_eq_self.2 ?_))
      intro l _
      simp [hone]
    · rw [← g6]
      congr 1
      apply List.map_congr_left
      intro l _
      rw [hone, hm1, one_mul, div_one]

/-- What `conditional_jpt` computes, after `copy`. -/
theorem conditionalOf_on {A : K → Prop} (L : LawsOn o ok fits P A) (hT : TreeOK ok fits P kind full n h) (hbin : Binary h)
    (priors : List (ℕ × D)) {e : Query} (he : QueryOK fits kind n e) (hA : ∀ i ∈ e, A (kind i.1)) (hne : e ≠ [])
    (hpt : ∀ i ∈ e, i.2.point = none) :
    (mass P h e = 0 → conditionalOf o n full h priors e = .error .unsatisfiable) ∧
    (mass P h e ≠ 0 → ∃ h' ps, conditionalOf o n full h priors e = .ok (h', ps) ∧
      TreeOK ok fits P kind full n h' ∧
      List.Forall₂ (Conditioned fits P kind n e (mass P h e))
        (h.leaves.filter (fun l => decide (0 < leafProb P l.2 e))) h'.leaves ∧
      List.Forall₂ (fun l l' => ∀ v, e.lookup v = none → l'.2.dists[v]? = l.2.dists[v]?)
        (h.leaves.filter (fun l => decide (0 < leafProb P l.2 e))) h'.leaves ∧
      List.Forall₂ (fun v b => b.1 = v ∧ o.reload b.2 = .ok b.2 ∧
        (A (kind v) → ok (kind v) b.2 ∧ ∀ S, fits (kind v) S →
          P b.2 S = (h'.leaves.map (fun l => l.2.prior * condProb P l.2 [] v S)).sum) ∧
        ∃ (ls : List (ℕ × Leaf D)) (col : List D), ls.Perm h'.leaves ∧
          List.Forall₂ (fun l d => l.2.dists[v]? = some d) ls col ∧
          o.merge col (ls.map (fun l => l.2.prior)) = .ok b.2) (List.range n) ps) :=
  conditionalOf_each L hT hbin priors he (fun l hl hp i hi d hd =>
    L.crop _ _ _ (hA i hi) ((hT.dists l hl).2 i.1 d hd) (he.2 i hi).2.1 (leafProb_factor (ne_of_gt hp) hi hd)) hne hpt

/-- What `conditional_jpt` computes, after `copy`, if all kinds of distributions can be conditioned and merged. -/
theorem conditionalOf_eq (L : Laws o ok fits P) (hT : TreeOK ok fits P kind full n h) (hbin : Binary h)
    (priors : List (ℕ × D)) {e : Query} (he : QueryOK fits kind n e) (hne : e ≠ [])
    (hpt : ∀ i ∈ e, i.2.point = none) :
    (mass P h e = 0 → conditionalOf o n full h priors e = .error .unsatisfiable) ∧
    (mass P h e ≠ 0 → ∃ h' ps, conditionalOf o n full h priors e = .ok (h', ps) ∧
      TreeOK ok fits P kind full n h' ∧
      List.Forall₂ (Conditioned fits P kind n e (mass P h e))
        (h.leaves.filter (fun l => decide (0 < leafProb P l.2 e))) h'.leaves ∧
      List.Forall₂ (fun v b => b.1 = v ∧ ok (kind v) b.2 ∧ ∀ S, fits (kind v) S →
        P b.2 S = (h'.leaves.map (fun l => l.2.prior * condProb P l.2 [] v S)).sum) (List.range n) ps) := by
  obtain ⟨h1, h2⟩ := conditionalOf_on L.on hT hbin priors he (fun _ _ => trivial) hne hpt
  refine ⟨h1, fun hm => ?_⟩
  obtain ⟨h', ps, h3, h4, h5, -, h6⟩ := h2 hm
  exact ⟨h', ps, h3, h4, h5, h6.imp (fun _ _ h => ⟨h.1, h.2.2.1 trivial⟩)⟩

end Verif.Trees
