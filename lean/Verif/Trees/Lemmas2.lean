import Verif.Trees.Lemmas1
import Mathlib.Algebra.Order.BigOperators.Group.List
import Mathlib.Tactic.Ring
import Mathlib.Tactic.FieldSimp

/-!
# Lemmas about `infer`
-/

namespace Verif.Trees

variable {D E K : Type} {o : DistOps D E} {ok : K → D → Prop} {fits : K → Region → Prop}
  {P : D → Region → ℚ} {kind : ℕ → K} {full : ℕ → Region} {n : ℕ} {h : Heap D}

/-- The restrictions of the map are of the right kind. -/
theorem pathMap_fits (L : PLaws o ok fits P) (path : Path)
    (hpath : ∀ s ∈ path, s.1 < n ∧ fits (kind s.1) s.2 ∧ s.2.OK)
    (hvals : ∀ v, v < n → fits (kind v) (full v) ∧ ∀ r x, fits (kind v) r → r.Mem x → (full v).Mem x) :
    ∀ v R, (pathMap full path).lookup v = some R → v < n ∧ fits (kind v) R := by
  induction path using List.reverseRecOn with
  | nil => simp [pathMap]
  | append_singleton l r ih =>
    intro v R hR
    have ih' := ih (fun s hs => hpath s (by simp [hs]))
    obtain ⟨h1, h2, -⟩ := hpath r (by simp)
    rw [pathMap_snoc, Dict.lookup_set] at hR
    by_cases hv : v = r.1
    · rw [if_pos hv] at hR
      cases hR
      subst hv
      refine ⟨h1, L.inter _ _ _ ?_ h2⟩
      cases hl : (pathMap full l).lookup r.1 with
      | none => exact (hvals _ h1).1
      | some R' => exact (ih' _ _ hl).2
    · rw [if_neg hv] at hR
      exact ih' v R hR

/-- Disjoint sets have no common value, also for degenerate intervals. -/
theorem disjoint_mem {a b : Region} {x : XQ} (hd : a.disjoint b = true) (ha : a.Mem x) (hb : b.Mem x) :
    False := by
  cases a with
  | num a =>
    cases b with
    | num b =>
      simp only [Region.disjoint, Bool.not_eq_true'] at hd
      rw [riIntersects_of_mem ha hb] at hd
      cases hd
    | set b =>
      simp only [Region.disjoint, List.all_eq_true, Bool.not_eq_true', decide_eq_false_iff_not] at hd
      obtain ⟨z, hz, rfl⟩ := hb
      exact hd z hz ha
  | set a =>
    cases b with
    | num b =>
      simp only [Region.disjoint, List.all_eq_true, Bool.not_eq_true', decide_eq_false_iff_not] at hd
      obtain ⟨z, hz, rfl⟩ := ha
      exact hd z hz hb
    | set b => exact (Region.disjoint_iff (a := .set a) (b := .set b) trivial trivial).1 hd x ⟨ha, hb⟩

/-- A product with a factor zero. -/
theorem prod_zero {l : List ℚ} (h : 0 ∈ l) : l.prod = 0 := by
  induction l with
  | nil => cases h
  | cons a l ih =>
    rw [List.prod_cons]
    rcases List.mem_cons.1 h with h | h
    · rw [← h, zero_mul]
    · rw [ih h, mul_zero]

theorem prod_nonneg' {l : List ℚ} (h : ∀ x ∈ l, 0 ≤ x) : 0 ≤ l.prod := by
  induction l with
  | nil => simp
  | cons a l ih =>
    rw [List.prod_cons]
    exact mul_nonneg (h a (by simp)) (ih (fun x hx => h x (by simp [hx])))

section leaf

variable (L : PLaws o ok fits P) {l : Leaf D}
  (hlen : l.dists.length = n) (hok : ∀ (v : ℕ) (d : D), l.dists[v]? = some d → ok (kind v) d)
  (hpath : ∀ s ∈ l.path, s.1 < n ∧ fits (kind s.1) s.2 ∧ s.2.OK)
  (hvals : ∀ v, v < n → fits (kind v) (full v) ∧ ∀ r x, fits (kind v) r → r.Mem x → (full v).Mem x)
  (hsup : ∀ (v : ℕ) (d : D) (R : Region), (pathMap full l.path).lookup v = some R →
    l.dists[v]? = some d → P d R = 1)

include L hok hpath hvals hsup in
/-- Restricting an event to what the path allows does not change its probability. -/
theorem restrict_P {v : ℕ} {d : D} {r : Region} (hd : l.dists[v]? = some d) (hr : fits (kind v) r) :
    fits (kind v) (l.restrict full v r) ∧ P d (l.restrict full v r) = P d r := by
  unfold Leaf.restrict
  cases hR : (pathMap full l.path).lookup v with
  | none => exact ⟨hr, rfl⟩
  | some R =>
    have hf := (pathMap_fits L l.path hpath hvals v R hR).2
    exact ⟨L.inter _ _ _ hr hf, L.sure _ _ _ _ (hok v d hd) hr hf (hsup v d R hR hd)⟩

include L hlen hok hpath hvals hsup in
theorem mult_eq (q : Query) : ∀ (init : ℚ),
    (∀ i ∈ q, i.1 < n ∧ fits (kind i.1) i.2 ∧ i.2.OK) →
    l.mult o full init q = .ok (init * leafProb P l q) := by
  induction q with
  | nil =>
    intro init _
    simp [Leaf.mult, leafProb, pure, Except.pure]
  | cons i q ih =>
    intro init hq
    obtain ⟨h1, h2, -⟩ := hq i (by simp)
    have hlt : i.1 < l.dists.length := by omega
    obtain ⟨d, hd⟩ : ∃ d, l.dists[i.1]? = some d := ⟨_, List.getElem?_eq_getElem hlt⟩
    obtain ⟨h3, h4⟩ := restrict_P L hok hpath hvals hsup hd h2
    have hp := L.p_ok _ _ _ (hok _ _ hd) h3
    rw [h4] at hp
    have := ih (init * P d i.2) (fun j hj => hq j (by simp [hj]))
    unfold Leaf.mult at this ⊢
    rw [List.foldlM_cons]
    simp only [Leaf.dist, hd, hp, bind, Except.bind, pure, Except.pure] at this ⊢
    rw [this]
    simp only [leafProb, List.map_cons, List.prod_cons, hd]
    rw [mul_assoc]

include L hok in
theorem leafProb_nonneg {q : Query} (hq : ∀ i ∈ q, fits (kind i.1) i.2) : 0 ≤ leafProb P l q := by
  unfold leafProb
  apply prod_nonneg'
  intro x hx
  obtain ⟨i, hi, rfl⟩ := List.mem_map.1 hx
  cases hd : l.dists[i.1]? with
  | none => exact le_refl _
  | some d => exact L.nonneg _ _ _ (hok _ _ hd) (hq i hi)

include L hok in
theorem leafProb_le_one {q : Query} (hq : ∀ i ∈ q, fits (kind i.1) i.2) : leafProb P l q ≤ 1 := by
  induction q with
  | nil => simp [leafProb]
  | cons i q ih =>
    have h1 := ih (fun j hj => hq j (by simp [hj]))
    have h0 := leafProb_nonneg (l := l) L hok (q := q) (fun j hj => hq j (by simp [hj]))
    have hi := hq i (by simp)
    unfold leafProb at h0 h1 ⊢
    rw [List.map_cons, List.prod_cons]
    cases hd : l.dists[i.1]? with
    | none => simp
    | some d =>
      have h2 := L.nonneg _ _ _ (hok _ _ hd) hi
      have h3 := L.le_one _ _ _ (hok _ _ hd) hi
      exact mul_le_one₀ h3 h0 h1

include L hlen hok hpath hvals hsup in
/-- An event that shares no value with one of the splits on the path has probability zero. -/
theorem leafProb_disjoint {q : Query} (hq : ∀ i ∈ q, i.1 < n ∧ fits (kind i.1) i.2 ∧ i.2.OK)
    {i : ℕ × Region} (hi : i ∈ q) {s : ℕ × Region} (hs : s ∈ l.path) (hv : s.1 = i.1)
    (hd : i.2.disjoint s.2 = true) : leafProb P l q = 0 := by
  unfold leafProb
  apply prod_zero
  refine List.mem_map.2 ⟨i, hi, ?_⟩
  cases hdi : l.dists[i.1]? with
  | none => rfl
  | some d =>
    show P d i.2 = 0
    obtain ⟨h1, h2, h3⟩ := hq i hi
    obtain ⟨g1, g2, g3⟩ := hpath s hs
    rw [← (restrict_P L hok hpath hvals hsup hdi h2).2]
    have hfit := (restrict_P L hok hpath hvals hsup hdi h2).1
    refine L.empty _ _ _ (hok _ _ hdi) hfit ?_
    intro x hx
    have hkey : i.1 ∈ (pathMap full l.path).map Prod.fst :=
      (pathMap_keys full l.path i.1).2 (List.mem_map.2 ⟨s, hs, hv⟩)
    cases hR : (pathMap full l.path).lookup i.1 with
    | none => exact (Dict.lookup_none.1 hR) hkey
    | some R =>
      unfold Leaf.restrict at hx
      rw [hR] at hx
      obtain ⟨hx1, hx2⟩ := (Region.mem_inter x).1 hx
      have := ((pathMap_lookup full l.path i.1 x R hR).1 hx2).2 s hs hv
      exact (Region.disjoint_iff h3 g3).1 hd x ⟨hx1, this⟩

include L hlen hok hpath hvals hsup in
theorem leafProb_not_passes {q : Query} (hq : QueryOK fits kind n q)
    (hp : ¬ (l.path.all (fun e => passes q e.1 e.2)) = true) : leafProb P l q = 0 := by
  simp only [List.all_eq_true, not_forall] at hp
  obtain ⟨s, hs, hps⟩ := hp
  unfold passes at hps
  cases hl : q.lookup s.1 with
  | none => rw [hl] at hps; exact absurd rfl hps
  | some r =>
    rw [hl] at hps
    refine leafProb_disjoint L hlen hok hpath hvals hsup hq.2 (Dict.lookup_mem hl) hs rfl ?_
    simpa using hps

include L hlen hok hpath hvals hsup in
theorem leafProb_not_applies {q : Query} (hq : QueryOK fits kind n q)
    (hp : ¬ l.applies full q = true) : leafProb P l q = 0 := by
  unfold Leaf.applies at hp
  simp only [List.all_eq_true, not_forall] at hp
  obtain ⟨i, hi, hpi⟩ := hp
  cases hR : (pathMap full l.path).lookup i.1 with
  | none => rw [hR] at hpi; exact absurd rfl hpi
  | some R =>
    rw [hR] at hpi
    simp only [Bool.not_eq_true', Bool.not_eq_false] at hpi
    unfold leafProb
    apply prod_zero
    refine List.mem_map.2 ⟨i, hi, ?_⟩
    cases hdi : l.dists[i.1]? with
    | none => rfl
    | some d =>
      show P d i.2 = 0
      obtain ⟨h1, h2, h3⟩ := hq.2 i hi
      rw [← (restrict_P L hok hpath hvals hsup hdi h2).2]
      have hfit := (restrict_P L hok hpath hvals hsup hdi h2).1
      refine L.empty _ _ _ (hok _ _ hdi) hfit ?_
      intro x hx
      unfold Leaf.restrict at hx
      rw [hR] at hx
      obtain ⟨hx1, hx2⟩ := (Region.mem_inter x).1 hx
      exact disjoint_mem hpi hx2 hx1

include L hlen hok hpath hvals hsup in
/-- The contribution of one leaf. -/
theorem leaf_infer {q e : Query} (hq : QueryOK fits kind n q) (he : QueryOK fits kind n e) :
    l.infer o full q e = .ok (l.prior * (leafProb P l e * leafProb P l q), l.prior * leafProb P l e) := by
  unfold Leaf.infer
  rw [mult_eq L hlen hok hpath hvals hsup e 1 he.2]
  simp only [bind, Except.bind, pure, Except.pure, one_mul]
  by_cases ha : l.applies full q = true
  · rw [if_pos ha, mult_eq L hlen hok hpath hvals hsup q _ hq.2]
    simp only [Except.ok.injEq, Prod.mk.injEq]
    exact ⟨by ring, by ring⟩
  · rw [if_neg ha, leafProb_not_applies L hlen hok hpath hvals hsup hq ha]
    simp only [Except.ok.injEq, Prod.mk.injEq]
    exact ⟨by ring, by ring⟩

end leaf

theorem mapM_ok {α β : Type} {f : α → Except Err β} {g : α → β} {l : List α}
    (h : ∀ a ∈ l, f a = .ok (g a)) : l.mapM f = .ok (l.map g) := by
  induction l with
  | nil => rfl
  | cons a l ih =>
    rw [List.mapM_cons, h a (by simp), ih (fun b hb => h b (by simp [hb]))]
    rfl

/-- Terms that vanish outside a filter need not be summed. -/
theorem sum_filter {α : Type} (p : α → Bool) (f : α → ℚ) (l : List α)
    (h : ∀ a ∈ l, ¬ p a = true → f a = 0) : ((l.filter p).map f).sum = (l.map f).sum := by
  induction l with
  | nil => rfl
  | cons a l ih =>
    have ih' := ih (fun b hb => h b (by simp [hb]))
    by_cases hp : p a = true
    · rw [List.filter_cons_of_pos hp, List.map_cons, List.map_cons, List.sum_cons, List.sum_cons, ih']
    · rw [List.filter_cons_of_neg hp, List.map_cons, List.sum_cons, ih', h a (by simp) hp, zero_add]

theorem checkQuery_ok {q : Query} (hq : QueryOK fits kind n q) : checkQuery n q = .ok () := by
  unfold checkQuery
  rw [if_pos (fun e he => (hq.2 e he).1)]

/-- What `infer` computes. -/
theorem infer_eq (L : PLaws o ok fits P) (hT : TreeOK ok fits P kind full n h) {q e : Query}
    (hq : QueryOK fits kind n q) (he : QueryOK fits kind n e) (fail : Bool) :
    infer o n full h q e fail =
      if mass P h e = 0 then (if fail then .error .valueError else .ok none)
      else .ok (some ((h.leaves.map
        (fun l => l.2.prior * (leafProb P l.2 e * leafProb P l.2 q))).sum / mass P h e)) := by
  obtain ⟨ls, hls, hperm⟩ := apply_perm (q := e) hT.shape hT.noNone hT.fitted (fun i hi => (he.2 i hi).1)
  have hmem : ∀ l ∈ ls, l ∈ h.leaves := fun l hl => List.mem_of_mem_filter (hperm.mem_iff.1 hl)
  have hmap : ls.mapM (fun l => l.2.infer o full q e) = .ok (ls.map (fun l =>
      (l.2.prior * (leafProb P l.2 e * leafProb P l.2 q), l.2.prior * leafProb P l.2 e))) := by
    apply mapM_ok
    intro l hl
    have hm := hmem l hl
    exact leaf_infer L (hT.dists l hm).1 (hT.dists l hm).2 (hT.path l hm) hT.values (hT.support l hm) hq he
  have hz : ∀ l ∈ h.leaves, ¬ (l.2.path.all (fun s => passes e s.1 s.2)) = true →
      leafProb P l.2 e = 0 := by
    intro l hm hp
    exact leafProb_not_passes L (hT.dists l hm).1 (hT.dists l hm).2 (hT.path l hm) hT.values
      (hT.support l hm) he hp
  have hpe : (ls.map (fun l => l.2.prior * leafProb P l.2 e)).sum = mass P h e := by
    rw [(hperm.map _).sum_eq, sum_filter]
    · rfl
    · intro l hm hp
      rw [hz l hm hp, mul_zero]
  have hpq : (ls.map (fun l => l.2.prior * (leafProb P l.2 e * leafProb P l.2 q))).sum =
      (h.leaves.map (fun l => l.2.prior * (leafProb P l.2 e * leafProb P l.2 q))).sum := by
    rw [(hperm.map _).sum_eq, sum_filter]
    intro l hm hp
    rw [hz l hm hp, zero_mul, mul_zero]
  unfold infer
  rw [checkQuery_ok hq, checkQuery_ok he, hls]
  simp only [bind, Except.bind, pure, Except.pure]
  rw [hmap]
  simp only [List.map_map, Function.comp_def]
  rw [hpe, hpq]

theorem mass_nonneg (L : PLaws o ok fits P) (hT : TreeOK ok fits P kind full n h) {q : Query}
    (hq : QueryOK fits kind n q) : 0 ≤ mass P h q := by
  unfold mass
  apply List.sum_nonneg
  intro x hx
  obtain ⟨l, hl, rfl⟩ := List.mem_map.1 hx
  exact mul_nonneg (hT.prior l hl)
    (leafProb_nonneg L (hT.dists l hl).2 (fun i hi => (hq.2 i hi).2.1))

/-- The answer is between zero and one. -/
theorem infer_bounds (L : PLaws o ok fits P) (hT : TreeOK ok fits P kind full n h) {q e : Query}
    (hq : QueryOK fits kind n q) (he : QueryOK fits kind n e) :
    let s := (h.leaves.map (fun l => l.2.prior * (leafProb P l.2 e * leafProb P l.2 q))).sum
    0 ≤ s ∧ s ≤ mass P h e := by
  intro s
  refine ⟨?_, ?_⟩
  · apply List.sum_nonneg
    intro x hx
    obtain ⟨l, hl, rfl⟩ := List.mem_map.1 hx
    exact mul_nonneg (hT.prior l hl) (mul_nonneg
      (leafProb_nonneg L (hT.dists l hl).2 (fun i hi => (he.2 i hi).2.1))
      (leafProb_nonneg L (hT.dists l hl).2 (fun i hi => (hq.2 i hi).2.1)))
  · apply List.sum_le_sum
    intro l hl
    apply mul_le_mul_of_nonneg_left _ (hT.prior l hl)
    have h1 := leafProb_nonneg L (hT.dists l hl).2 (fun i hi => (he.2 i hi).2.1)
    have h2 := leafProb_le_one L (hT.dists l hl).2 (fun i hi => (hq.2 i hi).2.1)
    calc leafProb P l.2 e * leafProb P l.2 q ≤ leafProb P l.2 e * 1 :=
          mul_le_mul_of_nonneg_left h2 h1
      _ = leafProb P l.2 e := mul_one _

end Verif.Trees
