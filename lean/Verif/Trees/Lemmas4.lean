import Verif.Trees.Lemmas3
import Mathlib.Data.List.Forall2

/-!
# `posterior`
-/

namespace Verif.Trees

variable {D E K : Type} {o : DistOps D E} {ok : K → D → Prop} {fits : K → Region → Prop}
  {P : D → Region → ℚ} {kind : ℕ → K} {full : ℕ → Region} {n : ℕ} {h : Heap D}

theorem mapM_forall {α β : Type} {f : α → Except Err β} {R : α → β → Prop} {l : List α}
    (h : ∀ a ∈ l, ∃ b, f a = .ok b ∧ R a b) : ∃ bs, l.mapM f = .ok bs ∧ List.Forall₂ R l bs := by
  induction l with
  | nil => exact ⟨[], rfl, .nil⟩
  | cons a l ih =>
    obtain ⟨b, h1, h2⟩ := h a (by simp)
    obtain ⟨bs, h3, h4⟩ := ih (fun b hb => h b (by simp [hb]))
    refine ⟨b :: bs, ?_, .cons h2 h4⟩
    rw [List.mapM_cons, h1, h3]
    rfl

/-- What a contribution must be. -/
def Contrib (ok : K → D → Prop) (fits : K → Region → Prop) (P : D → Region → ℚ) (kind : ℕ → K)
    (vs : List ℕ) (e : Query) (l : ℕ × Leaf D) (c : ℚ × List D) : Prop :=
  c.1 = leafProb P l.2 e * l.2.prior ∧
  List.Forall₂ (fun v d => ok (kind v) d ∧ (e.lookup v = none → l.2.dists[v]? = some d) ∧
    ∀ S, fits (kind v) S → P d S = condProb P l.2 e v S) vs c.2

theorem contributions (vs : List ℕ) (e : Query) (ls : List (ℕ × Leaf D))
    (hev : ∀ l ∈ ls, l.2.evidence o full e =
      .ok (if leafProb P l.2 e = 0 then none else some (leafProb P l.2 e)))
    (hpo : ∀ l ∈ ls, leafProb P l.2 e ≠ 0 → ∀ v ∈ vs, ∃ d', l.2.posterior o full e v = .ok d' ∧
      ok (kind v) d' ∧ (e.lookup v = none → l.2.dists[v]? = some d') ∧
        ∀ S, fits (kind v) S → P d' S = condProb P l.2 e v S) :
    ∃ cs, ls.mapM (fun l => l.2.contribution o full vs e) = .ok cs ∧
      List.Forall₂ (Contrib ok fits P kind vs e)
        (ls.filter (fun l => decide (leafProb P l.2 e ≠ 0))) (cs.filterMap id) := by
  induction ls with
  | nil => exact ⟨[], rfl, .nil⟩
  | cons l ls ih =>
    obtain ⟨cs, h1, h2⟩ := ih (fun a ha => hev a (by simp [ha])) (fun a ha => hpo a (by simp [ha]))
    have hl := hev l (by simp)
    by_cases hz : leafProb P l.2 e = 0
    · refine ⟨none :: cs, ?_, ?_⟩
      · rw [List.mapM_cons, h1]
        unfold Leaf.contribution
        rw [hl, if_pos hz]
        rfl
      · rw [List.filter_cons_of_neg (by simp [hz])]
        exact h2
    · obtain ⟨ds, h3, h4⟩ := mapM_forall (hpo l (by simp) hz)
      refine ⟨some (leafProb P l.2 e * l.2.prior, ds) :: cs, ?_, ?_⟩
      · rw [List.mapM_cons, h1]
        unfold Leaf.contribution
        rw [hl, if_neg hz]
        simp only [bind, Except.bind, pure, Except.pure]
        rw [h3]
      · rw [List.filter_cons_of_pos (by simp [hz])]
        exact .cons ⟨rfl, h4⟩ h2

theorem contrib_column {vs : List ℕ} {e : Query} {A : List (ℕ × Leaf D)} {cs : List (ℚ × List D)}
    (hc : List.Forall₂ (Contrib ok fits P kind vs e) A cs) {i v : ℕ} (hv : vs[i]? = some v) :
    List.Forall₂ (fun l d => ok (kind v) d ∧ (e.lookup v = none → l.2.dists[v]? = some d) ∧
    ∀ S, fits (kind v) S → P d S = condProb P l.2 e v S)
      A (cs.filterMap (fun c => c.2[i]?)) := by
  induction hc with
  | nil => exact .nil
  | @cons l c A cs h1 _ ih =>
    have hlen := h1.2.length_eq
    have hi : i < vs.length := by
      rw [List.getElem?_eq_some_iff] at hv
      exact hv.1
    have hd : c.2[i]? = some (c.2[i]'(by omega)) := List.getElem?_eq_getElem (by omega)
    rw [List.filterMap_cons, hd]
    refine .cons ?_ ih
    have := h1.2.get (i := i) hi (by omega)
    simp only [List.get_eq_getElem] at this
    have hv' : vs[i] = v := by
      rw [List.getElem?_eq_some_iff] at hv
      exact hv.2
    rw [hv'] at this
    exact this

theorem contrib_weights {vs : List ℕ} {e : Query} {A : List (ℕ × Leaf D)} {cs : List (ℚ × List D)}
    (hc : List.Forall₂ (Contrib ok fits P kind vs e) A cs) :
    cs.map Prod.fst = A.map (fun l => leafProb P l.2 e * l.2.prior) := by
  induction hc with
  | nil => rfl
  | cons h1 _ ih => rw [List.map_cons, List.map_cons, ih, h1.1]

theorem mix_sum {e : Query} {v : ℕ} {A : List (ℕ × Leaf D)} {ds : List D} (m : ℚ) {S : Region}
    (hS : fits (kind v) S)
    (hc : List.Forall₂ (fun l d => ok (kind v) d ∧ (e.lookup v = none → l.2.dists[v]? = some d) ∧
    ∀ S, fits (kind v) S → P d S = condProb P l.2 e v S)
      A ds) :
    (List.zipWith (fun d w => w * P d S) ds
      ((A.map (fun l => leafProb P l.2 e * l.2.prior)).map (· / m))).sum =
      (A.map (fun l => l.2.prior * (leafProb P l.2 e * condProb P l.2 e v S))).sum / m := by
  induction hc with
  | nil => simp
  | cons h1 _ ih =>
    simp only [List.map_cons, List.zipWith_cons_cons, List.sum_cons]
    rw [ih, h1.2.2 S hS]
    ring

theorem zipIdx_mapM {β : Type} {f : ℕ × ℕ → Except Err β} {R : ℕ → β → Prop} {vs : List ℕ}
    (h : ∀ (i v : ℕ), vs[i]? = some v → ∃ b, f (v, i) = .ok b ∧ R v b) :
    ∃ bs, vs.zipIdx.mapM f = .ok bs ∧ List.Forall₂ R vs bs := by
  obtain ⟨bs, h1, h2⟩ := mapM_forall (f := f) (R := fun vi b => R vi.1 b) (l := vs.zipIdx) (by
    rintro ⟨v, i⟩ hm
    rw [List.mem_zipIdx_iff_getElem?] at hm
    exact h i v hm)
  refine ⟨bs, h1, ?_⟩
  have := List.forall₂_map_left_iff (f := Prod.fst) (R := R) (l := vs.zipIdx) (u := bs) |>.2 h2
  rw [List.zipIdx_map_fst] at this
  exact this

/-- What `posterior` computes. -/
theorem posterior_each {A : K → Prop} (L : LawsOn o ok fits P A) (hT : TreeOK ok fits P kind full n h) {vs : List ℕ}
    {e : Query} (he : QueryOK fits kind n e)
    (hlik : ∀ l ∈ h.leaves, ∀ i ∈ e, ∀ d, l.2.dists[i.1]? = some d →
      lik o d (l.2.restrict full i.1 i.2) = .ok (P d i.2))
    (hpost : ∀ l ∈ h.leaves, leafProb P l.2 e ≠ 0 → ∀ v ∈ vs, ∃ d', l.2.posterior o full e v = .ok d' ∧
      ok (kind v) d' ∧ (e.lookup v = none → l.2.dists[v]? = some d') ∧
      ∀ S, fits (kind v) S → P d' S = condProb P l.2 e v S) :
    (mass P h e = 0 → posterior o n full h vs e = .error .unsatisfiable) ∧
    (mass P h e ≠ 0 → ∃ ds, posterior o n full h vs e = .ok ds ∧
      List.Forall₂ (fun v b => b.1 = v ∧ o.reload b.2 = .ok b.2 ∧
        (A (kind v) → ok (kind v) b.2 ∧ ∀ S, fits (kind v) S → P b.2 S * mass P h e =
          (h.leaves.map (fun l => l.2.prior * (leafProb P l.2 e * condProb P l.2 e v S))).sum) ∧
        ∃ (ls : List (ℕ × Leaf D)) (col : List D),
          ls.Perm (h.leaves.filter (fun l => decide (leafProb P l.2 e ≠ 0))) ∧
          List.Forall₂ (fun l d => ok (kind v) d ∧ (e.lookup v = none → l.2.dists[v]? = some d) ∧
            ∀ S, fits (kind v) S → P d S = condProb P l.2 e v S) ls col ∧
          o.merge col (ls.map (fun l => leafProb P l.2 e * l.2.prior / mass P h e)) = .ok b.2) vs ds) := by
  obtain ⟨ls, hls, hperm⟩ := apply_perm (q := e) hT.shape hT.noNone hT.fitted (fun i hi => (he.2 i hi).1)
  have hmem : ∀ l ∈ ls, l ∈ h.leaves := fun l hl => List.mem_of_mem_filter (hperm.mem_iff.1 hl)
  obtain ⟨cs, hcs, hC⟩ := contributions (o := o) (full := full) (P := P) (ok := ok) (fits := fits)
    (kind := kind) vs e ls
    (by
      intro l hl
      have hm := hmem l hl
      exact evidence_eq (hT.dists l hm).1 he (hlik l hm))
    (by
      intro l hl hz v hv
      have hm := hmem l hl
      exact hpost l hm hz v hv)
  have hz : ∀ l ∈ h.leaves, ¬ (l.2.path.all (fun s => passes e s.1 s.2)) = true →
      leafProb P l.2 e = 0 := by
    intro l hm hp
    exact leafProb_not_passes L.toPLaws (hT.dists l hm).1 (hT.dists l hm).2 (hT.path l hm) hT.values
      (hT.support l hm) he hp
  have hsum : ∀ f : ℕ × Leaf D → ℚ, (∀ l, leafProb P l.2 e = 0 → f l = 0) →
      ((ls.filter (fun l => decide (leafProb P l.2 e ≠ 0))).map f).sum = (h.leaves.map f).sum := by
    intro f hf
    rw [sum_filter _ f ls (fun l _ hl => hf l (by simpa using hl)), (hperm.map _).sum_eq]
    exact sum_filter _ f _ (fun l hm hp => hf l (hz l hm hp))
  have hw := contrib_weights hC
  have hmass : ((cs.filterMap id).map Prod.fst).sum = mass P h e := by
    rw [hw, hsum _ (fun l hl => by rw [hl, zero_mul])]
    unfold mass
    congr 1
    apply List.map_congr_left
    intro l _
    ring
  have hnn : ∀ w ∈ (cs.filterMap id).map Prod.fst, 0 ≤ w := by
    rw [hw]
    intro w hwm
    obtain ⟨l, hl, rfl⟩ := List.mem_map.1 hwm
    have hm := hmem l (List.mem_of_mem_filter hl)
    exact mul_nonneg (leafProb_nonneg L.toPLaws (hT.dists l hm).2 (fun i hi => (he.2 i hi).2.1)) (hT.prior l hm)
  have hnorm := Disc.normValues_nonneg _ hnn
  rw [hmass] at hnorm
  have hpost : posterior o n full h vs e = (do
      let ws ← weightsOf ((cs.filterMap id).map Prod.fst)
      vs.zipIdx.mapM (fun vi => do
        let d ← o.merge ((cs.filterMap id).filterMap (fun c => c.2[vi.2]?)) ws
        return (vi.1, d))) := by
    unfold posterior
    rw [checkQuery_ok he, hls]
    simp only [bind, Except.bind]
    rw [hcs]
  constructor
  · intro h0
    rw [hpost]
    rw [if_pos h0] at hnorm
    unfold weightsOf
    rw [hnorm]
    rfl
  · intro h0
    rw [if_neg h0] at hnorm
    have hwo : weightsOf ((cs.filterMap id).map Prod.fst) =
        .ok (((cs.filterMap id).map Prod.fst).map (· / mass P h e)) := by
      unfold weightsOf
      rw [hnorm]
    rw [hpost, hwo]
    simp only [bind, Except.bind]
    have hpos : 0 < mass P h e := lt_of_le_of_ne (mass_nonneg L.toPLaws hT he) (Ne.symm h0)
    have hne : cs.filterMap id ≠ [] := by
      intro hnil
      rw [hnil] at hmass
      exact h0 hmass.symm
    refine zipIdx_mapM (R := fun (v : ℕ) (b : ℕ × D) => b.1 = v ∧ o.reload b.2 = .ok b.2 ∧
        (A (kind v) → ok (kind v) b.2 ∧ ∀ S, fits (kind v) S → P b.2 S * mass P h e =
          (h.leaves.map (fun l => l.2.prior * (leafProb P l.2 e * condProb P l.2 e v S))).sum) ∧
        ∃ (ls : List (ℕ × Leaf D)) (col : List D),
          ls.Perm (h.leaves.filter (fun l => decide (leafProb P l.2 e ≠ 0))) ∧
          List.Forall₂ (fun l d => ok (kind v) d ∧ (e.lookup v = none → l.2.dists[v]? = some d) ∧
            ∀ S, fits (kind v) S → P d S = condProb P l.2 e v S) ls col ∧
          o.merge col (ls.map (fun l => leafProb P l.2 e * l.2.prior / mass P h e)) = .ok b.2) ?_
    intro i v hv
    have hcol := contrib_column hC hv
    have hlen1 := hcol.length_eq
    have hlen2 := hC.length_eq
    set col := (cs.filterMap id).filterMap (fun c => c.2[i]?) with hcoldef
    set ws := ((cs.filterMap id).map Prod.fst).map (· / mass P h e) with hwsdef
    have k1 : col ≠ [] := by
      intro hnil
      rw [hnil] at hlen1
      rw [hlen1] at hlen2
      exact hne (List.length_eq_zero_iff.1 hlen2.symm)
    have k2 : ∀ d ∈ col, ok (kind v) d := by
      intro d hd
      obtain ⟨j, hj⟩ := List.getElem?_of_mem hd
      rw [List.getElem?_eq_some_iff] at hj
      obtain ⟨hj1, hj2⟩ := hj
      have := hcol.get (i := j) (by omega) hj1
      simp only [List.get_eq_getElem] at this
      rw [hj2] at this
      exact this.1
    have k3 : ws.length = col.length := by
      rw [hwsdef, List.length_map, List.length_map, ← hlen1, ← hlen2]
    have k4 : ∀ w ∈ ws, 0 ≤ w := by
      intro w hwm
      obtain ⟨x, hx, rfl⟩ := List.mem_map.1 hwm
      exact div_nonneg (hnn x hx) hpos.le
    have k5 : ws.sum = 1 := by
      have hdiv : ∀ (l : List ℚ) (m : ℚ), (l.map (· / m)).sum = l.sum / m := by
        intro l m
        induction l with
        | nil => simp
        | cons a l ih => rw [List.map_cons, List.sum_cons, List.sum_cons, ih, add_div]
      rw [hwsdef, hdiv, hmass, div_self h0]
    obtain ⟨d', h1, hre⟩ := L.mergeable (kind v) col ws k1 k2 k3 k4 k5
    rw [h1]
    refine ⟨(v, d'), rfl, rfl, hre, ?_, ls.filter (fun l => decide (leafProb P l.2 e ≠ 0)), col, ?_, hcol, ?_⟩
    · intro hAv
      obtain ⟨d'', h1', h2, h3⟩ := L.merge (kind v) col ws hAv k1 k2 k3 k4 k5
      obtain rfl : d' = d'' := by rw [h1] at h1'; injection h1'
      refine ⟨h2, fun S hS => ?_⟩
      simp only
      rw [h3 S hS, hwsdef, hw, mix_sum _ hS hcol, hsum _ (fun l hl => by rw [hl, zero_mul, mul_zero]),
        div_mul_cancel₀ _ h0]
    · refine (hperm.filter _).trans ?_
      rw [List.filter_filter]
      refine List.Perm.of_eq (List.filter_congr ?_)
      intro l hl
      by_cases hp : (l.2.path.all (fun s => passes e s.1 s.2)) = true
      · simp [hp]
      · simp [hz l hl hp]
    · rw [← h1]
      congr 1
      rw [hwsdef, hw, List.map_map]
      rfl

/-- The same with the conditioning laws. -/
theorem posterior_on {A : K → Prop} (L : LawsOn o ok fits P A) (hT : TreeOK ok fits P kind full n h) {vs : List ℕ}
    {e : Query} (he : QueryOK fits kind n e) (hvs : ∀ v ∈ vs, v < n)
    (hA : ∀ v ∈ vs, ∀ r, e.lookup v = some r → A (kind v))
    (hlik : ∀ l ∈ h.leaves, ∀ i ∈ e, ∀ d, l.2.dists[i.1]? = some d →
      lik o d (l.2.restrict full i.1 i.2) = .ok (P d i.2))
    (hsee : ∀ l ∈ h.leaves, leafProb P l.2 e ≠ 0 → ∀ v ∈ vs, ∀ r, e.lookup v = some r →
      v ∈ l.2.path.map Prod.fst ∨ ∀ d, l.2.dists[v]? = some d → P d r = 1) :
    (mass P h e = 0 → posterior o n full h vs e = .error .unsatisfiable) ∧
    (mass P h e ≠ 0 → ∃ ds, posterior o n full h vs e = .ok ds ∧
      List.Forall₂ (fun v b => b.1 = v ∧ o.reload b.2 = .ok b.2 ∧
        (A (kind v) → ok (kind v) b.2 ∧ ∀ S, fits (kind v) S → P b.2 S * mass P h e =
          (h.leaves.map (fun l => l.2.prior * (leafProb P l.2 e * condProb P l.2 e v S))).sum) ∧
        ∃ (ls : List (ℕ × Leaf D)) (col : List D),
          ls.Perm (h.leaves.filter (fun l => decide (leafProb P l.2 e ≠ 0))) ∧
          List.Forall₂ (fun l d => ok (kind v) d ∧ (e.lookup v = none → l.2.dists[v]? = some d) ∧
            ∀ S, fits (kind v) S → P d S = condProb P l.2 e v S) ls col ∧
          o.merge col (ls.map (fun l => leafProb P l.2 e * l.2.prior / mass P h e)) = .ok b.2) vs ds) := by
  refine posterior_each L hT he hlik ?_
  intro l hm hz v hv
  exact leaf_posterior L (hT.dists l hm).1 (hT.dists l hm).2 (hT.path l hm) hT.values
    (hT.support l hm) he hz (hvs v hv) (hA v hv) (hsee l hm hz v hv)

/-- What `posterior` computes, if all kinds of distributions can be conditioned and merged. -/
theorem posterior_eq (L : Laws o ok fits P) (hT : TreeOK ok fits P kind full n h) {vs : List ℕ}
    {e : Query} (he : QueryOK fits kind n e) (hvs : ∀ v ∈ vs, v < n)
    (hpt : ∀ l ∈ h.leaves, ∀ i ∈ e, (l.2.restrict full i.1 i.2).point = none)
    (hsee : ∀ l ∈ h.leaves, leafProb P l.2 e ≠ 0 → ∀ v ∈ vs, ∀ r, e.lookup v = some r →
      v ∈ l.2.path.map Prod.fst ∨ ∀ d, l.2.dists[v]? = some d → P d r = 1) :
    (mass P h e = 0 → posterior o n full h vs e = .error .unsatisfiable) ∧
    (mass P h e ≠ 0 → ∃ ds, posterior o n full h vs e = .ok ds ∧
      List.Forall₂ (fun v b => b.1 = v ∧ ok (kind v) b.2 ∧ ∀ S, fits (kind v) S →
        P b.2 S * mass P h e =
          (h.leaves.map (fun l => l.2.prior * (leafProb P l.2 e * condProb P l.2 e v S))).sum) vs ds) := by
  obtain ⟨h1, h2⟩ := posterior_on L.on hT he hvs (fun _ _ _ _ => trivial) (fun l hl i hi d hd =>
    lik_eq L.on (hT.dists l hl).2 (hT.path l hl) hT.values (hT.support l hl) hd (he.2 i hi).2.1 (hpt l hl i hi)) hsee
  refine ⟨h1, fun hm => ?_⟩
  obtain ⟨ds, h3, h4⟩ := h2 hm
  exact ⟨ds, h3, h4.imp (fun _ _ h => ⟨h.1, h.2.2.1 trivial⟩)⟩

end Verif.Trees
