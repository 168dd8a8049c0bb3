import Verif.Trees.Lemmas11
import Verif.Trees.Lemmas4
import Verif.Trees.Lemmas5

/-! # Lemmas on pruning: one round -/

namespace Verif.Trees

variable {D E K : Type} {o : DistOps D E} {ok : K → D → Prop} {fits : K → Region → Prop}
  {P : D → Region → ℚ} {kind : ℕ → K} {full : ℕ → Region} {n : ℕ} {h : Heap D}
  {id il ir : ℕ} {nd : Inner} {l r m : Leaf D}

theorem swap_none {a b : ℕ} {x : Inner} (hx : some a ∉ x.children) : x.swap a b = x := by
  unfold Inner.swap
  have : x.children.map (fun c => if c = some a then some b else c) = x.children := by
    conv_rhs => rw [← List.map_id x.children]
    apply List.map_congr_left
    intro c hc
    rw [if_neg]
    · rfl
    · rintro rfl; exact hx hc
  rw [this]

theorem swap_set {a b i : ℕ} {x : Inner} (hi : x.children[i]? = some (some a))
    (hu : ∀ i' : ℕ, x.children[i']? = some (some a) → i' = i) : x.swap a b = x.setChild i b := by
  unfold Inner.swap Inner.setChild
  have : x.children.map (fun c => if c = some a then some b else c) = x.children.set i (some b) := by
    apply List.ext_getElem?
    intro j
    rw [List.getElem?_map, List.getElem?_set]
    by_cases hj : i = j
    · subst hj
      have hlt : i < x.children.length := by
        by_contra hc
        rw [List.getElem?_eq_none (by omega)] at hi
        cases hi
      rw [if_pos rfl, if_pos hlt, hi]
      simp
    · rw [if_neg hj]
      cases hc : x.children[j]? with
      | none => rfl
      | some c =>
        rw [Option.map_some, if_neg]
        rintro rfl
        exact hj (hu j hc).symm
  rw [this]

theorem set_eq_map {α : Type} {d : List (ℕ × α)} (hd : Dict.WF d) {k : ℕ} {f : α → α} {a : α}
    (hk : d.lookup k = some a) (hf : ∀ p ∈ d, p.1 ≠ k → f p.2 = p.2) :
    Dict.set d k (f a) = d.map (fun p => (p.1, f p.2)) := by
  unfold Dict.set
  rw [if_pos (Dict.lookup_isSome.1 ⟨a, hk⟩)]
  apply List.map_congr_left
  intro p hp
  by_cases hpk : p.1 = k
  · rw [if_pos hpk]
    have : d.lookup p.1 = some p.2 := Dict.mem_lookup hd hp
    rw [hpk, hk] at this
    cases this
    rw [hpk]
  · rw [if_neg hpk, hf p hp hpk]

/-- What `replace` does. -/
theorem replace_eq (S : Siblings h id il ir nd l r) (hs : Shape h) (hm : m.parent = nd.parent)
    (hmp : m.path = []) : replace h id nd il ir m
      = .ok (collapse h id il ir { m with path := nd.path }, nd.parent.toList) := by
  have hne := S.ne hs
  have hd1 : Dict.del h.leaves il = .ok (h.leaves.filter (fun a => decide (a.1 ≠ il))) := by
    unfold Dict.del
    rw [if_pos (Dict.lookup_isSome.1 ⟨l, S.left⟩)]
  have hd2 : Dict.del (h.leaves.filter (fun a => decide (a.1 ≠ il))) ir
      = .ok ((h.leaves.filter (fun a => decide (a.1 ≠ il))).filter (fun a => decide (a.1 ≠ ir))) := by
    unfold Dict.del
    rw [if_pos]
    apply Dict.lookup_isSome.1
    refine ⟨r, ?_⟩
    rw [Dict.lookup_filter, if_neg hne.symm]
    exact S.right
  have hd3 : Dict.del h.inner id = .ok (h.inner.filter (fun a => decide (a.1 ≠ id))) := by
    unfold Dict.del
    rw [if_pos (Dict.lookup_isSome.1 ⟨nd, S.node⟩)]
  have hset : ∀ x, Dict.set ((h.leaves.filter (fun a => decide (a.1 ≠ il))).filter (fun a => decide (a.1 ≠ ir)))
      h.newIdx x = (h.leaves.filter (fun a => decide (a.1 ≠ il))).filter (fun a => decide (a.1 ≠ ir))
        ++ [(h.newIdx, x)] := by
    intro x
    unfold Dict.set
    rw [if_neg]
    intro hx
    apply newIdx_not_mem (h := h)
    unfold Heap.ids
    exact List.mem_append.2 (.inr (((List.filter_sublist.trans List.filter_sublist).map Prod.fst).subset hx))
  have hwf : Dict.WF h.inner := (List.nodup_append.1 hs.nodup).1
  unfold replace
  simp only [hd1, hd2, hd3, bind, Except.bind]
  cases hp : nd.parent with
  | none =>
    have hat := S.idAt
    rw [hp] at hat
    obtain ⟨h1, h2⟩ := hs.parents _ _ hat
    simp only [pure, Except.pure, hset, Option.toList]
    have e : (h.inner.filter (fun a => decide (a.1 ≠ id))).map (fun a => (a.1, a.2.swap id h.newIdx))
        = h.inner.filter (fun a => decide (a.1 ≠ id)) := by
      conv_rhs => rw [← List.map_id (h.inner.filter (fun a => decide (a.1 ≠ id)))]
      apply List.map_congr_left
      intro a ha
      rw [swap_none]
      · rfl
      · intro hc
        have hl := Dict.mem_lookup hwf (List.mem_filter.1 ha).1
        have := (child_iff hs hl hat).1 hc
        cases this
    unfold collapse
    rw [e, if_pos h1, h2]
    obtain ⟨q1, q2, q3, q4, q5, q6⟩ := m
    simp only at hmp
    subst hmp
    rfl
  | some p =>
    have hat := S.idAt
    rw [hp] at hat
    obtain ⟨pn, i, h1, h2⟩ := hs.parents' _ _ _ hat
    obtain ⟨h3, s, h4, h5⟩ := hs.kids p pn i id h1 h2
    have hu : ∀ i' : ℕ, pn.children[i']? = some (some id) → i' = i := fun i' hi' =>
      hs.once p pn i' i id h1 hi' h2
    have hlk : (h.inner.filter (fun a => decide (a.1 ≠ id))).lookup p = some pn := by
      rw [Dict.lookup_filter, if_neg (by omega), h1]
    have hlt : i < pn.children.length := by
      by_contra hc
      rw [List.getElem?_eq_none (by omega)] at h2
      cases h2
    simp only [hlk, idxOf_child h2 hu, Heap.attach, h4, hlt, if_true, pure, Except.pure, hset, Option.toList]
    have e : Dict.set (h.inner.filter (fun a => decide (a.1 ≠ id))) p (pn.setChild i h.newIdx)
        = (h.inner.filter (fun a => decide (a.1 ≠ id))).map (fun a => (a.1, a.2.swap id h.newIdx)) := by
      rw [← swap_set h2 hu]
      refine set_eq_map (Dict.wf_filter hwf id) hlk ?_
      intro a ha hap
      rw [swap_none]
      intro hc
      have hl := Dict.mem_lookup hwf (List.mem_filter.1 ha).1
      have := (child_iff hs hl hat).1 hc
      injection this with this
      exact hap this.symm
    have hroot : h.root ≠ some id := by
      intro hr
      have := (nodeAt_unique hs hat (hs.root _ hr)).1
      cases this
    have hpath := (nodeAt_unique hs hat h5).2
    unfold collapse
    rw [e, if_neg hroot, hpath]

/-! ## The merged leaf -/

theorem dist_of {l : Leaf D} (hd : l.dists.length = n) {v : ℕ} (hv : v < n) :
    ∃ d, l.dist v = .ok d ∧ l.dists[v]? = some d := by
  obtain ⟨d, hd'⟩ : ∃ d, l.dists[v]? = some d := ⟨l.dists[v]'(by omega), List.getElem?_eq_getElem (by omega)⟩
  exact ⟨d, by unfold Leaf.dist; rw [hd'], hd'⟩

/-- The merged leaf: its distributions are the mixtures. -/
theorem merged_spec (L : Laws o ok fits P)
    (hl : l.dists.length = n ∧ ∀ (v : ℕ) (d : D), l.dists[v]? = some d → ok (kind v) d)
    (hr : r.dists.length = n ∧ ∀ (v : ℕ) (d : D), r.dists[v]? = some d → ok (kind v) d)
    (hpl : 0 < l.prior) (hpr : 0 < r.prior) (nd : Inner) :
    ∃ m, mergedLeaf o n nd l r = .ok m ∧ m.parent = nd.parent ∧ m.path = [] ∧
      m.prior = l.prior + r.prior ∧ m.samples = l.samples + r.samples ∧ m.dists.length = n ∧
      (∀ (v : ℕ) (d : D), m.dists[v]? = some d → ok (kind v) d) ∧
      ∀ (v : ℕ) (d dl dr : D), m.dists[v]? = some d → l.dists[v]? = some dl → r.dists[v]? = some dr →
        ∀ s, fits (kind v) s → P d s * (l.prior + r.prior) = l.prior * P dl s + r.prior * P dr s := by
  have hnorm : Ut.normValues false false 0 [l.prior, r.prior]
      = .ok [l.prior / (l.prior + r.prior), r.prior / (l.prior + r.prior)] := by
    have hnn : ∀ v ∈ [l.prior, r.prior], 0 ≤ v := by
      intro v hv
      simp only [List.mem_cons, List.not_mem_nil, or_false] at hv
      rcases hv with rfl | rfl
      · exact hpl.le
      · exact hpr.le
    have hsum : [l.prior, r.prior].sum = l.prior + r.prior := by simp
    rw [Disc.normValues_nonneg _ hnn, hsum, if_neg (by linarith)]
    rfl
  have hpos : (0 : ℚ) < l.prior + r.prior := by linarith
  have hat : ∀ v ∈ List.range n, ∃ d, mergeAt o l r v = .ok d ∧ (ok (kind v) d ∧
      ∀ dl dr, l.dists[v]? = some dl → r.dists[v]? = some dr →
        ∀ s, fits (kind v) s → P d s * (l.prior + r.prior) = l.prior * P dl s + r.prior * P dr s) := by
    intro v hv
    rw [List.mem_range] at hv
    obtain ⟨dl, e1, e2⟩ := dist_of hl.1 hv
    obtain ⟨dr, e3, e4⟩ := dist_of hr.1 hv
    obtain ⟨d, m1, m2, m3⟩ := L.merge (kind v) [dl, dr]
      [l.prior / (l.prior + r.prior), r.prior / (l.prior + r.prior)] (by simp)
      (by
        intro d hd
        simp only [List.mem_cons, List.not_mem_nil, or_false] at hd
        rcases hd with rfl | rfl
        · exact hl.2 v _ e2
        · exact hr.2 v _ e4) rfl
      (by
        intro w hw
        simp only [List.mem_cons, List.not_mem_nil, or_false] at hw
        rcases hw with rfl | rfl
        · exact div_nonneg hpl.le hpos.le
        · exact div_nonneg hpr.le hpos.le)
      (by
        simp only [List.sum_cons, List.sum_nil, add_zero]
        rw [← add_div, div_self hpos.ne'])
    refine ⟨d, ?_, m2, ?_⟩
    · unfold mergeAt
      rw [e1, e3, hnorm]
      exact m1
    · intro dl' dr' h1 h2 s hs
      rw [e2] at h1
      rw [e4] at h2
      cases h1
      cases h2
      rw [m3 s hs]
      simp only [List.zipWith_cons_cons, List.zipWith_nil_right, List.sum_cons, List.sum_nil, add_zero]
      rw [add_mul, mul_right_comm, mul_right_comm (r.prior / _), div_mul_cancel₀ _ hpos.ne',
        div_mul_cancel₀ _ hpos.ne']
  obtain ⟨ds, d1, d2⟩ := mapM_forall hat
  have hlen : ds.length = n := by
    have := d2.length_eq
    rw [List.length_range] at this
    exact this.symm
  have hget : ∀ (v : ℕ) (d : D), ds[v]? = some d → ok (kind v) d ∧
      ∀ dl dr, l.dists[v]? = some dl → r.dists[v]? = some dr →
        ∀ s, fits (kind v) s → P d s * (l.prior + r.prior) = l.prior * P dl s + r.prior * P dr s := by
    intro v d hd
    have hv : v < n := by
      by_contra hc
      rw [List.getElem?_eq_none (by omega)] at hd
      cases hd
    have h1 := (List.forall₂_iff_get.1 d2).2 v (by rw [List.length_range]; exact hv) (by omega)
    have h2 : ds.get ⟨v, by omega⟩ = d := by
      rw [List.getElem?_eq_getElem (by omega)] at hd
      injection hd
    rw [h2] at h1
    simpa using h1
  refine ⟨⟨nd.parent, [], ds, l.prior + r.prior, l.samples + r.samples, []⟩, ?_, rfl, rfl, rfl, rfl, hlen,
    fun v d hd => (hget v d hd).1, fun v d dl dr hd h1 h2 => (hget v d hd).2 dl dr h1 h2⟩
  unfold mergedLeaf
  rw [d1]
  rfl

end Verif.Trees
