import Verif.Seq.Lemmas3
import Verif.Seq.Spec

/-!
# Grounding, and the distributions of all steps
-/

namespace Verif.Seq

open Trees Learn

variable {D E K : Type} {o : DistOps D E} {ok : K → D → Prop} {fits : K → Region → Prop}
  {P : D → Region → ℚ} {kind : ℕ → K} {full : ℕ → Region} {n : ℕ} {h : Heap D}

theorem smooth_smoothed {d : List ℚ} (h0 : ∀ x ∈ d, 0 ≤ x) (h1 : ∃ x ∈ d, x ≠ 0) :
    ∃ r, smooth d = .ok r ∧ Smoothed d r ∧ r.length = d.length ∧ ∀ x ∈ r, 0 < x := by
  obtain ⟨m, ⟨v, hv1, hv2, hv3⟩, hmin, h4, -, -⟩ :=
    Ut.C20_normalized_zeros (K := ℕ) false false (1 / 10) (by norm_num) d (.inl h0) h1
  obtain ⟨r, h5, h6, h7⟩ := smooth_ok h0 h1
  refine ⟨r, h5, ?_, h6, h7⟩
  have hm : m = v := by rw [hv3, abs_of_nonneg (h0 v hv1)]
  have hpos : 0 < m := by rw [hm]; exact lt_of_le_of_ne (h0 v hv1) (Ne.symm hv2)
  change Except.map Ut.Dist.list (Ut.normValues false false (1 / 10) d) = _ at h4
  unfold smooth at h5
  rw [h5] at h4
  simp only [Except.map, Except.ok.injEq, Ut.Dist.list.injEq] at h4
  have hsum : 0 < Ut.absSum (d.map (fun v => if v = 0 then m * (1 / 10) else v)) := by
    unfold Ut.absSum
    refine lt_of_lt_of_le hpos ?_
    apply List.single_le_sum
    · intro x hx
      obtain ⟨z, _, rfl⟩ := List.mem_map.1 hx
      exact abs_nonneg z
    · refine List.mem_map.2 ⟨m, List.mem_map.2 ⟨v, hv1, ?_⟩, abs_of_pos hpos⟩
      rw [if_neg hv2, hm]
  refine ⟨m, 1 / Ut.absSum (d.map (fun v => if v = 0 then m * (1 / 10) else v)), hm ▸ hv1, hpos, ?_,
    by positivity, ?_⟩
  · intro x hx hx0
    have := hmin x hx hx0
    rwa [abs_of_nonneg (h0 x hx)] at this
  · rw [h4, List.map_map]
    apply List.map_congr_left
    intro x _
    simp only [Function.comp]
    rw [one_div_mul_eq_div, show m * (1 / 10) = m / 10 by ring]

/-- The tree of one step. -/
structure StepTree (fits : K → Region → Prop) (P : D → Region → ℚ) (kind : ℕ → K) (n : ℕ) (h : Heap D)
    (e : Query) (c : Heap D) : Prop where
  keys : c.leaves.map Prod.fst = (h.leaves.filter (fun l => decide (0 < leafProb P l.2 e))).map Prod.fst
    ∨ c.leaves.map Prod.fst = h.leaves.map Prod.fst
  prior : ∀ l ∈ c.leaves, 0 ≤ l.2.prior
  sum : (c.leaves.map (fun l => l.2.prior)).sum = 1
  factor : priorFactor (h.leaves.map Prod.fst) c = posterior P h e

theorem conditioned_keys {e : Query} {m : ℚ} {A B : List (ℕ × Leaf D)}
    (hF : List.Forall₂ (Conditioned fits P kind n e m) A B) : B.map Prod.fst = A.map Prod.fst := by
  induction hF with
  | nil => rfl
  | cons h1 _ ih => rw [List.map_cons, List.map_cons, ih, h1.idx]

theorem conditioned_mem {e : Query} {m : ℚ} {A B : List (ℕ × Leaf D)}
    (hF : List.Forall₂ (Conditioned fits P kind n e m) A B) {l : ℕ × Leaf D} (hl : l ∈ A) :
    ∃ l' ∈ B, Conditioned fits P kind n e m l l' := by
  induction hF with
  | nil => cases hl
  | @cons a b _ _ h1 _ ih =>
    rcases List.mem_cons.1 hl with rfl | hl
    · exact ⟨b, by simp, h1⟩
    · obtain ⟨l', h2, h3⟩ := ih hl
      exact ⟨l', by simp [h2], h3⟩

theorem factor_cond {e : Query} {m : ℚ} {ls cs : List (ℕ × Leaf D)} (hnd : (ls.map Prod.fst).Nodup)
    (hpos : ∀ l ∈ ls, 0 ≤ leafProb P l.2 e)
    (hF : List.Forall₂ (Conditioned fits P kind n e m)
      (ls.filter (fun l => decide (0 < leafProb P l.2 e))) cs) :
    ∀ l ∈ ls, ((cs.lookup l.1).map (fun l => l.prior)).getD 0 = l.2.prior * leafProb P l.2 e / m := by
  intro l hl
  have hk := conditioned_keys hF
  have hfn : ((ls.filter (fun l => decide (0 < leafProb P l.2 e))).map Prod.fst).Nodup :=
    hnd.sublist ((List.filter_sublist).map _)
  by_cases hp : 0 < leafProb P l.2 e
  · have hm : l ∈ ls.filter (fun l => decide (0 < leafProb P l.2 e)) := by simpa using ⟨hl, hp⟩
    obtain ⟨l', hl', hc⟩ := conditioned_mem hF hm
    have : cs.lookup l.1 = some l'.2 := by
      apply Dict.mem_lookup (show (cs.map Prod.fst).Nodup by rw [hk]; exact hfn)
      rw [← hc.idx]
      exact hl'
    rw [this]
    exact hc.prior
  · have h0 : leafProb P l.2 e = 0 := le_antisymm (not_lt.1 hp) (hpos l hl)
    have : cs.lookup l.1 = none := by
      rw [List.lookup_eq_none_iff]
      intro p hpm
      by_contra hc
      have heq : l.1 = p.1 := by simpa using hc
      have : p.1 ∈ (ls.filter (fun l => decide (0 < leafProb P l.2 e))).map Prod.fst := by
        rw [← hk]
        exact List.mem_map.2 ⟨p, hpm, rfl⟩
      obtain ⟨l2, hl2, he2⟩ := List.mem_map.1 this
      rw [List.mem_filter] at hl2
      have hsame : l2 = l := by
        have h1 := Dict.mem_lookup (d := ls) hnd (k := l2.1) (b := l2.2) hl2.1
        have h2 := Dict.mem_lookup (d := ls) hnd (k := l.1) (b := l.2) hl
        rw [he2, ← heq, h2] at h1
        exact Prod.ext (he2.trans heq.symm) (Option.some.inj h1).symm
      rw [hsame] at hl2
      exact hp (by simpa using hl2.2)
    rw [this, h0]
    simp

/-- Conditioning at one step. -/
theorem step_ok (L : Laws o ok fits P) (hT : TreeOK ok fits P kind full n h) (hbin : Binary h)
    (hsort : Sorted h) (priors : List (ℕ × D)) (hp : ∀ b ∈ priors, ∃ k, ok k b.2)
    (hsum : (h.leaves.map (fun l => l.2.prior)).sum = 1) {e : Query} (he : QueryOK fits kind n e)
    (hpt : ∀ i ∈ e, i.2.point = none) (hm : mass P h e ≠ 0) :
    ∃ c ps, conditional o n full h priors e = .ok (c, ps) ∧ StepTree fits P kind n h e c ∧
      TreeOK ok fits P kind full n c ∧
      ∀ q, QueryOK fits kind n q → mass P c q = mass P h (meet q e) / mass P h e := by
  have hnd : (h.leaves.map Prod.fst).Nodup := (List.nodup_append.1 hT.shape.nodup).2.1
  by_cases hne : e = []
  · subst hne
    have hm1 : mass P h [] = 1 := by
      rw [← hsum]
      unfold mass leafProb
      simp
    refine ⟨h, priors, C47_empty L hT hsort priors hp, ⟨.inr rfl, hT.prior, hsum, ?_⟩, hT, ?_⟩
    · unfold priorFactor posterior
      rw [List.map_map]
      apply List.map_congr_left
      intro l hl
      rw [Function.comp, Dict.mem_lookup hnd (k := l.1) (b := l.2) hl, hm1]
      unfold leafProb
      simp
    · intro q hq
      rw [hm1, div_one]
      congr 1
      unfold meet meetItem
      simp
  · obtain ⟨c, ps, h1, h2, h3, h4, -, h5⟩ := (C47_conditional_partial L hT hbin hsort priors hp he hne hpt).2 hm
    have hk : c.leaves.map Prod.fst = (h.leaves.filter (fun l => decide (0 < leafProb P l.2 e))).map Prod.fst :=
      conditioned_keys h3
    refine ⟨c, ps, h1, ⟨.inl hk, h2.prior, h4, ?_⟩, h2, fun q hq => mass_cond L.toPLaws hT hq he hm h3⟩
    unfold priorFactor posterior
    rw [List.map_map]
    apply List.map_congr_left
    intro l hl
    exact factor_cond hnd (fun l hl => leafProb_nonneg L.toPLaws (hT.dists l hl).2 (fun i hi => (he.2 i hi).2.1)) h3 l hl

theorem StepTree.mem {e : Query} {c : Heap D} (hc : StepTree fits P kind n h e c) :
    ∀ l ∈ c.leaves, l.1 ∈ h.leaves.map Prod.fst := by
  intro l hl
  have : l.1 ∈ c.leaves.map Prod.fst := List.mem_map.2 ⟨l, hl, rfl⟩
  rcases hc.keys with h1 | h1
  · rw [h1] at this
    exact (List.filter_sublist.map Prod.fst).subset this
  · rw [h1] at this
    exact this

end Verif.Seq
