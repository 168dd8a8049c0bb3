import Verif.Seq.Lemmas6
import Verif.Seq.Props
import Verif.Trees.Props3

/-!
# Properties of inference over sequences: C58, C72, C73
-/

namespace Verif.Seq

open Trees Learn

variable {D E K : Type} {o : DistOps D E} {ok : K → D → Prop} {fits : K → Region → Prop}
  {P : D → Region → ℚ} {kind : ℕ → K} {full : ℕ → Region} {n : ℕ} {h : Heap D}

/-- A fitted template over `n` variables. -/
structure Template (ok : K → D → Prop) (fits : K → Region → Prop) (P : D → Region → ℚ) (kind : ℕ → K)
    (full : ℕ → Region) (n : ℕ) (h : Heap D) (priors : List (ℕ × D)) : Prop where
  tree : TreeOK ok fits P kind full n h
  binary : Binary h
  sorted : Sorted h
  priors : ∀ b ∈ priors, ∃ k, ok k b.2
  sum : (h.leaves.map (fun l => l.2.prior)).sum = 1
  order : (h.leaves.map Prod.fst).Pairwise (· < ·)

/-- Evidence for a step: a query about intervals or sets that the template allows. -/
def Possible (fits : K → Region → Prop) (P : D → Region → ℚ) (kind : ℕ → K) (n : ℕ) (h : Heap D)
    (e : Query) : Prop :=
  QueryOK fits kind n e ∧ (∀ i ∈ e, i.2.point = none) ∧ mass P h e ≠ 0

theorem mapM_exists {α β ε : Type} {f : α → Except ε β} {Q : α → β → Prop} {l : List α}
    (h : ∀ x ∈ l, ∃ y, f x = .ok y ∧ Q x y) : ∃ ys, l.mapM f = .ok ys ∧ List.Forall₂ Q l ys := by
  induction l with
  | nil => exact ⟨[], rfl, .nil⟩
  | cons a l ih =>
    obtain ⟨y, h1, h2⟩ := h a (by simp)
    obtain ⟨ys, h3, h4⟩ := ih (fun x hx => h x (by simp [hx]))
    refine ⟨y :: ys, ?_, .cons h2 h4⟩
    rw [List.mapM_cons, h1]
    simp only [bind, Except.bind]
    rw [h3]
    rfl

/-! ## C58: marginals of the steps -/

/-- Grounding: the tree of each step is the template given the evidence of that step, and the factor of
the step is the probability of each leaf given that evidence, in the order of the leaves. -/
theorem C58_ground (L : Laws o ok fits P) {priors : List (ℕ × D)}
    (hT : Template ok fits P kind full n h priors) (es : List Query)
    (he : ∀ e ∈ es, Possible fits P kind n h e) :
    ∃ cs, ground o n full h priors es = .ok (cs, es.map (posterior P h)) ∧
      List.Forall₂ (fun e c => (∀ l ∈ c.leaves, l.1 ∈ h.leaves.map Prod.fst) ∧ (∀ l ∈ c.leaves, 0 ≤ l.2.prior) ∧
        (c.leaves.map (fun l => l.2.prior)).sum = 1 ∧
        (∀ k ∈ h.leaves.map Prod.fst, ((c.leaves.lookup k).map (fun l => l.prior)).getD 0
          = weightOf (h.leaves.map Prod.fst) (posterior P h e) k) ∧
        ∀ q, QueryOK fits kind n q → mass P c q = mass P h (meet q e) / mass P h e) es cs := by
  have h1 : ∀ e ∈ es, ∃ c, (conditional o n full h priors e).map Prod.fst = .ok c ∧
      (StepTree fits P kind n h e c ∧
        ∀ q, QueryOK fits kind n q → mass P c q = mass P h (meet q e) / mass P h e) := by
    intro e hm
    obtain ⟨h2, h3, h4⟩ := he e hm
    obtain ⟨c, ps, h5, h6, -, h7⟩ := step_ok L hT.tree hT.binary hT.sorted priors hT.priors hT.sum h2 h3 h4
    exact ⟨c, by rw [h5]; rfl, h6, h7⟩
  obtain ⟨cs, h2, h3⟩ := mapM_exists h1
  refine ⟨cs, ?_, ?_⟩
  · unfold ground
    rw [h2]
    simp only [bind, Except.bind, pure, Except.pure]
    congr 2
    clear h2
    induction h3 with
    | nil => rfl
    | @cons e c es cs h4 _ ih =>
      rw [List.map_cons, List.map_cons, ih (fun e hm => he e (by simp [hm])) (fun e hm => h1 e (by simp [hm])),
        h4.1.factor]
  · refine h3.imp ?_
    rintro e c ⟨h4, h5⟩
    refine ⟨h4.mem, h4.prior, h4.sum, ?_, h5⟩
    intro k hk
    rw [← h4.factor]
    unfold priorFactor weightOf
    have : (h.leaves.map Prod.fst).idxOf k < (h.leaves.map Prod.fst).length := List.idxOf_lt_length_of_mem hk
    rw [List.getD_eq_getElem?_getD, List.getElem?_map, List.getElem?_eq_getElem this, Option.map_some,
      Option.getD_some, List.getElem_idxOf]

/-- Evidence that the template rules out is reported. -/
theorem C58_unsatisfiable (L : Laws o ok fits P) {priors : List (ℕ × D)}
    (hT : Template ok fits P kind full n h priors) (es rest : List Query) (e : Query)
    (he : ∀ e ∈ es, Possible fits P kind n h e) (hq : QueryOK fits kind n e)
    (hpt : ∀ i ∈ e, i.2.point = none) (hm : mass P h e = 0) (model : List (List ℚ))
    (lbp : List (List ℚ) → List (List ℚ) → List (List ℚ)) :
    independentMarginals o n full h priors model lbp (es ++ e :: rest) = .error .unsatisfiable := by
  have hne : e ≠ [] := by
    rintro rfl
    have : mass P h [] = 1 := by
      rw [← hT.sum]
      unfold mass leafProb
      simp
    rw [this] at hm
    exact one_ne_zero hm
  have h1 : (conditional o n full h priors e).map Prod.fst = .error .unsatisfiable := by
    rw [(C47_conditional_partial L hT.tree hT.binary hT.sorted priors hT.priors hq hne hpt).1 hm]
    rfl
  obtain ⟨cs, h2, -⟩ := mapM_exists (f := fun e => (conditional o n full h priors e).map Prod.fst)
    (Q := fun _ _ => True) (l := es) (by
      intro e hm
      obtain ⟨h2, h3, h4⟩ := he e hm
      obtain ⟨c, ps, h5, -⟩ := step_ok L hT.tree hT.binary hT.sorted priors hT.priors hT.sum h2 h3 h4
      exact ⟨c, by rw [h5]; rfl, trivial⟩)
  unfold independentMarginals ground
  rw [List.mapM_append, h2, List.mapM_cons, h1]
  rfl

/-- The computation of the marginals, in general: `ds` are the smoothed distributions of the steps. -/
theorem marginals_eq (L : Laws o ok fits P) {priors : List (ℕ × D)}
    (hT : Template ok fits P kind full n h priors) (es : List Query)
    (he : ∀ e ∈ es, Possible fits P kind n h e) (model : List (List ℚ))
    (lbp : List (List ℚ) → List (List ℚ) → List (List ℚ))
    (hd : ∀ d ∈ lbp model (es.map (posterior P h)), d.length = h.leaves.length ∧ (∀ x ∈ d, 0 ≤ x) ∧ ∃ x ∈ d, x ≠ 0) :
    ∃ cs ds rs, ground o n full h priors es = .ok (cs, es.map (posterior P h)) ∧
      cs.length = es.length ∧
      List.Forall₂ Smoothed (lbp model (es.map (posterior P h))) ds ∧
      independentMarginals o n full h priors model lbp es = .ok rs ∧
      List.Forall₂ (fun (p : List ℚ × Heap D) r => Reweighted p.2 (weightOf (h.leaves.map Prod.fst) p.1) r ∧
        (r.leaves.map (fun l => l.2.prior)).sum = 1) ((sortedDists ds).zip cs) rs := by
  obtain ⟨cs, h1, h2⟩ := C58_ground L hT es he
  obtain ⟨ds, h3, h4⟩ := mapM_exists (f := smooth) (l := lbp model (es.map (posterior P h)))
    (Q := fun d r => Smoothed d r ∧ r.length = h.leaves.length ∧ ∀ x ∈ r, 0 < x) (by
      intro d hdm
      obtain ⟨h5, h6, h7⟩ := hd d hdm
      obtain ⟨r, h8, h9, h10, h11⟩ := smooth_smoothed h6 h7
      exact ⟨r, h8, h9, by rw [h10, h5], h11⟩)
  obtain ⟨rs, h5, h6⟩ := mapM_exists (f := fun p : List ℚ × Heap D =>
      multiplyPriors p.2 (leafPrior (h.leaves.map Prod.fst) p.1)) (l := (sortedDists ds).zip cs)
    (Q := fun p r => Reweighted p.2 (weightOf (h.leaves.map Prod.fst) p.1) r ∧
        (r.leaves.map (fun l => l.2.prior)).sum = 1) (by
      rintro ⟨d, c⟩ hp
      obtain ⟨hp1, hp2⟩ := List.of_mem_zip hp
      obtain ⟨d', -, h7, h8, h9⟩ := forall₂_mem_right h4 (sortedDists_mem hp1)
      obtain ⟨e, -, h10, h11, h12, -, -⟩ := forall₂_mem_right h2 hp2
      exact reweight_ok hT.order (by rw [h8, List.length_map]) h9 h10 h11 h12)
  refine ⟨cs, ds, rs, h1, h2.length_eq.symm, h4.imp (fun _ _ h => h.1), ?_, h6⟩
  unfold independentMarginals
  rw [h1]
  simp only [bind, Except.bind]
  rw [h3]
  exact h5

theorem forall₂_get {α β : Type} {R : α → β → Prop} {l : List α} {r : List β} (h : List.Forall₂ R l r)
    {i : ℕ} {a : α} {b : β} (ha : l[i]? = some a) (hb : r[i]? = some b) : R a b := by
  induction h generalizing i with
  | nil => cases ha
  | cons h1 _ ih =>
    cases i with
    | zero =>
      cases ha
      cases hb
      exact h1
    | succ i => exact ih ha hb

/-- For at most ten steps: the result at position `t` is the tree of step `t` with its leaves re-weighted
by the distribution over the leaves that belief propagation computed for step `t` (zeros smoothed), and
its priors sum to one.  Missing: eleven steps and more, see `C58_violated_eleven_steps`, and templates that
were fitted more than once. -/
theorem C58_marginals_partial (L : Laws o ok fits P) {priors : List (ℕ × D)}
    (hT : Template ok fits P kind full n h priors) (es : List Query)
    (he : ∀ e ∈ es, Possible fits P kind n h e) (model : List (List ℚ))
    (lbp : List (List ℚ) → List (List ℚ) → List (List ℚ))
    (hlen : (lbp model (es.map (posterior P h))).length = es.length)
    (hd : ∀ d ∈ lbp model (es.map (posterior P h)), d.length = h.leaves.length ∧ (∀ x ∈ d, 0 ≤ x) ∧ ∃ x ∈ d, x ≠ 0)
    (hten : es.length ≤ 10) :
    ∃ cs ds rs, ground o n full h priors es = .ok (cs, es.map (posterior P h)) ∧
      List.Forall₂ Smoothed (lbp model (es.map (posterior P h))) ds ∧
      independentMarginals o n full h priors model lbp es = .ok rs ∧ rs.length = es.length ∧
      ∀ (t : ℕ) (c : Heap D) (d : List ℚ) (r : Heap D), cs[t]? = some c → ds[t]? = some d → rs[t]? = some r →
        Reweighted c (weightOf (h.leaves.map Prod.fst) d) r ∧ (r.leaves.map (fun l => l.2.prior)).sum = 1 := by
  obtain ⟨cs, ds, rs, h1, h2, h3, h4, h5⟩ := marginals_eq L hT es he model lbp hd
  have hl : ds.length = es.length := by rw [← h3.length_eq, hlen]
  rw [sortedDists_short (by omega)] at h5
  refine ⟨cs, ds, rs, h1, h3, h4, ?_, ?_⟩
  · rw [← h5.length_eq, List.length_zip]
    omega
  · intro t c d r hc hd hr
    refine forall₂_get h5 (a := (d, c)) ?_ hr
    rw [List.getElem?_zip_eq_some]
    exact ⟨hd, hc⟩

/-- With eleven steps or more the tree of step 2 is re-weighted by the distribution of step 10: the names
of the steps are sorted as strings. -/
theorem C58_violated_eleven_steps (L : Laws o ok fits P) {priors : List (ℕ × D)}
    (hT : Template ok fits P kind full n h priors) (es : List Query)
    (he : ∀ e ∈ es, Possible fits P kind n h e) (model : List (List ℚ))
    (lbp : List (List ℚ) → List (List ℚ) → List (List ℚ))
    (hlen : (lbp model (es.map (posterior P h))).length = es.length)
    (hd : ∀ d ∈ lbp model (es.map (posterior P h)), d.length = h.leaves.length ∧ (∀ x ∈ d, 0 ≤ x) ∧ ∃ x ∈ d, x ≠ 0)
    (hten : 11 ≤ es.length) :
    ∃ cs ds rs c d r, ground o n full h priors es = .ok (cs, es.map (posterior P h)) ∧
      List.Forall₂ Smoothed (lbp model (es.map (posterior P h))) ds ∧
      independentMarginals o n full h priors model lbp es = .ok rs ∧
      cs[2]? = some c ∧ ds[10]? = some d ∧ rs[2]? = some r ∧
      Reweighted c (weightOf (h.leaves.map Prod.fst) d) r := by
  obtain ⟨cs, ds, rs, h1, h2, h3, h4, h5⟩ := marginals_eq L hT es he model lbp hd
  have hl : ds.length = es.length := by rw [← h3.length_eq, hlen]
  have hrl : rs.length = es.length := by
    rw [← h5.length_eq, List.length_zip, sortedDists_length]
    omega
  have hd10 : ds[10]? = some ds[10] := List.getElem?_eq_getElem (by omega)
  have hc2 : cs[2]? = some cs[2] := List.getElem?_eq_getElem (by omega)
  have hr2 : rs[2]? = some rs[2] := List.getElem?_eq_getElem (by omega)
  refine ⟨cs, ds, rs, _, _, _, h1, h3, h4, hc2, hd10, hr2, ?_⟩
  refine (forall₂_get h5 (a := (ds[10], cs[2])) ?_ hr2).1
  rw [List.getElem?_zip_eq_some]
  exact ⟨by rw [sortedDists_long (by omega), hd10], hc2⟩

theorem smoothed_scale {d r : List ℚ} {z : ℚ} (hz : 0 < z) (h : Smoothed (d.map (fun x => z * x)) r) :
    Smoothed d r := by
  obtain ⟨m, y, h1, h2, h3, h4, h5⟩ := h
  obtain ⟨v, hv, rfl⟩ := List.mem_map.1 h1
  refine ⟨v, y * z, hv, pos_of_mul_pos_right h2 hz.le, ?_, by positivity, ?_⟩
  · intro x hx hx0
    have := h3 (z * x) (List.mem_map.2 ⟨x, hx, rfl⟩) (mul_ne_zero hz.ne' hx0)
    exact le_of_mul_le_mul_left this hz
  · rw [h5, List.map_map]
    apply List.map_congr_left
    intro x _
    simp only [Function.comp]
    by_cases hx : x = 0
    · rw [if_pos (by rw [hx, mul_zero]), if_pos hx]
      ring
    · rw [if_neg (mul_ne_zero hz.ne' hx), if_neg hx]
      ring

theorem posterior_nonneg (L : Laws o ok fits P) (hT : TreeOK ok fits P kind full n h) {e : Query}
    (he : QueryOK fits kind n e) : ∀ x ∈ posterior P h e, 0 ≤ x := by
  have h1 : ∀ l ∈ h.leaves, 0 ≤ l.2.prior * leafProb P l.2 e := fun l hl =>
    mul_nonneg (hT.prior l hl) (leafProb_nonneg L.toPLaws (hT.dists l hl).2 (fun i hi => (he.2 i hi).2.1))
  intro x hx
  obtain ⟨l, hl, rfl⟩ := List.mem_map.1 hx
  apply div_nonneg (h1 l hl)
  unfold mass
  apply List.sum_nonneg
  intro y hy
  obtain ⟨l', hl', rfl⟩ := List.mem_map.1 hy
  exact h1 l' hl'

theorem getD_nonneg {l : List ℚ} (h : ∀ x ∈ l, 0 ≤ x) (i : ℕ) : 0 ≤ l.getD i 0 := by
  rw [List.getD_eq_getElem?_getD]
  cases hi : l[i]? with
  | none => exact le_refl _
  | some x => exact h x (List.mem_of_getElem? hi)

/-- If belief propagation is exact, the distribution of step `t` is the marginal of that step in the
grounded model (smoothed), provided some sequence of leaves is possible in it.  Missing: what
`C58_marginals_partial` lacks. -/
theorem C58_exact_partial (L : Laws o ok fits P) {priors : List (ℕ × D)}
    (hT : Template ok fits P kind full n h priors) (es : List Query)
    (he : ∀ e ∈ es, Possible fits P kind n h e) (model : List (List ℚ))
    (hmodel : ∀ r ∈ model, ∀ x ∈ r, 0 ≤ x)
    (lbp : List (List ℚ) → List (List ℚ) → List (List ℚ))
    (hex : Exact model (es.map (posterior P h)) (lbp model (es.map (posterior P h))) h.leaves.length)
    (hposs : ∃ a, weight (es.map (posterior P h)).length h.leaves.length (fun i j => entryOf model i j)
      (fun s i => entryOf (es.map (posterior P h)) s i) a ≠ 0)
    (hten : es.length ≤ 10) :
    ∃ cs rs, ground o n full h priors es = .ok (cs, es.map (posterior P h)) ∧
      independentMarginals o n full h priors model lbp es = .ok rs ∧ rs.length = es.length ∧
      ∀ (t : Fin (es.map (posterior P h)).length), ∃ c d r, cs[t.1]? = some c ∧ rs[t.1]? = some r ∧
        Smoothed ((List.finRange h.leaves.length).map (marginal _ _ (fun i j => entryOf model i j)
          (fun s i => entryOf (es.map (posterior P h)) s i) t)) d ∧
        Reweighted c (weightOf (h.leaves.map Prod.fst) d) r := by
  have hm0 : ∀ i j : Fin h.leaves.length, 0 ≤ entryOf model i j := by
    intro i j
    unfold entryOf
    apply getD_nonneg
    intro x hx
    rw [List.getD_eq_getElem?_getD] at hx
    cases hr : model[i.1]? with
    | none => rw [hr] at hx; cases hx
    | some r =>
      rw [hr] at hx
      exact hmodel r (List.mem_of_getElem? hr) x hx
  have hf0 : ∀ (s : Fin (es.map (posterior P h)).length) (i : Fin h.leaves.length),
      0 ≤ entryOf (es.map (posterior P h)) s i := by
    intro s i
    unfold entryOf
    apply getD_nonneg
    intro x hx
    rw [List.getD_eq_getElem?_getD, List.getElem?_eq_getElem s.2, List.getElem_map] at hx
    exact posterior_nonneg L hT.tree (he _ (List.getElem_mem _)).1 x hx
  obtain ⟨a, ha⟩ := hposs
  obtain ⟨hlen, hdist⟩ := hex
  have hrow : ∀ t : Fin (es.map (posterior P h)).length, ∃ d, (lbp model (es.map (posterior P h)))[t.1]? = some d ∧
      ∃ z : ℚ, 0 < z ∧ d = ((List.finRange h.leaves.length).map (marginal _ _ (fun i j => entryOf model i j)
        (fun s i => entryOf (es.map (posterior P h)) s i) t)).map (fun x => z * x) := by
    intro t
    obtain ⟨z, hz, hd⟩ := hdist t
    have hlt : t.1 < (lbp model (es.map (posterior P h))).length := by
      rw [hlen]
      exact t.2
    refine ⟨_, List.getElem?_eq_getElem hlt, z, hz, ?_⟩
    rw [List.getD_eq_getElem?_getD, List.getElem?_eq_getElem hlt] at hd
    rw [List.map_map]
    exact hd
  have hd : ∀ d ∈ lbp model (es.map (posterior P h)), d.length = h.leaves.length ∧ (∀ x ∈ d, 0 ≤ x) ∧
      ∃ x ∈ d, x ≠ 0 := by
    intro d hd
    obtain ⟨t, ht, hdt⟩ := List.getElem_of_mem hd
    obtain ⟨d', h1, z, hz, h2⟩ := hrow ⟨t, by rw [← hlen]; exact ht⟩
    rw [List.getElem?_eq_getElem ht, hdt] at h1
    cases h1
    rw [h2]
    refine ⟨by simp, ?_, ?_⟩
    · intro x hx
      obtain ⟨y, hy, rfl⟩ := List.mem_map.1 hx
      obtain ⟨l, -, rfl⟩ := List.mem_map.1 hy
      exact mul_nonneg hz.le (marginal_nonneg hm0 hf0 _ l)
    · refine ⟨_, List.mem_map.2 ⟨_, List.mem_map.2 ⟨a ⟨t, by rw [← hlen]; exact ht⟩, List.mem_finRange _, rfl⟩, rfl⟩, ?_⟩
      exact mul_ne_zero hz.ne' (marginal_pos hm0 hf0 ha _)
  obtain ⟨cs, ds, rs, h1, h3, h4, h5, h6⟩ := C58_marginals_partial L hT es he model lbp
    (by rw [hlen, List.length_map]) hd hten
  refine ⟨cs, rs, h1, h4, h5, fun t => ?_⟩
  obtain ⟨cs', h1', hF⟩ := C58_ground L hT es he
  rw [h1] at h1'
  cases h1'
  have ht : t.1 < es.length := by simpa using t.2
  have hcl := hF.length_eq
  have hdl : ds.length = es.length := by rw [← h3.length_eq, hlen, List.length_map]
  have hc : cs[t.1]? = some (cs[t.1]'(by omega)) := List.getElem?_eq_getElem _
  have hr : rs[t.1]? = some (rs[t.1]'(by omega)) := List.getElem?_eq_getElem _
  have hdt : ds[t.1]? = some (ds[t.1]'(by omega)) := List.getElem?_eq_getElem _
  obtain ⟨d', h7, z, hz, h8⟩ := hrow t
  refine ⟨_, _, _, hc, hr, ?_, (h6 t.1 _ _ _ hc hdt hr).1⟩
  have := forall₂_get h3 h7 hdt
  rw [h8] at this
  exact smoothed_scale hz this

/-- For every template that was fitted once, over symbolic and integer variables: it satisfies what the
theorems here assume. -/
theorem C58_fitted_partial {L : Type} [DecidableEq L] (a : Args) (w : ℕ) (ss : List Sequence)
    (kind : ℕ → Bool × Disc.Dom L) (hk : Discrete (a.cfg 0) kind) (hw : 1 ≤ w) (h0 : ss ≠ [])
    (hlen : ∀ s ∈ ss, w ≤ s.length ∧ 2 ≤ s.length) (hfit : ∀ s ∈ ss, ∀ x ∈ s, Fits a.vars x) :
    ∃ h m, fit a (fullOf (a.cfg 0)) (fitDisc (expandedKind a w kind)) Heap.empty w ss = .ok (h, m) ∧
      Template discOk discFits discP kind (fullOf (a.cfg 0)) a.vars.length h [] ∧
      (∀ r ∈ m, ∀ x ∈ r, 0 ≤ x) ∧
      ∀ (es : List Query) (lbp : List (List ℚ) → List (List ℚ) → List (List ℚ)),
        (∀ e ∈ es, Possible discFits discP kind a.vars.length h e) →
        Exact m (es.map (posterior discP h)) (lbp m (es.map (posterior discP h))) h.leaves.length →
        (∃ a, weight (es.map (posterior discP h)).length h.leaves.length (fun i j => entryOf m i j)
          (fun s i => entryOf (es.map (posterior discP h)) s i) a ≠ 0) → es.length ≤ 10 →
        ∃ cs rs, ground (discOps L) a.vars.length (fullOf (a.cfg 0)) h [] es
            = .ok (cs, es.map (posterior discP h)) ∧
          independentMarginals (discOps L) a.vars.length (fullOf (a.cfg 0)) h [] m lbp es = .ok rs ∧
          rs.length = es.length ∧
          ∀ (t : Fin (es.map (posterior discP h)).length), ∃ c d r, cs[t.1]? = some c ∧ rs[t.1]? = some r ∧
            Smoothed ((List.finRange h.leaves.length).map (marginal _ _ (fun i j => entryOf m i j)
              (fun s i => entryOf (es.map (posterior discP h)) s i) t)) d ∧
            Reweighted c (weightOf (h.leaves.map Prod.fst) d) r := by
  obtain ⟨h, m, h1, h2, h3, h4, h5, h6⟩ := fit_tree hk Heap.empty hw h0 hlen hfit rfl
  obtain ⟨h', m', h7, -, -, h8, -⟩ := C57_fit a w ss (fitDisc (expandedKind a w kind)) Heap.empty hw h0 hlen hfit
    List.nodup_nil
  rw [h1] at h7
  cases h7
  have hT : Template discOk discFits discP kind (fullOf (a.cfg 0)) a.vars.length h [] :=
    ⟨h2, h3, h4, fun b hb => (List.not_mem_nil hb).elim, h5, h6⟩
  have hm := fun r hr => (h8 r hr).2
  exact ⟨h, m, h1, hT, hm, fun es lbp he hex hp ht => C58_exact_partial disc_laws hT es he m hm lbp hex hp ht⟩

/-- A sequential tree over two symbolic variables; the second is the target. -/
def exM : Args := ⟨[.symbolic 2, .symbolic 2], [1], [], .int 2, none, none, none, fun _ => false⟩

/-- Their domains. -/
def exMKind : ℕ → Bool × Disc.Dom ℤ
  | 0 => (false, ⟨"A", [10, 20]⟩)
  | _ => (false, ⟨"B", [10, 20]⟩)

/-- Each value of the second variable is the one of the first a step before. -/
def exMSeq : Sequence :=
  [[0, 0], [0, 0], [1, 0], [1, 1], [0, 1]].map (fun (l : List ℕ) (v : ℕ) => ((l.getD v 0 : ℕ) : ℚ))

/-- The same for other sequences. -/
def exMFit (ss : List Sequence) : Except Err (Heap (DD ℤ) × List (List ℚ)) :=
  fit exM (fullOf (exM.cfg 0)) (fitDisc (expandedKind exM 2 exMKind)) Heap.empty 2 ss

theorem exM_kind : Discrete (exM.cfg 0) exMKind := by
  intro v hv
  match v, hv with
  | 0, _ => exact ⟨by decide, .inr ⟨rfl, rfl⟩⟩
  | 1, _ => exact ⟨by decide, .inr ⟨rfl, rfl⟩⟩
  | v + 2, hv => exact absurd hv (by simp [exM, Args.cfg])

theorem exM_fits : ∀ s ∈ [exMSeq], ∀ x ∈ s, Fits exM.vars x := by
  intro s hs x hx v n hv
  rw [List.mem_singleton.1 hs] at hx
  obtain ⟨l, hl, rfl⟩ := List.mem_map.1 hx
  refine ⟨l.getD v 0, ?_, rfl⟩
  have hn : n = 2 ∧ v < 2 := by
    match v, hv with
    | 0, hv =>
      rcases hv with hv | hv
      · exact absurd hv (by simp [exM])
      · injection hv with hv; injection hv with hv; exact ⟨hv.symm, by decide⟩
    | 1, hv =>
      rcases hv with hv | hv
      · exact absurd hv (by simp [exM])
      · injection hv with hv; injection hv with hv; exact ⟨hv.symm, by decide⟩
    | v + 2, hv => exact absurd hv (by simp [exM])
  obtain ⟨rfl, hv2⟩ := hn
  have key : ∀ l ∈ ([[0, 0], [0, 0], [1, 0], [1, 1], [0, 1]] : List (List ℕ)), ∀ v < 2, l.getD v 0 < 2 := by
    decide
  exact key l hl v hv2

/-- Ten steps without evidence, then one with. -/
def exMSteps : List Query := List.replicate 10 [] ++ [[(1, .set [0])]]

/-- The factors of these steps. -/
def exMFactors : List (List ℚ) := List.replicate 10 [1 / 2, 1 / 2] ++ [[2 / 3, 1 / 3]]

/-- What is computed for the example. -/
theorem exM_run : ∃ h m, exMFit [exMSeq] = .ok (h, m) ∧ (h.leaves.map Prod.fst = [1, 2] ∧
    m = [[1 / 4, 1 / 4], [1 / 4, 1 / 4]] ∧ exMSteps.map (posterior discP h) = exMFactors ∧
    (∀ e ∈ exMSteps, mass discP h e ≠ 0) ∧
    (independentMarginals (discOps ℤ) 2 (fullOf (exM.cfg 0)) h [] m (fun _ fs => fs) exMSteps).toOption.map
      (fun rs => rs.map (fun r => r.leaves.map (fun l => l.2.prior)))
      = some ([[1 / 2, 1 / 2], [1 / 2, 1 / 2], [2 / 3, 1 / 3], [1 / 2, 1 / 2], [1 / 2, 1 / 2], [1 / 2, 1 / 2],
        [1 / 2, 1 / 2], [1 / 2, 1 / 2], [1 / 2, 1 / 2], [1 / 2, 1 / 2], [2 / 3, 1 / 3]])) := by
  obtain ⟨r, h1, h2⟩ : ∃ r, exMFit [exMSeq] = .ok r ∧ (r.1.leaves.map Prod.fst = [1, 2] ∧
    r.2 = [[1 / 4, 1 / 4], [1 / 4, 1 / 4]] ∧ exMSteps.map (posterior discP r.1) = exMFactors ∧
    (∀ e ∈ exMSteps, mass discP r.1 e ≠ 0) ∧
    (independentMarginals (discOps ℤ) 2 (fullOf (exM.cfg 0)) r.1 [] r.2 (fun _ fs => fs) exMSteps).toOption.map
      (fun rs => rs.map (fun r => r.leaves.map (fun l => l.2.prior)))
      = some ([[1 / 2, 1 / 2], [1 / 2, 1 / 2], [2 / 3, 1 / 3], [1 / 2, 1 / 2], [1 / 2, 1 / 2], [1 / 2, 1 / 2],
        [1 / 2, 1 / 2], [1 / 2, 1 / 2], [1 / 2, 1 / 2], [1 / 2, 1 / 2], [2 / 3, 1 / 3]])) :=
    exists_ok (by decide +kernel)
  exact ⟨r.1, r.2, h1, h2⟩

theorem exM_possible {h : Heap (DD ℤ)} (hm : ∀ e ∈ exMSteps, mass discP h e ≠ 0) :
    ∀ e ∈ exMSteps, Possible discFits discP exMKind 2 h e := by
  intro e he
  have hcases : e = [] ∨ e = [(1, .set [0])] := by
    unfold exMSteps at he
    simpa [List.mem_replicate] using he
  refine ⟨?_, ?_, hm e he⟩
  · rcases hcases with rfl | rfl
    · exact ⟨by simp, by simp⟩
    · exact queryCheck_ok (by decide)
  · rcases hcases with rfl | rfl
    · simp
    · simp [Region.point]

/-- Two steps, within the bounds of `C58_marginals_partial`. -/
example : (exMFit [exMSeq]).toOption.map (fun x =>
    (independentMarginals (discOps ℤ) 2 (fullOf (exM.cfg 0)) x.1 [] x.2 (fun _ fs => fs)
      [[], [(1, .set [0])]]).toOption.map (fun rs => rs.map (fun r => r.leaves.map (fun l => l.2.prior))))
    = some (some [[1 / 2, 1 / 2], [4 / 5, 1 / 5]]) := by decide +kernel

/-- A case in which it matters.  The tree is fitted to a sequence, belief propagation is exact, and only
step 10 has evidence.  The leaf distribution of step 2 is uniform, as are the priors of its tree; yet the
result at position 2 has priors 2/3 and 1/3, and that at position 10, which has the evidence, is
re-weighted by a uniform distribution. -/
theorem C58_violated_eleven_steps_witness : ∃ (h : Heap (DD ℤ)) (m : List (List ℚ)) (es : List Query)
    (rs : List (Heap (DD ℤ))),
    exMFit [exMSeq] = .ok (h, m) ∧
    Template discOk discFits discP exMKind (fullOf (exM.cfg 0)) 2 h [] ∧
    (∀ e ∈ es, Possible discFits discP exMKind 2 h e) ∧
    Exact m (es.map (posterior discP h)) (es.map (posterior discP h)) h.leaves.length ∧
    es.length = 11 ∧ es[2]? = some [] ∧ posterior discP h [] = [1 / 2, 1 / 2] ∧
    independentMarginals (discOps ℤ) 2 (fullOf (exM.cfg 0)) h [] m (fun _ fs => fs) es = .ok rs ∧
    (rs[2]?).map (fun r => r.leaves.map (fun l => l.2.prior)) = some [2 / 3, 1 / 3] ∧
    (rs[10]?).map (fun r => r.leaves.map (fun l => l.2.prior)) = some [2 / 3, 1 / 3] := by
  obtain ⟨h, m, h1, h2, h3, h4, h5, h6⟩ := exM_run
  obtain ⟨h', m', h7, hT, -⟩ := C58_fitted_partial exM 2 [exMSeq] exMKind exM_kind (by decide) (by simp)
    (by intro s hs; rw [List.mem_singleton.1 hs]; decide) exM_fits
  have h1' : fit exM (fullOf (exM.cfg 0)) (fitDisc (expandedKind exM 2 exMKind)) Heap.empty 2 [exMSeq]
    = .ok (h, m) := h1
  rw [h1'] at h7
  cases h7
  have hlen : h.leaves.length = 2 := by
    rw [← List.length_map (f := Prod.fst), h2]
    rfl
  cases hr : independentMarginals (discOps ℤ) 2 (fullOf (exM.cfg 0)) h [] m (fun _ fs => fs) exMSteps with
  | error e => rw [hr] at h6; cases h6
  | ok rs =>
    rw [hr] at h6
    have h6 : rs.map (fun r => r.leaves.map (fun l => l.2.prior)) = _ := Option.some.inj h6
    have hget : ∀ i : ℕ, (rs[i]?).map (fun r => r.leaves.map (fun l => l.2.prior))
        = (rs.map (fun r => r.leaves.map (fun l => l.2.prior)))[i]? := by
      intro i
      rw [List.getElem?_map]
    refine ⟨h, m, exMSteps, rs, h1, hT, exM_possible h5, ?_, rfl, rfl, ?_, hr, ?_, ?_⟩
    · rw [h4, hlen, h3]
      apply exact_const (c := 1 / 4) (by norm_num)
      · decide +kernel
      · decide
      · decide +kernel
    · have : (exMSteps.map (posterior discP h))[0]? = some [1 / 2, 1 / 2] := by rw [h4]; rfl
      exact Option.some.inj this
    · rw [hget, h6]
      rfl
    · rw [hget, h6]
      rfl

/-! ## C72: one step -/

theorem marginal_one {m : ℕ} (model : Fin m → Fin m → ℚ) (factor : Fin 1 → Fin m → ℚ) (l : Fin m) :
    marginal 1 m model factor 0 l = factor 0 l := by
  have h1 : marginal 1 m model factor 0 l = marginal 1 m (fun _ _ => 1) factor 0 l := by
    unfold marginal weight
    rfl
  rw [h1, marginal_const]
  simp

theorem reweighted_scale {c r : Heap D} {f g : ℕ → ℚ} {y : ℚ} (hy : y ≠ 0)
    (hfg : ∀ l ∈ c.leaves, l.2.prior * f l.1 = y * (l.2.prior * g l.1)) (hr : Reweighted c f r) :
    Reweighted c g r := by
  obtain ⟨h1, h2, h3⟩ := hr
  refine ⟨h1, h2, ?_⟩
  have hsum : (c.leaves.map (fun l => l.2.prior * f l.1)).sum
      = y * (c.leaves.map (fun l => l.2.prior * g l.1)).sum := by
    rw [← List.sum_map_mul_left]
    congr 1
    exact List.map_congr_left hfg
  rw [h3]
  apply List.map_congr_left
  intro l hl
  rw [hsum, hfg l hl, mul_div_mul_left _ _ hy]

theorem weightOf_map {keys : List ℕ} {d : List ℚ} (hl : d.length = keys.length) (f : ℚ → ℚ) {k : ℕ}
    (hk : k ∈ keys) : weightOf keys (d.map f) k = f (weightOf keys d k) := by
  have hlt : keys.idxOf k < d.length := by
    rw [hl]
    exact List.idxOf_lt_length_of_mem hk
  unfold weightOf
  rw [List.getD_eq_getElem?_getD, List.getD_eq_getElem?_getD, List.getElem?_map, List.getElem?_eq_getElem hlt]
  rfl

/-- For a single step with exact belief propagation: the result is the template given the evidence with the
prior of each leaf squared, and normalised.  The evidence, and the prior, enter twice. -/
theorem C72_one_step (L : Laws o ok fits P) {priors : List (ℕ × D)}
    (hT : Template ok fits P kind full n h priors) (e : Query) (he : Possible fits P kind n h e)
    (model : List (List ℚ)) (lbp : List (List ℚ) → List (List ℚ) → List (List ℚ))
    (hex : Exact model [posterior P h e] (lbp model [posterior P h e]) h.leaves.length) :
    ∃ c ps r, conditional o n full h priors e = .ok (c, ps) ∧
      independentMarginals o n full h priors model lbp [e] = .ok [r] ∧
      r.inner = c.inner ∧ r.root = c.root ∧
      r.leaves = c.leaves.map (fun l => (l.1, { l.2 with
        prior := l.2.prior ^ 2 / (c.leaves.map (fun l => l.2.prior ^ 2)).sum })) := by
  obtain ⟨he1, he2, he3⟩ := he
  obtain ⟨c, ps, hc, hS, hTc, -⟩ := step_ok L hT.tree hT.binary hT.sorted priors hT.priors hT.sum he1 he2 he3
  obtain ⟨hlen, hdist⟩ := hex
  obtain ⟨z, hz, hd0⟩ := hdist 0
  obtain ⟨d0, hl0⟩ : ∃ d0, lbp model [posterior P h e] = [d0] := by
    match hl : lbp model [posterior P h e], hlen with
    | [d0], _ => exact ⟨d0, rfl⟩
  have hplen : (posterior P h e).length = h.leaves.length := by simp [posterior]
  have hd0 : d0 = (posterior P h e).map (fun x => z * x) := by
    rw [hl0] at hd0
    have h1 : d0 = (List.finRange h.leaves.length).map (fun l : Fin h.leaves.length =>
        z * (posterior P h e).getD l 0) := by
      refine Eq.trans hd0 ?_
      apply List.map_congr_left
      intro l _
      congr 1
      exact marginal_one _ _ l
    rw [h1]
    conv_rhs => rw [row_eq hplen]
    rw [List.map_map]
    rfl
  have hp0 := posterior_nonneg L hT.tree he1
  have hpsum : ∃ x ∈ posterior P h e, x ≠ 0 := by
    by_contra hcon
    have hz' : ∀ x ∈ posterior P h e, x = 0 := by
      intro x hx
      by_contra hx0
      exact hcon ⟨x, hx, hx0⟩
    apply he3
    unfold mass
    apply List.sum_eq_zero
    intro x hx
    obtain ⟨l, hl, rfl⟩ := List.mem_map.1 hx
    have := hz' _ (List.mem_map.2 ⟨l, hl, rfl⟩)
    rcases div_eq_zero_iff.1 this with h1 | h1
    · exact h1
    · exact absurd h1 he3
  obtain ⟨cs, ds, rs, h1, h3, h4, h5, h6⟩ := C58_marginals_partial L hT [e]
    (by intro e' he'; rw [List.mem_singleton.1 he']; exact ⟨he1, he2, he3⟩) model lbp
    (by rw [List.map_singleton, hl0]; rfl)
    (by
      intro d hd
      rw [List.map_singleton, hl0, List.mem_singleton] at hd
      rw [hd, hd0]
      refine ⟨by rw [List.length_map, hplen], ?_, ?_⟩
      · intro x hx
        obtain ⟨y, hy, rfl⟩ := List.mem_map.1 hx
        exact mul_nonneg hz.le (hp0 y hy)
      · obtain ⟨x, hx, hx0⟩ := hpsum
        exact ⟨_, List.mem_map.2 ⟨x, hx, rfl⟩, mul_ne_zero hz.ne' hx0⟩) (by simp)
  have hcs : cs = [c] := by
    unfold ground at h1
    rw [List.mapM_cons, hc] at h1
    simp only [Except.map, bind, Except.bind, List.mapM_nil, pure, Except.pure, Except.ok.injEq,
      Prod.mk.injEq] at h1
    exact h1.1.symm
  obtain ⟨r, rfl⟩ : ∃ r, rs = [r] := by
    match rs, h5 with
    | [r], _ => exact ⟨r, rfl⟩
  rw [List.map_singleton, hl0] at h3
  obtain ⟨d, hds, hsm⟩ : ∃ d, ds = [d] ∧ Smoothed d0 d := by
    cases h3 with
    | cons ha hb =>
      cases hb
      exact ⟨_, rfl, ha⟩
  rw [hd0] at hsm
  obtain ⟨m, y, -, -, -, hy, hdy⟩ := smoothed_scale hz hsm
  have hrw := (h6 0 c d r (by rw [hcs]; rfl) (by rw [hds]; rfl) rfl).1
  have hcnd : (c.leaves.map Prod.fst).Nodup := (List.nodup_append.1 hTc.shape.nodup).2.1
  have hpk : ∀ l ∈ c.leaves, weightOf (h.leaves.map Prod.fst) (posterior P h e) l.1 = l.2.prior := by
    intro l hl
    have hk := hS.mem l hl
    rw [← hS.factor]
    unfold priorFactor weightOf
    have : (h.leaves.map Prod.fst).idxOf l.1 < (h.leaves.map Prod.fst).length := List.idxOf_lt_length_of_mem hk
    rw [List.getD_eq_getElem?_getD, List.getElem?_map, List.getElem?_eq_getElem this, Option.map_some,
      Option.getD_some, List.getElem_idxOf, Dict.mem_lookup hcnd (k := l.1) (b := l.2) hl]
    rfl
  have hfg : ∀ l ∈ c.leaves, l.2.prior * weightOf (h.leaves.map Prod.fst) d l.1
      = y * (l.2.prior * ((c.leaves.lookup l.1).map (fun l => l.prior)).getD 0) := by
    intro l hl
    rw [hdy, weightOf_map (by rw [hplen, List.length_map]) _ (hS.mem l hl), hpk l hl,
      Dict.mem_lookup hcnd (k := l.1) (b := l.2) hl]
    simp only [Option.map_some, Option.getD_some]
    by_cases h0 : l.2.prior = 0
    · rw [h0]
      ring
    · rw [if_neg h0]
      ring
  obtain ⟨hr1, hr2, hr3⟩ := reweighted_scale hy.ne'
    (g := fun k => ((c.leaves.lookup k).map (fun l => l.prior)).getD 0) hfg hrw
  refine ⟨c, ps, r, hc, h4, hr1, hr2, ?_⟩
  have hsq : ∀ l ∈ c.leaves, l.2.prior * ((c.leaves.lookup l.1).map (fun l => l.prior)).getD 0
      = l.2.prior ^ 2 := by
    intro l hl
    rw [Dict.mem_lookup hcnd (k := l.1) (b := l.2) hl]
    simp only [Option.map_some, Option.getD_some]
    ring
  rw [hr3]
  apply List.map_congr_left
  intro l hl
  rw [hsq l hl, List.map_congr_left hsq]

/-- So it is the conditional tree if all its leaves have the same prior.  Missing: other trees, see
`C72_violated_square`. -/
theorem C72_equal_partial (L : Laws o ok fits P) {priors : List (ℕ × D)}
    (hT : Template ok fits P kind full n h priors) (e : Query) (he : Possible fits P kind n h e)
    (model : List (List ℚ)) (lbp : List (List ℚ) → List (List ℚ) → List (List ℚ))
    (hex : Exact model [posterior P h e] (lbp model [posterior P h e]) h.leaves.length)
    (c : Heap D) (ps : List (ℕ × D)) (hc : conditional o n full h priors e = .ok (c, ps)) (p : ℚ)
    (hp : ∀ l ∈ c.leaves, l.2.prior = p) :
    independentMarginals o n full h priors model lbp [e] = .ok [c] := by
  obtain ⟨c', ps', r, h1, h2, h3, h4, h5⟩ := C72_one_step L hT e he model lbp hex
  rw [hc] at h1
  cases h1
  obtain ⟨he1, he2, he3⟩ := he
  obtain ⟨c', ps', hc', hS, -, -⟩ := step_ok L hT.tree hT.binary hT.sorted priors hT.priors hT.sum he1 he2 he3
  rw [hc] at hc'
  cases hc'
  have hsq : (c.leaves.map (fun l => l.2.prior ^ 2)).sum = p := by
    have h6 : (c.leaves.map (fun l => l.2.prior ^ 2)) = c.leaves.map (fun l => p * l.2.prior) := by
      apply List.map_congr_left
      intro l hl
      rw [hp l hl]
      ring
    rw [h6, List.sum_map_mul_left, hS.sum, mul_one]
  have hpne : p ≠ 0 := by
    intro h0
    have : (c.leaves.map (fun l => l.2.prior)).sum = 0 := by
      apply List.sum_eq_zero
      intro x hx
      obtain ⟨l, hl, rfl⟩ := List.mem_map.1 hx
      rw [hp l hl, h0]
    rw [hS.sum] at this
    exact one_ne_zero this
  have hleaves : r.leaves = c.leaves := by
    rw [h5, hsq]
    conv_rhs => rw [← List.map_id c.leaves]
    apply List.map_congr_left
    intro l hl
    have : l.2.prior ^ 2 / p = l.2.prior := by
      rw [hp l hl]
      field_simp
    rw [this]
    rfl
  have : r = c := by
    obtain ⟨ri, rl, rr⟩ := r
    obtain ⟨ci, cl, cr⟩ := c
    cases h3
    cases h4
    cases hleaves
    rfl
  rw [h2, this]

/-- A fitted template with leaf priors 2/3 and 1/3, given the evidence; the result has 4/5 and 1/5. -/
theorem C72_violated_square : ∃ (h : Heap (DD ℤ)) (m : List (List ℚ)) (e : Query) (c r : Heap (DD ℤ))
    (ps : List (ℕ × DD ℤ)),
    exMFit [exMSeq] = .ok (h, m) ∧
    Template discOk discFits discP exMKind (fullOf (exM.cfg 0)) 2 h [] ∧
    Possible discFits discP exMKind 2 h e ∧
    Exact m [posterior discP h e] [posterior discP h e] h.leaves.length ∧
    conditional (discOps ℤ) 2 (fullOf (exM.cfg 0)) h [] e = .ok (c, ps) ∧
    c.leaves.map (fun l => l.2.prior) = [2 / 3, 1 / 3] ∧
    independentMarginals (discOps ℤ) 2 (fullOf (exM.cfg 0)) h [] m (fun _ fs => fs) [e] = .ok [r] ∧
    r.leaves.map (fun l => l.2.prior) = [4 / 5, 1 / 5] := by
  obtain ⟨h, m, h1, h2, h3, h4, h5, -⟩ := exM_run
  obtain ⟨h', m', h7, hT, -⟩ := C58_fitted_partial exM 2 [exMSeq] exMKind exM_kind (by decide) (by simp)
    (by intro s hs; rw [List.mem_singleton.1 hs]; decide) exM_fits
  have h1' : fit exM (fullOf (exM.cfg 0)) (fitDisc (expandedKind exM 2 exMKind)) Heap.empty 2 [exMSeq]
    = .ok (h, m) := h1
  rw [h1'] at h7
  cases h7
  have he := exM_possible h5 [(1, .set [0])] (by unfold exMSteps; simp)
  have hex : Exact m [posterior discP h [(1, .set [0])]] [posterior discP h [(1, .set [0])]] h.leaves.length :=
    exact_one m (by simp [posterior])
  obtain ⟨c, ps, r, h8, h9, -, -, h10⟩ := C72_one_step disc_laws hT _ he m (fun _ fs => fs) hex
  have hpr : c.leaves.map (fun l => l.2.prior) = [2 / 3, 1 / 3] := by
    obtain ⟨r', h11, h12⟩ : ∃ r, exMFit [exMSeq] = .ok r ∧ okAnd (conditional (discOps ℤ) 2 (fullOf (exM.cfg 0)) r.1 []
      [(1, .set [0])]) (fun x => decide (x.1.leaves.map (fun l => l.2.prior) = [2 / 3, 1 / 3])) = true :=
      exists_ok (by decide +kernel)
    rw [h1] at h11
    cases h11
    obtain ⟨x, h13, h14⟩ := okAnd_true h12
    have h8' : conditional (discOps ℤ) 2 (fullOf (exM.cfg 0)) h [] [(1, .set [0])] = .ok (c, ps) := h8
    simp only at h13
    rw [h8'] at h13
    cases h13
    exact of_decide_eq_true h14
  refine ⟨h, m, [(1, .set [0])], c, r, ps, h1, hT, he, hex, h8, hpr, h9, ?_⟩
  have hsq : (c.leaves.map (fun l => l.2.prior ^ 2)).sum = 5 / 9 := by
    have : c.leaves.map (fun l => l.2.prior ^ 2) = (c.leaves.map (fun l => l.2.prior)).map (fun x => x ^ 2) := by
      rw [List.map_map]
      rfl
    rw [this, hpr]
    decide +kernel
  rw [h10, List.map_map, hsq]
  have : c.leaves.map (fun l => l.2.prior ^ 2 / (5 / 9)) = (c.leaves.map (fun l => l.2.prior)).map
      (fun x => x ^ 2 / (5 / 9)) := by
    rw [List.map_map]
    rfl
  refine Eq.trans this ?_
  rw [hpr]
  decide +kernel

/-! ## C73: JSON -/

/-- Saving a fitted sequential tree and loading it gives back its nodes and its transition model; one that
was never fitted cannot be saved. -/
theorem C73_json (L : Laws o ok fits P) (hT : TreeOK ok fits P kind full n h) (hs : Sorted h)
    (m : List (List ℚ)) :
    jsonRoundTrip o h (some m) = .ok (h, some m) ∧ jsonRoundTrip o h none = .error .attributeError := by
  have h1 := (C52_nodes L hT hs [] (by intro b hb; cases hb)).1
  unfold copy at h1
  unfold jsonRoundTrip
  cases hj : toJson h with
  | error x => rw [hj] at h1; cases h1
  | ok j =>
    rw [hj] at h1
    simp only [bind, Except.bind] at h1 ⊢
    exact ⟨by rw [h1]; rfl, trivial⟩

/-- In particular after fitting, over symbolic and integer variables. -/
theorem C73_fitted {L : Type} [DecidableEq L] (a : Args) (w : ℕ) (ss : List Sequence)
    (kind : ℕ → Bool × Disc.Dom L) (hk : Discrete (a.cfg 0) kind) (hw : 1 ≤ w) (h0 : ss ≠ [])
    (hlen : ∀ s ∈ ss, w ≤ s.length ∧ 2 ≤ s.length) (hfit : ∀ s ∈ ss, ∀ x ∈ s, Fits a.vars x) :
    ∃ h m, fit a (fullOf (a.cfg 0)) (fitDisc (expandedKind a w kind)) Heap.empty w ss = .ok (h, m) ∧
      jsonRoundTrip (discOps L) h (some m) = .ok (h, some m) := by
  obtain ⟨h, m, h1, h2, -, h4, -⟩ := fit_tree hk Heap.empty hw h0 hlen hfit rfl
  exact ⟨h, m, h1, (C73_json disc_laws h2 h4 m).1⟩

example : ∃ h m, exMFit [exMSeq] = .ok (h, m) ∧ jsonRoundTrip (discOps ℤ) h (some m) = .ok (h, some m) :=
  C73_fitted exM 2 [exMSeq] exMKind exM_kind (by decide) (by simp)
    (by intro s hs; rw [List.mem_singleton.1 hs]; decide) exM_fits

end Verif.Seq
