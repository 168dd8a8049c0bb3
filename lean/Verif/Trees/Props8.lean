import Verif.Trees.LikelihoodLemmas
import Verif.Trees.Props6

/-!
# Properties of the likelihood of worlds
-/

namespace Verif.Trees

open Learn (Cfg Data learn Valid Sat DataOK fullOf domainOf exists_ok)
open Disc (Dom)

variable {L : Type} [DecidableEq L] {val : ℤ → ℚ} {idx : ℚ → ℤ} {kind : ℕ → MK L} {c : Cfg} {data : Data} {total : ℕ}
  {eps : ℚ}

/-! ## C84 -/

/-- The likelihoods of worlds in a learned tree: in every leaf the product of the relative frequencies of the labels
and of the densities of the numbers, weighted with the share of the rows in the leaf.  Where all numbers of a leaf are the
same, the density of this number is the given scaling, divided by the minimal distance of the variable.

Partial: the full claim includes trees learned with `close_convex_gaps`, whose distributions C83 describes, and scaled
variables. -/
theorem C84_world_partial (hval : StrictMono val) (hidx : ∀ n, idx (val n) = n) (hk : Kinds c kind)
    (hdata : DataOK c data total) {h : Heap (MD L)}
    (hl : learn c data total (fitMix val idx eps kind data) = .ok h) (scaling : ℚ) (dists : List (ℕ × ℚ))
    (hdist : ∀ v, v < c.vars.length → kind v = .inl () → ∃ δ, dists.lookup v = some δ ∧ δ ≠ 0)
    (ws : List (ℕ → Cell L)) (hne : ws ≠ [])
    (hw : ∀ w ∈ ws, ∀ v, v < c.vars.length → CellOK val (kind v) (w v)) :
    ∃ dens : Leaf (MD L) → ℕ → Cell L → ℚ,
      likelihood idx scaling dists kind c.vars.length h (ws.map (fun w => (List.range c.vars.length).map w)) =
        .ok (ws.map (fun w => (h.leaves.map (fun l =>
          l.2.prior * ((List.range c.vars.length).map (fun v => dens l.2 v (w v))).prod)).sum)) ∧
      ∀ l ∈ h.leaves, l.2.prior = (l.2.rows.length : ℚ) / total ∧ ∀ v, v < c.vars.length →
        (∀ k, kind v = .inr k → ∀ x ∈ k.2.labels, dens l.2 v (.inr x) =
          (l.2.rows.countP (fun r => decide (data r v = (k.2.labels.idxOf x : ℚ))) : ℚ) / l.2.rows.length) ∧
        (kind v = .inl () → ∀ δ, dists.lookup v = some δ → ∃ p F,
          Num.fit val eps (l.2.rows.map (fun r => idx (data r v))) = .ok p ∧
          (∀ n, p.eval val n = .ok (some (F n))) ∧
          NumDensity val (scaling / δ) (l.2.rows.map (fun r => idx (data r v))) F
            (fun n => dens l.2 v (.inl (val n)))) := by
  obtain ⟨ix, hI⟩ := Learn.learn_inv hdata hl
  have hrow : ∀ e ∈ h.leaves, ∀ r ∈ e.2.rows, r < total := by
    intro e he r hr
    have := hI.rows.mem_iff (a := r)
    simp only [List.flatMap_nil, List.append_nil, List.mem_flatMap, List.mem_range] at this
    exact this.1 ⟨e, he, hr⟩
  have hdists : ∀ l ∈ h.leaves, ∀ v, v < c.vars.length →
      l.2.dists[v]? = some (fitMix val idx eps kind data l.2.rows v) := by
    intro l hl' v hv
    rw [(hI.leaf l hl').dists, List.getElem?_map, List.getElem?_range hv]
    rfl
  have hlen : ∀ l ∈ h.leaves, l.2.dists.length = c.vars.length := fun l hl' => by
    rw [(hI.leaf l hl').dists]; simp
  have hnd : ∀ v, v < c.vars.length → ∀ k', kind v = .inr k' → k'.2.labels.Nodup := by
    intro v hv k' hk'
    obtain ⟨h1, h2⟩ := hk.discrete hv hk'
    rw [← h2]; exact h1.1
  -- the factors
  have hdisc : ∀ l ∈ h.leaves, ∀ v, v < c.vars.length → ∀ k, kind v = .inr k → ∀ x ∈ k.2.labels,
      cellDensity idx scaling dists (fitMix val idx eps kind data l.2.rows v) v (store (kind v) (.inr x)) =
        .ok ((l.2.rows.countP (fun r => decide (data r v = (k.2.labels.idxOf x : ℚ))) : ℚ) / l.2.rows.length) := by
    intro l hl' v hv k hkv x hx
    obtain ⟨h1, h2⟩ := hk.discrete hv hkv
    obtain ⟨h3, h4⟩ := fitDisc_spec h1 (fun r hr => hdata r (hrow l hl' r hr)) (hI.leaf l hl').nonempty
    have hi : k.2.labels.idxOf x < k.2.labels.length := List.idxOf_lt_length_iff.2 hx
    simp only [fitMix, hkv, store]
    rw [disc_density (k := k) (by rw [← h2]; exact h3) hi, h4]
    congr 3
    apply List.countP_congr
    intro r hr
    simp only [decide_eq_true_eq]
    constructor
    · intro hm
      obtain ⟨z, hz, e⟩ := hm
      rw [List.mem_singleton.1 hz] at e
      exact_mod_cast XQ.fin.inj e
    · intro e
      exact ⟨((k.2.labels.idxOf x : ℕ) : ℤ), by simp, by rw [e]; simp⟩
  have hnum : ∀ l ∈ h.leaves, ∀ v, v < c.vars.length → kind v = .inl () → ∀ δ, dists.lookup v = some δ → δ ≠ 0 →
      ∃ (F g : ℤ → ℚ), Num.fit val eps (l.2.rows.map (fun r => idx (data r v))) = .ok (fitNum val idx eps data l.2.rows v) ∧
        (∀ n, (fitNum val idx eps data l.2.rows v).eval val n = .ok (some (F n))) ∧
        NumDensity val (scaling / δ) (l.2.rows.map (fun r => idx (data r v))) F g ∧
        ∀ n, cellDensity idx scaling dists (fitMix val idx eps kind data l.2.rows v) v (store (kind v) (.inl (val n))) =
          .ok (g n) := by
    intro l hl' v hv hkv δ hδ h0
    obtain ⟨p, F, g, h1, h2, h3, h4⟩ := num_density (L := L) (scaling := scaling) (eps := eps) hval hidx
      (s := l.2.rows.map (fun r => idx (data r v))) (by simpa using (hI.leaf l hl').nonempty) hδ h0
    have hp : fitNum val idx eps data l.2.rows v = p := by unfold fitNum; rw [h1]
    refine ⟨F, g, by rw [h1, hp], by rw [hp]; exact h2, h3, fun n => ?_⟩
    simp only [fitMix, hkv, store, hp]
    exact h4 n
  refine ⟨factorOf idx scaling dists kind, likelihood_ok hlen hnd hne hw (fun l hl' v d hd x hx => ?_), fun l hl' =>
    ⟨(hI.leaf l hl').prior, fun v hv => ⟨fun k hkv x hx => factorOf_eq (hdists l hl' v hv) (hdisc l hl' v hv k hkv x hx),
      fun hkv δ hδ => ?_⟩⟩⟩
  · have hv : v < c.vars.length := by
      have := (List.getElem?_eq_some_iff.1 hd).1
      rw [hlen l hl'] at this; exact this
    rw [hdists l hl' v hv] at hd
    obtain rfl := Option.some.inj hd
    cases hkv : kind v with
    | inl u =>
      rw [hkv] at hx
      cases x with
      | inr y => exact hx.elim
      | inl y =>
        obtain ⟨n, rfl⟩ := hx
        obtain ⟨δ, h1, h2⟩ := hdist v hv hkv
        obtain ⟨F, g, -, -, -, h3⟩ := hnum l hl' v hv hkv δ h1 h2
        rw [← hkv, h3, factorOf_eq (hdists l hl' v hv) (h3 n)]
    | inr k =>
      rw [hkv] at hx
      cases x with
      | inl y => exact hx.elim
      | inr y =>
        have := hdisc l hl' v hv k hkv y hx
        rw [← hkv, this, factorOf_eq (hdists l hl' v hv) this]
  · obtain ⟨δ', h1, h2⟩ := hdist v hv hkv
    rw [hδ] at h1
    obtain rfl := Option.some.inj h1
    obtain ⟨F, g, h3, h4, h5, h6⟩ := hnum l hl' v hv hkv δ hδ h2
    refine ⟨_, F, h3, h4, ?_⟩
    have : (fun n => factorOf idx scaling dists kind l.2 v (.inl (val n))) = g := by
      funext n
      exact factorOf_eq (hdists l hl' v hv) (h6 n)
    rw [this]
    exact h5

/-- Every row the tree was learned from has a positive likelihood.

Partial: as for `C84_world_partial`. -/
theorem C84_training_partial (hval : StrictMono val) (hidx : ∀ n, idx (val n) = n) (hk : Kinds c kind)
    (hdata : DataOK c data total) (hfl : Floats val c data total) {h : Heap (MD L)}
    (hl : learn c data total (fitMix val idx eps kind data) = .ok h) (scaling : ℚ) (hs : 0 < scaling)
    (dists : List (ℕ × ℚ))
    (hdist : ∀ v, v < c.vars.length → kind v = .inl () → ∃ δ, dists.lookup v = some δ ∧ 0 < δ)
    (r : ℕ) (hr : r < total) (w : ℕ → Cell L) (hw : ∀ v, v < c.vars.length → Stored (kind v) (w v) (data r v)) :
    ∃ x, likelihood idx scaling dists kind c.vars.length h [(List.range c.vars.length).map w] = .ok [x] ∧ 0 < x := by
  obtain ⟨ix, hI⟩ := Learn.learn_inv hdata hl
  have hok : ∀ v, v < c.vars.length → CellOK val (kind v) (w v) := by
    intro v hv
    have := hw v hv
    cases hkv : kind v with
    | inl u =>
      rw [hkv] at this
      cases hx : w v with
      | inr y => rw [hx] at this; exact this.elim
      | inl y =>
        rw [hx] at this
        obtain ⟨n, hn⟩ := hfl v (hk.numeric hv hkv) r r hr hr
        refine ⟨n, ?_⟩
        have e : data r v = y := this
        rw [← hn, ← e]; ring
    | inr k =>
      rw [hkv] at this
      cases hx : w v with
      | inl y => rw [hx] at this; exact this.elim
      | inr y =>
        rw [hx] at this
        obtain ⟨i, h1, -⟩ := this
        exact List.mem_of_getElem? h1
  obtain ⟨dens, h1, h2⟩ := C84_world_partial hval hidx hk hdata hl scaling dists
    (fun v hv hkv => by
      obtain ⟨δ, h1, h2⟩ := hdist v hv hkv
      exact ⟨δ, h1, h2.ne'⟩) [w] (by simp) (by simpa using hok)
  refine ⟨_, h1, ?_⟩
  obtain ⟨e, he, hre⟩ : ∃ e ∈ h.leaves, r ∈ e.2.rows := by
    have := hI.rows.mem_iff (a := r)
    simp only [List.flatMap_nil, List.append_nil, List.mem_flatMap, List.mem_range] at this
    exact this.2 hr
  have htot : (0 : ℚ) < total := by exact_mod_cast (by omega : 0 < total)
  have hnn : ∀ l ∈ h.leaves, ∀ v, v < c.vars.length → 0 ≤ dens l.2 v (w v) := by
    intro l hl' v hv
    obtain ⟨h3, h4⟩ := (h2 l hl').2 v hv
    have hc := hok v hv
    cases hkv : kind v with
    | inl u =>
      rw [hkv] at hc
      cases hx : w v with
      | inr y => rw [hx] at hc; exact hc.elim
      | inl y =>
        rw [hx] at hc
        obtain ⟨n, rfl⟩ := hc
        obtain ⟨δ, h5, h6⟩ := hdist v hv hkv
        obtain ⟨p, F, -, -, h7⟩ := h4 hkv δ h5
        exact h7.nonneg (div_pos hs h6).le n
    | inr k =>
      rw [hkv] at hc
      cases hx : w v with
      | inl y => rw [hx] at hc; exact hc.elim
      | inr y =>
        rw [hx] at hc
        rw [h3 k hkv y hc]
        positivity
  rw [Num.map_sum_pos']
  · refine ⟨e, he, mul_pos ?_ (List.prod_pos ?_)⟩
    · rw [(h2 e he).1]
      have : 0 < e.2.rows.length := List.length_pos_iff.2 (hI.leaf e he).nonempty
      have : (0 : ℚ) < e.2.rows.length := by exact_mod_cast this
      positivity
    · intro y hy
      obtain ⟨v, hv, rfl⟩ := List.mem_map.1 hy
      have hv := List.mem_range.1 hv
      obtain ⟨h3, h4⟩ := (h2 e he).2 v hv
      have hc := hw v hv
      have hc' := hok v hv
      cases hkv : kind v with
      | inl u =>
        rw [hkv] at hc hc'
        cases hx : w v with
        | inr y => rw [hx] at hc; exact hc.elim
        | inl y =>
          rw [hx] at hc hc'
          obtain ⟨n, hn⟩ := hc'
          have e1 : data r v = y := hc
          subst hn
          obtain ⟨δ, h5, h6⟩ := hdist v hv hkv
          obtain ⟨p, F, -, -, h7⟩ := h4 hkv δ h5
          refine h7.pos (div_pos hs h6) (n := n) ?_
          exact List.mem_map.2 ⟨r, hre, by rw [e1, hidx]⟩
      | inr k =>
        rw [hkv] at hc hc'
        cases hx : w v with
        | inl y => rw [hx] at hc; exact hc.elim
        | inr y =>
          rw [hx] at hc hc'
          obtain ⟨i, h5, h6⟩ := hc
          rw [h3 k hkv y hc']
          have hd := hk.discrete hv hkv
          have hnd : k.2.labels.Nodup := by rw [← hd.2]; exact hd.1.1
          have hi : k.2.labels.idxOf y = i := by
            obtain ⟨h7, rfl⟩ := List.getElem?_eq_some_iff.1 h5
            exact List.Nodup.idxOf_getElem hnd i h7
          have hpos : 0 < e.2.rows.countP (fun r => decide (data r v = (k.2.labels.idxOf y : ℚ))) := by
            rw [List.countP_pos_iff]
            exact ⟨r, hre, by simp [h6, hi]⟩
          have : 0 < e.2.rows.length := List.length_pos_iff.2 (hI.leaf e he).nonempty
          have h8 : (0 : ℚ) < e.2.rows.length := by exact_mod_cast this
          have h9 : (0 : ℚ) < (e.2.rows.countP (fun r => decide (data r v = (k.2.labels.idxOf y : ℚ))) : ℚ) := by
            exact_mod_cast hpos
          exact div_pos h9 h8
  · intro l hl'
    refine mul_nonneg ?_ (List.prod_nonneg ?_)
    · rw [(h2 l hl').1]; positivity
    · intro y hy
      obtain ⟨v, hv, rfl⟩ := List.mem_map.1 hy
      exact hnn l hl' v (List.mem_range.1 hv)

/-- The likelihood of a world is its probability if all variables are symbolic or integer variables: the answer of
`infer` to the query for this world. -/
theorem C84_probability {full : ℕ → Region} {n : ℕ} {h : Heap (MD L)}
    (ht : TreeOK (mixOk val) (mixFits val) (mixP val idx) kind full n h)
    (hkind : ∀ v, v < n → ∃ k, kind v = .inr k ∧ k.2.labels.Nodup) (scaling : ℚ) (dists : List (ℕ × ℚ))
    (ws : List (ℕ → L)) (hne : ws ≠ []) (hw : ∀ w ∈ ws, ∀ v, v < n → ∀ k, kind v = .inr k → w v ∈ k.2.labels) :
    likelihood idx scaling dists kind n h (ws.map (fun w => (List.range n).map (fun v => .inr (w v)))) =
      .ok (ws.map (fun w => mass (mixP val idx) h (worldQuery kind n w))) := by
  have hcell : ∀ w ∈ ws, ∀ v, v < n → CellOK val (kind v) (.inr (w v)) := by
    intro w hw' v hv
    obtain ⟨k, hk, -⟩ := hkind v hv
    have := hw w hw' v hv k hk
    rw [hk]; exact this
  have hmap : ws.map (fun w => (List.range n).map (fun v => (.inr (w v) : Cell L))) =
      (ws.map (fun w v => (.inr (w v) : Cell L))).map (fun w => (List.range n).map w) := by
    rw [List.map_map]; rfl
  rw [hmap, likelihood_ok (val := val) (g := factorOf idx scaling dists kind) (fun l hl => (ht.dists l hl).1)
    (fun v hv k hk => by
      obtain ⟨k', h1, h2⟩ := hkind v hv
      rw [hk] at h1; cases h1; exact h2) (by simpa using hne) ?_ ?_]
  · rw [List.map_map]
    congr 1
    apply List.map_congr_left
    intro w hw'
    simp only [Function.comp, mass, leafProb, worldQuery, List.map_map]
    congr 1
    apply List.map_congr_left
    intro l hl
    congr 2
    apply List.map_congr_left
    intro v hv
    have hv := List.mem_range.1 hv
    obtain ⟨k, hk, hnd⟩ := hkind v hv
    obtain ⟨h1, h2⟩ := ht.dists l hl
    have hd : l.2.dists[v]? = some l.2.dists[v] := List.getElem?_eq_getElem (by omega)
    have hok := h2 v _ hd
    have hx := hw w hw' v hv k hk
    simp only [Function.comp, hd, hk, worldRegion]
    generalize l.2.dists[v] = d at hd hok
    rw [hk] at hok
    cases d with
    | inl d => exact hok.elim
    | inr d =>
      exact factorOf_eq hd (by
        simp only [hk, store]
        exact disc_density (k := k) hok (List.idxOf_lt_length_iff.2 hx) v)
  · intro w hw'
    obtain ⟨w', h1, rfl⟩ := List.mem_map.1 hw'
    exact hcell w' h1
  · intro l hl v d hd x hx
    have hv : v < n := by
      have := (List.getElem?_eq_some_iff.1 hd).1
      rw [(ht.dists l hl).1] at this; exact this
    obtain ⟨k, hk, hnd⟩ := hkind v hv
    have hok := (ht.dists l hl).2 v _ hd
    rw [hk] at hx hok
    cases x with
    | inl y => exact hx.elim
    | inr y =>
      cases d with
      | inl d => exact hok.elim
      | inr d =>
        have := disc_density (idx := idx) (scaling := scaling) (dists := dists) (k := k) hok
          (List.idxOf_lt_length_iff.2 hx) v
        have h2 : cellDensity idx scaling dists (.inr d) v (store (kind v) (.inr y)) =
            .ok (discP d (.set [((k.2.labels.idxOf y : ℕ) : ℤ)])) := by
          simp only [hk, store]; exact this
        rw [h2, factorOf_eq hd h2]

/-- The likelihoods of all worlds add up to one if all variables are symbolic or integer variables and the priors of the
leaves add up to one. -/
theorem C84_total {full : ℕ → Region} {n : ℕ} {h : Heap (MD L)}
    (ht : TreeOK (mixOk val) (mixFits val) (mixP val idx) kind full n h)
    (hkind : ∀ v, v < n → ∃ k, kind v = .inr k ∧ k.2.labels.Nodup) (hone : h.priorSum = 1)
    (scaling : ℚ) (dists : List (ℕ × ℚ)) :
    ∃ ps, likelihood idx scaling dists kind n h
        ((worlds ((List.range n).map (labelsOf kind))).map (fun w => w.map .inr)) = .ok ps ∧ ps.sum = 1 := by
  set labs := (List.range n).map (labelsOf kind) with hlabs
  have hlabn : labs.length = n := by simp [hlabs]
  have hget : ∀ v, v < n → labs[v]? = some (labelsOf kind v) := by
    intro v hv
    rw [hlabs, List.getElem?_map, List.getElem?_range hv]; rfl
  have hlk : ∀ v k, kind v = .inr k → labelsOf kind v = k.2.labels := by
    intro v k hk; unfold labelsOf; rw [hk]
  -- the factors
  have hfac : ∀ l ∈ h.leaves, ∀ v, v < n → ∀ k, kind v = .inr k → ∃ d : DD L, l.2.dists[v]? = some (.inr d) ∧ discOk k d ∧
      ∀ x ∈ k.2.labels, cellDensity idx scaling dists (.inr d) v (store (kind v) (.inr x)) =
        .ok (discP d (.set [((k.2.labels.idxOf x : ℕ) : ℤ)])) := by
    intro l hl v hv k hk
    have hd : l.2.dists[v]? = some (l.2.dists[v]'(by rw [(ht.dists l hl).1]; exact hv)) :=
      List.getElem?_eq_getElem _
    have hok := (ht.dists l hl).2 v _ hd
    generalize l.2.dists[v]'(by rw [(ht.dists l hl).1]; exact hv) = d at hd hok
    rw [hk] at hok
    cases d with
    | inl d => exact hok.elim
    | inr d =>
      refine ⟨d, hd, hok, fun x hx => ?_⟩
      simp only [hk, store]
      exact disc_density (k := k) hok (List.idxOf_lt_length_iff.2 hx) v
  have hsum : ∀ l ∈ h.leaves, ∀ v, v < n →
      ((labelsOf kind v).map (fun x => factorOf idx scaling dists kind l.2 v (.inr x))).sum = 1 := by
    intro l hl v hv
    obtain ⟨k, hk, -⟩ := hkind v hv
    obtain ⟨d, h1, h2, h3⟩ := hfac l hl v hv k hk
    rw [hlk v k hk, ← discP_sum h2]
    congr 1
    apply List.map_congr_left
    intro x hx
    exact factorOf_eq h1 (h3 x hx)
  have hleaf : ∃ l, l ∈ h.leaves := by
    by_contra hc
    push Not at hc
    have : h.leaves = [] := List.eq_nil_iff_forall_not_mem.2 hc
    unfold Heap.priorSum at hone
    rw [this] at hone
    simp at hone
  obtain ⟨l₀, hl₀⟩ := hleaf
  have hwne : worlds labs ≠ [] := by
    apply worlds_ne
    intro ls hls hnil
    obtain ⟨v, hv, rfl⟩ := List.mem_map.1 hls
    have := hsum l₀ hl₀ v (List.mem_range.1 hv)
    rw [hnil] at this
    simp at this
  set fw : List L → ℕ → Cell L := fun w v => match w[v]? with
    | some l => .inr l
    | none => .inl 0 with hfw
  have hrow : (worlds labs).map (fun w => w.map (Sum.inr : L → Cell L)) =
      ((worlds labs).map fw).map (fun w => (List.range n).map w) := by
    rw [List.map_map]
    apply List.map_congr_left
    intro w hw
    obtain ⟨h1, h2⟩ := worlds_mem hw
    apply List.ext_getElem
    · simp [h1, hlabn]
    · intro i h3 h4
      have hi : i < w.length := by simpa using h3
      simp only [List.getElem_map, Function.comp, List.getElem_range, hfw, List.getElem?_eq_getElem hi]
  rw [hrow, likelihood_ok (val := val) (g := factorOf idx scaling dists kind) (fun l hl => (ht.dists l hl).1)
    (fun v hv k hk => by
      obtain ⟨k', h1, h2⟩ := hkind v hv
      rw [hk] at h1; cases h1; exact h2) (by simpa using hwne) ?_ ?_]
  · refine ⟨_, rfl, ?_⟩
    rw [List.map_map]
    have hswap : ∀ (ls : List (ℕ × Leaf (MD L))) (ws : List (List L)) (f : ℕ × Leaf (MD L) → List L → ℚ),
        (ws.map (fun w => (ls.map (fun l => f l w)).sum)).sum = (ls.map (fun l => (ws.map (f l)).sum)).sum := by
      intro ls ws f
      induction ws with
      | nil => simp
      | cons w ws ih => simp only [List.map_cons, List.sum_cons, ih, List.sum_map_add]
    have := hswap h.leaves (worlds labs) (fun l w =>
      l.2.prior * ((List.range n).map (fun v => factorOf idx scaling dists kind l.2 v (fw w v))).prod)
    simp only [Function.comp_def]
    rw [this, ← hone]
    unfold Heap.priorSum
    congr 1
    apply List.map_congr_left
    intro l hl
    rw [List.sum_map_mul_left]
    have hws := worlds_sum labs (factorOf idx scaling dists kind l.2)
    rw [hlabn] at hws
    refine (congrArg (l.2.prior * ·) hws).trans ?_
    have : (List.range n).map (fun v => ((labs.getD v []).map (fun x =>
        factorOf idx scaling dists kind l.2 v (.inr x))).sum) = (List.range n).map (fun _ => (1 : ℚ)) := by
      apply List.map_congr_left
      intro v hv
      have hv := List.mem_range.1 hv
      rw [List.getD_eq_getElem?_getD, hget v hv]
      exact hsum l hl v hv
    rw [this]
    simp
  · intro w hw v hv
    obtain ⟨w', h1, rfl⟩ := List.mem_map.1 hw
    obtain ⟨x, h2, h3⟩ := (worlds_mem h1).2 v _ (hget v hv)
    obtain ⟨k, hk, -⟩ := hkind v hv
    rw [hlk v k hk] at h3
    simp only [hfw, h2, hk]
    exact h3
  · intro l hl v d hd x hx
    have hv : v < n := by
      have := (List.getElem?_eq_some_iff.1 hd).1
      rw [(ht.dists l hl).1] at this; exact this
    obtain ⟨k, hk, hnd⟩ := hkind v hv
    obtain ⟨d', h1, h2, h3⟩ := hfac l hl v hv k hk
    rw [hd] at h1
    obtain rfl := Option.some.inj h1
    rw [hk] at hx
    cases x with
    | inl y => exact hx.elim
    | inr y => rw [h3 y hx, factorOf_eq hd (h3 y hx)]

/-- A table without rows, a row that is too short, a label that is not in the domain and a value of the wrong kind are
rejected: no likelihood is computed for any row. -/
theorem C84_rejected (n : ℕ) (h : Heap (MD L)) (scaling : ℚ) (dists : List (ℕ × ℚ)) (rows : List (List (Cell L)))
    (hrows : rows = [] ∨ ∃ row ∈ rows, ∃ v, v < n ∧ ¬ ∃ x q, row[v]? = some x ∧ Stored (kind v) x q) :
    likelihood idx scaling dists kind n h rows = .error .valueError ∨
      (∃ row ∈ rows, row.length < n) ∧ likelihood idx scaling dists kind n h rows = .error .indexError := by
  have hpre : preprocess kind n rows = .error .valueError ∨
      (∃ row ∈ rows, row.length < n) ∧ preprocess kind n rows = .error .indexError := by
    unfold preprocess
    rcases hrows with rfl | ⟨row, hrow, v, hv, hc⟩
    · exact .inl rfl
    · rw [if_neg (List.ne_nil_of_mem hrow)]
      cases hm : rows.mapM (preprocessRow kind n) with
      | ok ws =>
        exfalso
        obtain ⟨w, -, hw⟩ := forall₂_left' ((mapM_ok_iff _ _ _).1 hm) hrow
        unfold preprocessRow at hw
        obtain ⟨q, -, hq⟩ := forall₂_left' ((mapM_ok_iff _ _ _).1 hw) (List.mem_range.2 hv)
        cases hx : row[v]? with
        | none => rw [hx] at hq; cases hq
        | some x =>
          rw [hx] at hq
          exact hc ⟨x, q, hx, stored_of_cell hq⟩
      | error e =>
        obtain ⟨r, hr, he⟩ := mapM_error _ e _ hm
        unfold preprocessRow at he
        obtain ⟨u, hu, he⟩ := mapM_error _ e _ he
        cases hx : r[u]? with
        | none =>
          rw [hx] at he
          obtain rfl := Except.error.inj he
          have := List.getElem?_eq_none_iff.1 hx
          exact .inr ⟨⟨r, hr, by have := List.mem_range.1 hu; omega⟩, rfl⟩
        | some x =>
          rw [hx] at he
          left
          rw [cell_error he]
  unfold likelihood
  rcases hpre with h1 | ⟨h0, h1⟩
  · rw [h1]; exact .inl rfl
  · rw [h1]; exact .inr ⟨h0, rfl⟩

/-! ## Examples -/

/-- Numeric and symbolic: the likelihood of the worlds (2, 10), (2, 20), (5, 10) and (12, 20). -/
example : ∃ h, learn (exM.cfg 6) exMData 6 (fitMix Fun.ival Rat.floor (1 / 100) exMKind exMData) = .ok h ∧
    likelihood Rat.floor 2 [(0, 2)] exMKind 2 h
      [[.inl 2, .inr 10], [.inl 2, .inr 20], [.inl 5, .inr 10], [.inl 12, .inr 20]] = .ok [1 / 12, 1 / 24, 0, 1 / 8] :=
  exists_ok (by decide +kernel)

/-- The theorems apply to this tree. -/
example : ∃ h x, learn (exM.cfg 6) exMData 6 (fitMix Fun.ival Rat.floor (1 / 100) exMKind exMData) = .ok h ∧
    likelihood Rat.floor 2 [(0, 2)] exMKind 2 h [[.inl 4, .inr 20]] = .ok [x] ∧ 0 < x := by
  obtain ⟨h, hl, -⟩ : ∃ h, learn (exM.cfg 6) exMData 6 (fitMix Fun.ival Rat.floor (1 / 100) exMKind exMData) = .ok h ∧
    h.leaves.length = 2 := exists_ok (by decide +kernel)
  obtain ⟨x, h1, h2⟩ := C84_training_partial (idx := Rat.floor) Fun.ival_strictMono (fun n => by simp [Fun.ival]) exM_kind
    exM_data exM_floats hl 2 (by norm_num) [(0, 2)] (fun v hv hk => by
      match v, hv with
      | 0, _ => exact ⟨2, rfl, by norm_num⟩
      | 1, _ => cases hk
      | v + 2, hv => exact absurd hv (by simp [exM, Learn.Args.cfg])) 2 (by omega)
    (fun v => if v = 0 then .inl 4 else .inr 20) (fun v hv => by
      match v, hv with
      | 0, _ => show exMData 2 0 = 4; decide +kernel
      | 1, _ => exact ⟨1, rfl, by decide +kernel⟩
      | v + 2, hv => exact absurd hv (by simp [exM, Learn.Args.cfg]))
  exact ⟨h, x, hl, h1, h2⟩

/-- The domains of the discrete example. -/
def exKinds : ℕ → MK ℤ := fun v => .inr (exKind v)

/-- A tree over a symbolic and an integer variable: the likelihoods of the six worlds. -/
example : ∃ h, learn (exA.cfg 6) exData 6 (fitMix Fun.ival Rat.floor 0 exKinds exData) = .ok h ∧
    h.priorSum = 1 ∧ worlds [labelsOf exKinds 0, labelsOf exKinds 1] = [[10, 1], [10, 2], [10, 3], [20, 1], [20, 2], [20, 3]] ∧
    likelihood Rat.floor 2 [] exKinds 2 h
      ((worlds ((List.range 2).map (labelsOf exKinds))).map (fun w => w.map .inr)) =
        .ok [1 / 3, 1 / 6, 0, 0, 1 / 6, 1 / 3] := exists_ok (by decide +kernel)

example {h : Heap (MD ℤ)} (hl : learn (exA.cfg 6) exData 6 (fitMix Fun.ival Rat.floor 0 exKinds exData) = .ok h) :
    TreeOK (mixOk Fun.ival) (mixFits Fun.ival) (mixP Fun.ival Rat.floor) exKinds (fullOf (exA.cfg 6)) 2 h := by
  refine learned_mix (c := exA.cfg 6) Fun.ival_strictMono (fun n => by simp [Fun.ival]) (fun v hv => ?_) exA_data
    (fun v hv => ?_) hl
  · obtain ⟨h1, h2⟩ := exA_kind v hv
    exact .inr ⟨_, _, rfl, h1, h2⟩
  · match v, hv with
    | 0, hv => exact absurd hv (by simp [exA, Learn.Args.cfg])
    | 1, hv => exact absurd hv (by simp [exA, Learn.Args.cfg])
    | v + 2, hv => exact absurd hv (by simp [exA, Learn.Args.cfg])

example : likelihood (L := ℤ) Rat.floor 2 [] exKinds 2 Heap.empty [[.inr 10, .inr 7]] = .error .valueError ∧
    likelihood (L := ℤ) Rat.floor 2 [] exKinds 2 Heap.empty [[.inr 10]] = .error .indexError := by decide +kernel

/-! ## Disagreements -/

def exD : Learn.Args := ⟨[.numeric], [], [], .int 3, none, none, none, fun _ => false⟩

def exDKind : ℕ → MK ℤ := fun _ => .inl ()

def exDData : Data := fun r _ => if r < 3 then 0 else 10

/-- `mpe` reports another likelihood for the most likely worlds than `likelihood`: in leaves with one number only it
multiplies with the minimal distance instead of dividing by it. -/
theorem C84_violated_mpe : ∃ h, learn (exD.cfg 6) exDData 6 (fitMix Fun.ival Rat.floor (1 / 100) exDKind exDData) = .ok h ∧
    (mpeOf (mixOps ℤ Fun.ival Rat.floor Rat.floor) (fun _ => some 10) h).toOption.map Prod.snd = some 5 ∧
    likelihood Rat.floor 2 [(0, 10)] exDKind 1 h [[.inl 0], [.inl 10]] = .ok [1 / 10, 1 / 10] :=
  exists_ok (by decide +kernel)

end Verif.Trees
