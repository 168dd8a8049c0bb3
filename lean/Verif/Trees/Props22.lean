import Verif.Trees.Props14
import Verif.Trees.Props18
import Verif.Trees.Props20

/-!
# Learned trees with numeric variables: copies (C52), posteriors of variables with evidence (C46), conditioned leaves (C94)
-/

namespace Verif.Trees

open Iv (FP CS Br NS)
open Learn (Cfg Data DataOK fullOf learn exists_ok)

section

variable {D : Type} {P : D → Region → ℚ}

theorem prod_split (g : ℕ × Region → ℚ) {v : ℕ} {r : Region} : ∀ {e : Query}, (e.map Prod.fst).Nodup →
    e.lookup v = some r → (e.map g).prod = g (v, r) * ((e.filter (fun i => decide (i.1 ≠ v))).map g).prod := by
  intro e
  induction e with
  | nil => intro _ h; cases h
  | cons i e ih =>
    intro hnd hl
    obtain ⟨w, s⟩ := i
    rw [List.map_cons, List.nodup_cons] at hnd
    by_cases hw : v = w
    · subst hw
      rw [List.lookup_cons_self] at hl
      obtain rfl := Option.some.inj hl
      rw [List.map_cons, List.prod_cons, List.filter_cons_of_neg (by simp), List.filter_eq_self.2]
      intro j hj
      have : j.1 ≠ v := fun h => hnd.1 (List.mem_map.2 ⟨j, hj, h⟩)
      simpa using this
    · rw [List.lookup_cons, show (v == w) = false by simpa using hw] at hl
      rw [List.map_cons, List.prod_cons, List.filter_cons_of_pos (by simpa using fun h => hw h.symm), List.map_cons,
        List.prod_cons, ih hnd.2 hl]
      ring

/-- The probability of a set of values and the evidence in a leaf. -/
theorem condProb_meet {l : Leaf D} {e : Query} {v : ℕ} {S : Region} {d : D} (he : (e.map Prod.fst).Nodup)
    (hd : l.dists[v]? = some d) (h0 : ∀ r, e.lookup v = some r → P d r = 0 → P d (S.inter r) = 0) :
    leafProb P l e * condProb P l e v S = leafProb P l (meet [(v, S)] e) := by
  unfold condProb leafProb meet
  rw [hd]
  cases hl : e.lookup v with
  | none =>
    simp only [List.map_cons, List.map_nil, List.cons_append, List.nil_append, List.prod_cons, meetItem, hl, hd]
    rw [List.filter_eq_self.2, mul_comm]
    intro i hi
    have : i.1 ≠ v := fun h => Dict.lookup_none.1 hl (List.mem_map.2 ⟨i, hi, h⟩)
    simpa using this
  | some r =>
    simp only [List.map_cons, List.map_nil, List.cons_append, List.nil_append, List.prod_cons, meetItem, hl, hd]
    rw [prod_split _ he hl]
    simp only [hd]
    rw [show (fun i : ℕ × Region => !([v] : List ℕ).contains i.1) = (fun i => decide (i.1 ≠ v)) by
      funext i; simp]
    by_cases hz : P d r = 0
    · rw [hz, h0 r hl hz]; ring
    · field_simp

end

variable {L : Type} [DecidableEq L]

/-- For all trees learned over numeric, symbolic and integer variables: writing the nodes and reading them again gives the
same tree. -/
theorem C52_learned_mixed {val : ℤ → ℚ} (hval : StrictMono val) {idx : ℚ → ℤ} (hidx : ∀ n, idx (val n) = n)
    (rnd : ℚ → ℤ) (eps : ℚ) (c : Cfg) (kind : ℕ → MK L) (data : Data) (total : ℕ) (hk : Kinds c kind)
    (hdata : DataOK c data total) (hfl : Floats val c data total) (h : Heap (MD L))
    (hl : learn c data total (fitMix val idx eps kind data) = .ok h) : copy (mixOps L val idx rnd) h = .ok h := by
  have hT := learned_mix_on hval hidx hk hdata hfl hl
  apply copy_eq hT.shape hT.noNone (learned_binary hdata hl).2
  intro l hle d hd
  obtain ⟨v, hv⟩ := List.getElem?_of_mem hd
  exact (mix_laws_on hval hidx rnd).reload _ _ ((hT.dists l hle).2 v d hv)

example : ∃ h, learn (exM.cfg 6) exMData 6 (fitMix Fun.ival Rat.floor (1 / 100) exMKind exMData) = .ok h ∧
    1 < h.leaves.length ∧ copy (mixOps ℤ Fun.ival Rat.floor Rat.floor) h = .ok h := by
  obtain ⟨h, h1, h2⟩ : ∃ h, learn (exM.cfg 6) exMData 6 (fitMix Fun.ival Rat.floor (1 / 100) exMKind exMData) = .ok h ∧
    1 < h.leaves.length := exists_ok (by decide +kernel)
  exact ⟨h, h1, h2, C52_learned_mixed Fun.ival_strictMono (fun n => by simp [Fun.ival]) _ _ _ exMKind _ _ exM_kind exM_data
    exM_floats h h1⟩

/-- Conditioning the distributions of a leaf of a learned tree. -/
theorem learned_crop {val : ℤ → ℚ} (hval : StrictMono val) {idx : ℚ → ℤ} (hidx : ∀ n, idx (val n) = n)
    (rnd : ℚ → ℤ) (eps : ℚ) (c : Cfg) (kind : ℕ → MK L) (data : Data) (total : ℕ) (hk : Kinds c kind)
    (hdata : DataOK c data total) (hfl : Floats val c data total) (h : Heap (MD L))
    (hl : learn c data total (fitMix val idx eps kind data) = .ok h) {l : ℕ × Leaf (MD L)} (hle : l ∈ h.leaves) {v : ℕ}
    (hv : v < c.vars.length) {r : Region} (hfit : mixFits val (kind v) r) {d : MD L} (hd : l.2.dists[v]? = some d)
    (hP : mixP val idx d r ≠ 0)
    (hcrop : kind v = .inl () → ∃ I, LeftClosed I ∧ r = .num (embI val I) ∧
      CropOK (l.2.rows.map (fun r => idx (data r v))) I) :
    ∃ d', (mixOps L val idx rnd).crop d r = .ok d' ∧ mixOkM val (kind v) d' ∧ ∀ s, mixFits val (kind v) s →
      mixP val idx d' s = mixP val idx d (s.inter r) / mixP val idx d r := by
  have hT := learned_mix_on hval hidx hk hdata hfl hl
  cases hkd : kind v with
  | inr k =>
    have := (mix_laws_on hval hidx rnd).crop (kind v) d r (by rw [hkd]; trivial) ((hT.dists l hle).2 v d hd) hfit hP
    rw [hkd] at this
    exact this
  | inl u =>
    obtain ⟨I, hI, hiI, hcr⟩ := hcrop hkd
    obtain ⟨d0, hd0, hfit⟩ := (learned_fitted hval hidx hk hdata hfl hl l hle).2 v hv hkd
    rw [hd0] at hd
    cases hd
    obtain ⟨d', h1, h2, h3⟩ := num_crop (rnd := rnd) hval hidx hfit hI hcr
    refine ⟨.inl d', ?_, h2, ?_⟩
    · rw [hiI]
      show ((numOps val idx rnd).crop d0 _).map Sum.inl = _
      rw [h1]
      rfl
    · intro s hs
      rw [hiI]
      exact h3 s hs

/-- For all trees learned over numeric, symbolic and integer variables, with evidence on any of them, also on the asked
variables: `posterior` fails exactly if the evidence has probability zero.  The posterior of a symbolic or integer variable
gives every set of values its probability given the evidence.  The posterior of a numeric variable is the merger (see
C38) of distributions, one for each leaf that the evidence can reach, weighted with the probability of the leaf given the
evidence: the distribution of the variable in the leaf, given the evidence.

Partial: an asked variable with evidence has to be on the path of every leaf that the evidence can reach, or the evidence
on it is certain there (`C46_violated_evidence`); and the interval that the evidence and the path leave for a numeric
variable has to be one that `_crop` can condition the fitted distribution on (`CropOK`; C37 shows what goes wrong with
others).  Evidence at a single number is missing. -/
theorem C46_numeric_evidence_partial {val : ℤ → ℚ} (hval : StrictMono val) {idx : ℚ → ℤ} (hidx : ∀ n, idx (val n) = n)
    (rnd : ℚ → ℤ) (eps : ℚ) (c : Cfg) (kind : ℕ → MK L) (data : Data) (total : ℕ) (hk : Kinds c kind)
    (hdata : DataOK c data total) (hfl : Floats val c data total) (h : Heap (MD L))
    (hl : learn c data total (fitMix val idx eps kind data) = .ok h) (vs : List ℕ) (e : Query)
    (hvs : ∀ v ∈ vs, v < c.vars.length) (he : QueryOK (mixFits val) kind c.vars.length e)
    (hpt : ∀ i ∈ e, i.2.point = none) (hsee : Seen (mixP val idx) h vs e)
    (hcrop : ∀ l ∈ h.leaves, leafProb (mixP val idx) l.2 e ≠ 0 → ∀ v ∈ vs, kind v = .inl () → ∀ r R,
      e.lookup v = some r → (pathMap (fullOf c) l.2.path).lookup v = some R → ∃ I, LeftClosed I ∧
        r.inter R = .num (embI val I) ∧ CropOK (l.2.rows.map (fun r => idx (data r v))) I) :
    (mass (mixP val idx) h e = 0 →
      posterior (mixOps L val idx rnd) c.vars.length (fullOf c) h vs e = .error .unsatisfiable) ∧
    (mass (mixP val idx) h e ≠ 0 →
      ∃ ds, posterior (mixOps L val idx rnd) c.vars.length (fullOf c) h vs e = .ok ds ∧
        List.Forall₂ (fun v b => b.1 = v ∧ (mixOps L val idx rnd).reload b.2 = .ok b.2 ∧
          (∀ k, kind v = .inr k → ∃ d, b.2 = .inr d ∧ discOk k d ∧ ∀ S, discFits k S → S.OK →
            discP d S = mass (mixP val idx) h (meet [(v, S)] e) / mass (mixP val idx) h e) ∧
          (kind v = .inl () → ∃ (p : Fun.PF) (ls : List (ℕ × Leaf (MD L))) (col : List Fun.PF), b.2 = .inl p ∧
            ls.Perm (h.leaves.filter (fun l => decide (leafProb (mixP val idx) l.2 e ≠ 0))) ∧
            List.Forall₂ (fun l d => numOkM val d ∧ ∀ S, numFits val S → numP val idx d S * leafProb (mixP val idx) l.2 e
              = leafProb (mixP val idx) l.2 (meet [(v, S)] e)) ls col ∧
            Num.merge val rnd col (some (ls.map (fun l =>
              some (leafProb (mixP val idx) l.2 e * l.2.prior / mass (mixP val idx) h e)))) = .ok p)) vs ds) := by
  have hT := learned_mix_on hval hidx hk hdata hfl hl
  have LO := mix_laws_on (L := L) hval hidx rnd
  have hmeet : ∀ l ∈ h.leaves, ∀ v, v < c.vars.length → ∀ S, mixFits val (kind v) S →
      leafProb (mixP val idx) l.2 e * condProb (mixP val idx) l.2 e v S = leafProb (mixP val idx) l.2 (meet [(v, S)] e) := by
    intro l hle v hv S hS
    obtain ⟨d, hd⟩ : ∃ d, l.2.dists[v]? = some d := ⟨_, List.getElem?_eq_getElem (by rw [(hT.dists l hle).1]; exact hv)⟩
    refine condProb_meet he.1 hd ?_
    intro r hr h0
    have hfr := (he.2 _ (Dict.lookup_mem hr)).2.1
    have hok := (hT.dists l hle).2 v d hd
    refine le_antisymm ?_ (LO.nonneg _ _ _ hok (LO.inter _ _ _ hS hfr))
    rw [← h0]
    exact LO.mono _ _ _ _ hok (LO.inter _ _ _ hS hfr) hfr (fun x hx => ((Region.mem_inter x).1 hx).2)
  obtain ⟨h1, h2⟩ := posterior_each LO hT he (vs := vs)
    (fun l hle i hi d hd => learned_lik hval hidx rnd hk hdata hfl hl (he.2 i hi).2.1 (hpt i hi) hle hd) (by
      intro l hle hz v hv
      refine leaf_posterior_each LO (hT.dists l hle).1 (hT.dists l hle).2 (hT.path l hle) hT.values
        (hT.support l hle) he hz (hvs v hv) ?_ (hsee l hle hz v hv)
      intro r R d hr hR hd
      have hm := Dict.lookup_mem hr
      have hfr := (he.2 _ hm).2.1
      have hfR := (pathMap_fits LO.toPLaws l.2.path (hT.path l hle) hT.values v R hR).2
      have hrR : mixP val idx d (r.inter R) = mixP val idx d r :=
        LO.sure _ _ _ _ ((hT.dists l hle).2 v d hd) hfr hfR (hT.support l hle v d R hR hd)
      exact learned_crop hval hidx rnd eps c kind data total hk hdata hfl h hl hle (hvs v hv) (LO.inter _ _ _ hfr hfR) hd
        (by rw [hrR]; exact leafProb_factor hz hm hd) (fun hkd => hcrop l hle hz v hv hkd r R hr hR))
  refine ⟨h1, fun hm => ?_⟩
  obtain ⟨ds, h3, h4⟩ := h2 hm
  refine ⟨ds, h3, (forall₂_mem h4).imp ?_⟩
  rintro v b ⟨⟨h5, h6, h7, ls, col, h8, h9, h10⟩, hv⟩
  refine ⟨h5, h6, fun k hkd => ?_, fun hkd => ?_⟩
  · rw [hkd] at h7
    obtain ⟨h11, h12⟩ := h7 trivial
    cases hb : b.2 with
    | inl d => rw [hb] at h11; exact h11.elim
    | inr d =>
      rw [hb] at h11 h12
      refine ⟨d, rfl, h11, fun S hS _ => ?_⟩
      rw [eq_div_iff hm]
      refine (h12 S hS).trans ?_
      unfold mass
      congr 1
      apply List.map_congr_left
      intro l hle
      rw [hmeet l hle v (hvs v hv) S (by rw [hkd]; exact hS)]
  · have hne : col ≠ [] := by
      rintro rfl
      have hls : ls = [] := by cases h9; rfl
      subst hls
      apply hm
      unfold mass
      apply List.sum_eq_zero
      intro x hx
      obtain ⟨l, hle, rfl⟩ := List.mem_map.1 hx
      by_contra hc
      have : l ∈ h.leaves.filter (fun l => decide (leafProb (mixP val idx) l.2 e ≠ 0)) := by
        rw [List.mem_filter]
        exact ⟨hle, by simpa using fun h0 => hc (by rw [h0, mul_zero])⟩
      rw [← h8.mem_iff] at this
      cases this
    obtain ⟨p, ds', h11, rfl, h12⟩ := merge_left hne (k := ()) (by
      intro d hd
      obtain ⟨l, -, h13⟩ := forall₂_mem_right h9 hd
      rw [← hkd]
      exact h13.1) h10
    refine ⟨p, ls, ds', h11, h8, ?_, ?_⟩
    · rw [List.forall₂_map_right_iff] at h9
      refine (forall₂_mem h9).imp ?_
      rintro l d ⟨⟨g1, -, g2⟩, hlm⟩
      have hle := List.mem_of_mem_filter (h8.mem_iff.1 hlm)
      rw [hkd] at g1 g2
      refine ⟨g1, fun S hS => ?_⟩
      rw [mul_comm, ← hmeet l hle v (hvs v hv) S (by rw [hkd]; exact hS)]
      congr 1
      exact g2 S hS
    · rw [List.map_map] at h12
      exact h12

/-- For all trees learned over numeric, symbolic and integer variables, with evidence on any of them that has positive
probability in the leaf: `conditional_leaf` gives a leaf without path and parent that gives every query its probability
given the evidence and keeps the distributions of variables without evidence.

Partial: the interval for a numeric variable is one that `_crop` can condition the fitted distribution on (`CropOK`). -/
theorem C94_numeric_evidence_partial {val : ℤ → ℚ} (hval : StrictMono val) {idx : ℚ → ℤ} (hidx : ∀ n, idx (val n) = n)
    (rnd : ℚ → ℤ) (eps : ℚ) (c : Cfg) (kind : ℕ → MK L) (data : Data) (total : ℕ) (hk : Kinds c kind)
    (hdata : DataOK c data total) (hfl : Floats val c data total) (h : Heap (MD L))
    (hl : learn c data total (fitMix val idx eps kind data) = .ok h) (e : Query)
    (he : QueryOK (mixFits val) kind c.vars.length e) (l : ℕ × Leaf (MD L)) (hle : l ∈ h.leaves)
    (hne : leafProb (mixP val idx) l.2 e ≠ 0)
    (hcrop : ∀ i ∈ e, kind i.1 = .inl () →
      ∃ I, LeftClosed I ∧ i.2 = .num (embI val I) ∧ CropOK (l.2.rows.map (fun r => idx (data r i.1))) I) :
    ∃ l', l.2.conditional (mixOps L val idx rnd) e = .ok l' ∧
      l'.parent = none ∧ l'.path = [] ∧ l'.prior = l.2.prior ∧ l'.samples = l.2.samples ∧ l'.rows = l.2.rows ∧
      l'.dists.length = c.vars.length ∧ (∀ v, e.lookup v = none → l'.dists[v]? = l.2.dists[v]?) ∧
      ∀ q, QueryOK (mixFits val) kind c.vars.length q →
        leafProb (mixP val idx) l' q = leafProb (mixP val idx) l.2 (meet q e) / leafProb (mixP val idx) l.2 e := by
  have hT := learned_mix_on hval hidx hk hdata hfl hl
  have LO := mix_laws_on (L := L) hval hidx rnd
  obtain ⟨hlen, hok⟩ := hT.dists l hle
  obtain ⟨ds, h1, h2, h3⟩ := crops_each (o := mixOps L val idx rnd) (ok := mixOkM val) (fits := mixFits val)
    (P := mixP val idx) (kind := kind) e l.2.dists hok he.1 (fun i hi => by rw [hlen]; exact (he.2 i hi).1) (by
      intro i hi d hd
      exact learned_crop hval hidx rnd eps c kind data total hk hdata hfl h hl hle (he.2 i hi).1 (he.2 i hi).2.1 hd
        (leafProb_factor hne hi hd) (hcrop i hi))
  refine ⟨⟨none, [], ds, l.2.prior, l.2.samples, l.2.rows⟩, ?_, rfl, rfl, rfl, rfl, rfl, by simp only; omega, ?_, ?_⟩
  · unfold Leaf.conditional
    rw [leaf_copy LO hok]
    simp only [bind, Except.bind]
    rw [h1]
    rfl
  · intro v hv
    simp only
    cases hd : l.2.dists[v]? with
    | none =>
      rw [List.getElem?_eq_none_iff] at hd ⊢
      omega
    | some d =>
      obtain ⟨d', h4, -, h5, -⟩ := h3 v d hd
      rw [h4, h5 hv]
  · intro q hq
    rw [eq_div_iff hne]
    refine leafProb_cond (ds := ds) hlen hne he.1 hq rfl ?_
    intro v hv
    obtain ⟨d, hd⟩ : ∃ d, l.2.dists[v]? = some d := ⟨_, List.getElem?_eq_getElem (by rw [hlen]; exact hv)⟩
    obtain ⟨d', h4, -, -, h5⟩ := h3 v d hd
    refine ⟨d', h4, fun S hS => ?_⟩
    simp only [h5 S hS, condProb, hd]
    cases e.lookup v <;> rfl

/-- The interval of `exMBetween`. -/
theorem exMBetween_closed : LeftClosed ⟨.fin 10, .fin 13, .inc, .inc⟩ :=
  ⟨.inr ⟨⟨_, rfl⟩, rfl⟩, .inr ⟨_, rfl⟩, .inl (by simp [FP.lt_def, FP.leb])⟩

theorem exMBetween_ok : QueryOK (mixFits Fun.ival) exMKind 2 exMBetween :=
  ⟨by simp [exMBetween], by
    intro i hi
    simp only [exMBetween, List.mem_singleton] at hi
    subst hi
    exact ⟨by decide, .inr ⟨_, exMBetween_closed, rfl⟩, exMBetween_closed.ok Fun.ival_strictMono⟩⟩

theorem exMBetween_crop : CropOK ([3, 4, 5].map (fun r => Rat.floor (exMData r 0))) ⟨.fin 10, .fin 13, .inc, .inc⟩ := by
  rw [show ([3, 4, 5] : List ℕ).map (fun r => Rat.floor (exMData r 0)) = [10, 12, 14] by decide +kernel]
  refine .inr ⟨10, 14, 13, by simp, by simp, by simp, rfl, rfl, by decide, by decide, ?_, ?_, ?_⟩ <;>
    simp [CS.Mem, FP.lt_def, FP.leb]

/-- The posterior of the number itself and of the label, given that the number is between 10 and 13: the label
is certain. -/
example : ∃ h ds d, learn (exM.cfg 6) exMData 6 (fitMix Fun.ival Rat.floor (1 / 100) exMKind exMData) = .ok h ∧
    posterior (mixOps ℤ Fun.ival Rat.floor Rat.floor) 2 (fullOf (exM.cfg 6)) h [0, 1] exMBetween = .ok ds ∧
    ds[1]? = some (1, .inr d) ∧ discP d (.set [1]) = 1 := by
  obtain ⟨h, h1, h2, h3, h4, h5⟩ : ∃ h, learn (exM.cfg 6) exMData 6 (fitMix Fun.ival Rat.floor (1 / 100) exMKind exMData)
      = .ok h ∧ h.leaves.map (fun l => (l.2.rows, decide (leafProb (mixP Fun.ival Rat.floor) l.2 exMBetween ≠ 0),
        (pathMap (fullOf (exM.cfg 6)) l.2.path).lookup 0))
        = [([0, 1, 2], false, some (.num ⟨.ninf, .fin 7, .exc, .exc⟩)), ([3, 4, 5], true, some (.num ⟨.fin 7, .pinf, .inc, .exc⟩))] ∧
      mass (mixP Fun.ival Rat.floor) h exMBetween = 3 / 8 ∧
      mass (mixP Fun.ival Rat.floor) h (meet [(1, .set [1])] exMBetween) = 3 / 8 ∧
      ∀ l ∈ h.leaves, 0 ∈ l.2.path.map Prod.fst :=
    exists_ok (by decide +kernel)
  have hrow : ∀ l ∈ h.leaves, leafProb (mixP Fun.ival Rat.floor) l.2 exMBetween ≠ 0 → l.2.rows = [3, 4, 5] ∧
      (pathMap (fullOf (exM.cfg 6)) l.2.path).lookup 0 = some (.num ⟨.fin 7, .pinf, .inc, .exc⟩) := by
    intro l hle hne
    have hm : (l.2.rows, decide (leafProb (mixP Fun.ival Rat.floor) l.2 exMBetween ≠ 0),
        (pathMap (fullOf (exM.cfg 6)) l.2.path).lookup 0) ∈ _ := List.mem_map_of_mem (f := fun l : ℕ × Leaf (MD ℤ) =>
          (l.2.rows, decide (leafProb (mixP Fun.ival Rat.floor) l.2 exMBetween ≠ 0),
            (pathMap (fullOf (exM.cfg 6)) l.2.path).lookup 0)) hle
    rw [h2, decide_eq_true hne] at hm
    simpa using hm
  obtain ⟨-, h6⟩ := C46_numeric_evidence_partial Fun.ival_strictMono (idx := Rat.floor) (fun n => by simp [Fun.ival])
    Rat.floor (1 / 100) (exM.cfg 6) exMKind exMData 6 exM_kind exM_data exM_floats h h1 [0, 1] exMBetween
    (by decide) exMBetween_ok (by
      intro i hi
      simp only [exMBetween, List.mem_singleton] at hi
      subst hi
      simp [Region.point, embI, emb, Fun.ival]) (by
      intro l hle _ v _ r hr
      have : v = 0 := by
        have := Dict.lookup_mem hr
        simp only [exMBetween, List.mem_singleton] at this
        exact congrArg Prod.fst this
      subst this
      exact .inl (h5 l hle)) (by
      intro l hle hne v _ _ r R hr hR
      have := Dict.lookup_mem hr
      simp only [exMBetween, List.mem_singleton] at this
      obtain rfl : v = 0 := congrArg Prod.fst this
      obtain rfl := congrArg Prod.snd this
      obtain ⟨g1, g2⟩ := hrow l hle hne
      rw [g2] at hR
      obtain rfl := Option.some.inj hR
      refine ⟨_, exMBetween_closed, by decide +kernel, ?_⟩
      rw [g1]
      exact exMBetween_crop)
  obtain ⟨ds, g1, g2⟩ := h6 (by rw [h3]; norm_num)
  rw [List.forall₂_iff_get] at g2
  obtain ⟨gl, g2⟩ := g2
  have g3 := g2 1 (by simp) (by simp at gl; omega)
  obtain ⟨e1, -, e2, -⟩ := g3
  obtain ⟨d, e3, -, e4⟩ := e2 _ rfl
  refine ⟨h, ds, d, h1, g1, ?_, ?_⟩
  · rw [List.getElem?_eq_getElem (by simp at gl; omega)]
    congr 1
    exact Prod.ext e1 e3
  · have := e4 (.set [1]) ⟨[1], rfl, by decide⟩ (by simp [Region.OK])
    rw [this]
    show mass (mixP Fun.ival Rat.floor) h (meet [(1, .set [1])] exMBetween) / _ = _
    rw [h4, h3]
    norm_num

/-- The second leaf, conditioned on the number being between 10 and 13. -/
example : ∃ h l l', learn (exM.cfg 6) exMData 6 (fitMix Fun.ival Rat.floor (1 / 100) exMKind exMData) = .ok h ∧
    l ∈ h.leaves ∧ l.2.conditional (mixOps ℤ Fun.ival Rat.floor Rat.floor) exMBetween = .ok l' ∧
    leafProb (mixP Fun.ival Rat.floor) l' [(0, .num ⟨.ninf, .fin 12, .exc, .inc⟩)] = 2 / 3 := by
  obtain ⟨h, h1, l, hle, h2, h3, h4⟩ : ∃ h, learn (exM.cfg 6) exMData 6 (fitMix Fun.ival Rat.floor (1 / 100) exMKind exMData)
      = .ok h ∧ ∃ l ∈ h.leaves, l.2.rows = [3, 4, 5] ∧ leafProb (mixP Fun.ival Rat.floor) l.2 exMBetween = 3 / 4 ∧
        leafProb (mixP Fun.ival Rat.floor) l.2 (meet [(0, .num ⟨.ninf, .fin 12, .exc, .inc⟩)] exMBetween) = 1 / 2 :=
    exists_ok (by decide +kernel)
  obtain ⟨l', h5, -, -, -, -, -, -, -, h6⟩ := C94_numeric_evidence_partial Fun.ival_strictMono (idx := Rat.floor)
    (fun n => by simp [Fun.ival]) Rat.floor (1 / 100) (exM.cfg 6) exMKind exMData 6 exM_kind exM_data exM_floats h h1
    exMBetween exMBetween_ok l hle (by rw [h3]; norm_num) (by
      intro i hi _
      simp only [exMBetween, List.mem_singleton] at hi
      subst hi
      refine ⟨_, exMBetween_closed, rfl, ?_⟩
      rw [h2]
      exact exMBetween_crop)
  refine ⟨h, l, l', h1, hle, h5, ?_⟩
  have hJ : LeftClosed ⟨.ninf, .fin 12, .exc, .inc⟩ := ⟨.inl ⟨rfl, rfl⟩, .inr ⟨_, rfl⟩, .inl (by simp [FP.lt_def, FP.leb])⟩
  have := h6 [(0, .num ⟨.ninf, .fin 12, .exc, .inc⟩)] ⟨by simp, by
    intro i hi
    simp only [List.mem_singleton] at hi
    subst hi
    exact ⟨by decide, .inr ⟨_, hJ, rfl⟩, hJ.ok Fun.ival_strictMono⟩⟩
  rw [h4, h3] at this
  refine this.trans ?_
  norm_num

end Verif.Trees
