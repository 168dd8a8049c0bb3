import Verif.Trees.ExpectMix
import Verif.Trees.ExpectLemmas
import Verif.Trees.Props14
import Verif.Trees.Props9
import Verif.Numeric.Props15

/-!
# C85: expectations and moments of trees with numeric variables
-/

namespace Verif.Trees

open Disc
open Learn (Cfg Data learn DataOK fullOf exists_ok)
open Fun (PF)

variable {L : Type} [DecidableEq L]

/-- The probability of a leaf, given the evidence. -/
def reachProb (val : ℤ → ℚ) (idx : ℚ → ℤ) (h : Heap (MD L)) (e : Query) (l : ℕ × Leaf (MD L)) : ℚ :=
  leafProb (mixP val idx) l.2 e * l.2.prior / mass (mixP val idx) h e

/-- The contribution `q` of a leaf to a moment of the numeric variable `v`: if the samples of the leaf are one value,
0; otherwise the moment of the leaf's distribution and what `moment` leaves out of it. -/
def LeafMoment (val : ℤ → ℚ) (lab prev : ℚ → ℚ) (data : Data) (v order : ℕ) (c : ℚ) (l : ℕ × Leaf (MD L)) (q : ℚ) : Prop :=
  ∃ d : PF, l.2.dists[v]? = some (.inl d) ∧
    ((∀ r ∈ l.2.rows, ∀ r' ∈ l.2.rows, data r v = data r' v) → q = 0) ∧
    ((∃ r ∈ l.2.rows, ∃ r' ∈ l.2.rows, data r v ≠ data r' v) →
      ∃ x, Num.moment val lab prev d order c = .ok x ∧ q = x + Num.lost val lab order c d)

/-- The distribution of a numeric variable in a leaf. -/
def numAt (v : ℕ) (l : ℕ × Leaf (MD L)) : PF := match l.2.dists[v]? with
  | some (.inl d) => d
  | _ => []

section

variable {val : ℤ → ℚ} (hval : StrictMono val) {idx : ℚ → ℤ} (hidx : ∀ n, idx (val n) = n) (rnd : ℚ → ℤ) (eps : ℚ) {c : Cfg}
  {kind : ℕ → MK L} {data : Data} {total : ℕ} (hk : Kinds c kind) (hdata : DataOK c data total)
  (hfl : Floats val c data total) {h : Heap (MD L)} (hl : learn c data total (fitMix val idx eps kind data) = .ok h)

include hval hidx hk hdata hfl hl

omit [DecidableEq L] hval hidx in
theorem leaf_values {l : ℕ × Leaf (MD L)} (hle : l ∈ h.leaves) {v : ℕ} (hv : v < c.vars.length) (hkd : kind v = .inl ()) :
    ∀ r ∈ l.2.rows, ∃ n, data r v = val n := by
  obtain ⟨ix, hI⟩ := Learn.learn_inv hdata hl
  intro r hr
  have hrow : r < total := by
    have := hI.rows.mem_iff (a := r)
    simp only [List.flatMap_nil, List.append_nil, List.mem_flatMap, List.mem_range] at this
    exact this.1 ⟨l, hle, hr⟩
  obtain ⟨n, hn⟩ := hfl v (hk.numeric hv hkd) r r hrow hrow
  exact ⟨n, by rw [← hn]; ring⟩

omit [DecidableEq L] in
theorem leaf_cdf {l : ℕ × Leaf (MD L)} (hle : l ∈ h.leaves) {v : ℕ} (hv : v < c.vars.length) (hkd : kind v = .inl ()) :
    ∃ d, l.2.dists[v]? = some (.inl d) ∧ Num.Cdf d ∧
      ((∀ r ∈ l.2.rows, ∀ r' ∈ l.2.rows, data r v = data r' v) → d.length = 2) ∧
      ((∃ r ∈ l.2.rows, ∃ r' ∈ l.2.rows, data r v ≠ data r' v) → d.length ≠ 2 ∧ ∃ t ∈ d, ∃ m c, t.2 = .lin m c) := by
  obtain ⟨hne, hd⟩ := learned_fitted hval hidx hk hdata hfl hl l hle
  obtain ⟨d, h1, h2⟩ := hd v hv hkd
  have hvals := leaf_values eps hk hdata hfl hl hle hv hkd
  have hload : Num.loadBuffer (l.2.rows.map (fun r => idx (data r v))) none none =
      .ok (l.2.rows.map (fun r => idx (data r v))) := by simp [Num.loadBuffer]
  obtain ⟨p, h3, h4, h5⟩ := Num.fit_cdf hval (eps := eps) hload (by simpa using hne)
  rw [h2] at h3
  obtain rfl : d = p := Except.ok.inj h3
  refine ⟨d, h1, h4, fun hs => ?_, ?_⟩
  · obtain ⟨r, rs, hr⟩ := List.exists_cons_of_ne_nil hne
    have hr0 : r ∈ l.2.rows := by rw [hr]; simp
    have := Num.fit_single (val := val) (eps := eps) hload (x := idx (data r v)) (List.mem_map_of_mem hr0) (by
      intro y hy
      obtain ⟨r', hr', rfl⟩ := List.mem_map.1 hy
      rw [hs r' hr' r hr0])
    rw [h2] at this
    injection this with this
    rw [this]
    rfl
  · rintro ⟨r, hr, r', hr', hneq⟩
    refine h5 ⟨_, List.mem_map_of_mem hr, _, List.mem_map_of_mem hr', ?_⟩
    obtain ⟨n, hn⟩ := hvals r hr
    obtain ⟨n', hn'⟩ := hvals r' hr'
    rw [hn, hn', hidx, hidx]
    rintro rfl
    exact hneq (hn.trans hn'.symm)

theorem mix_moment {v : ℕ} (hv : v < c.vars.length) (hkd : kind v = .inl ()) {lab prev : ℚ → ℚ} {s μ : ℚ} (hpos : 0 < s)
    (hlab : ∀ x, lab x = s * x + μ) (hprev : ∀ n, prev (lab (val n)) = lab (val (n - 1))) {e : Query}
    (he : QueryOK (mixFits val) kind c.vars.length e) (hm : mass (mixP val idx) h e ≠ 0)
    (hsteep : ∀ l ∈ h.leaves, ∀ d, l.2.dists[v]? = some (.inl d) → 0 < reachProb val idx h e l →
      ∀ t ∈ d, ∀ m k, t.2 = .lin m k → Num.tol < reachProb val idx h e l * m)
    (hvary : ∃ l ∈ h.leaves, 0 < reachProb val idx h e l ∧ ∃ r ∈ l.2.rows, ∃ r' ∈ l.2.rows, data r v ≠ data r' v)
    {p : PF} {ls : List (ℕ × Leaf (MD L))} {col : List PF}
    (hperm : ls.Perm (h.leaves.filter (fun l => decide (leafProb (mixP val idx) l.2 e ≠ 0))))
    (hcol : List.Forall₂ (fun l d => l.2.dists[v]? = some (.inl d)) ls col)
    (hmerge : Num.merge val rnd col (some (ls.map (fun l =>
      some (leafProb (mixP val idx) l.2 e * l.2.prior / mass (mixP val idx) h e)))) = .ok p) (order : ℕ) (ct : ℚ) :
    ∃ x qs, Num.moment val lab prev p order ct = .ok x ∧ List.Forall₂ (LeafMoment val lab prev data v order ct) ls qs ∧
      x + Num.lost val lab order ct p = (List.zipWith (fun l q => reachProb val idx h e l * q) ls qs).sum := by
  have hT := learned_mix_on hval hidx hk hdata hfl hl
  have hL := (mix_laws_on (L := L) hval hidx rnd).toPLaws
  have hmem : ∀ l ∈ ls, l ∈ h.leaves := fun l hl => List.mem_of_mem_filter (hperm.mem_iff.1 hl)
  have hmass : 0 < mass (mixP val idx) h e := lt_of_le_of_ne (mass_nonneg hL hT he) (Ne.symm hm)
  have hw0 : ∀ l ∈ h.leaves, 0 ≤ reachProb val idx h e l := fun l hle => div_nonneg (mul_nonneg
    (leafProb_nonneg hL (hT.dists l hle).2 (fun i hi => (he.2 i hi).2.1)) (hT.prior l hle)) hmass.le
  have hcol' : col = ls.map (numAt v) := by
    clear hmerge hperm hmem
    induction hcol with
    | nil => rfl
    | cons h1 _ ih => rw [List.map_cons, ← ih]; simp only [numAt, h1]
  have hat : ∀ l ∈ h.leaves, ∀ d, l.2.dists[v]? = some (.inl d) → numAt v l = d := by
    intro l _ d hd
    simp only [numAt, hd]
  set dw : List (PF × ℚ) := ls.map (fun l => (numAt v l, reachProb val idx h e l)) with hdw
  have hfst : dw.map Prod.fst = col := by rw [hdw, hcol', List.map_map]; rfl
  have hsnd : dw.map (fun d => some d.2) = ls.map (fun l => some (leafProb (mixP val idx) l.2 e * l.2.prior /
      mass (mixP val idx) h e)) := by rw [hdw, List.map_map]; rfl
  have hsum : (dw.map Prod.snd).sum = 1 := by
    have h1 : dw.map Prod.snd = ls.map (reachProb val idx h e) := by rw [hdw, List.map_map]; rfl
    rw [h1, (hperm.map _).sum_eq, sum_filter]
    · have h2 : h.leaves.map (reachProb val idx h e) = (h.leaves.map (fun l => l.2.prior * leafProb (mixP val idx) l.2 e)).map
          (fun x => x / mass (mixP val idx) h e) := by
        rw [List.map_map]
        apply List.map_congr_left
        intro l _
        simp only [reachProb, Function.comp]
        ring
      rw [h2]
      have h3 : ∀ l : List ℚ, ∀ m : ℚ, (l.map (fun x => x / m)).sum = l.sum / m := by
        intro l m
        induction l with
        | nil => simp
        | cons a r ih => simp only [List.map_cons, List.sum_cons, ih, add_div]
      rw [h3]
      exact div_self hm
    · intro l _ hz
      have : leafProb (mixP val idx) l.2 e = 0 := by simpa using hz
      simp [reachProb, this]
  have hmeml : ∀ l ∈ h.leaves, 0 < reachProb val idx h e l → l ∈ ls := by
    intro l hle hp
    rw [hperm.mem_iff, List.mem_filter]
    refine ⟨hle, ?_⟩
    simp only [decide_eq_true_eq]
    intro h0
    simp [reachProb, h0] at hp
  obtain ⟨p', g1, -, g2⟩ := Num.C75_merge_partial hval hpos hlab hprev rnd dw
    (by
      intro d hd
      obtain ⟨l, hl', rfl⟩ := List.mem_map.1 hd
      obtain ⟨d, h1, h2, -⟩ := leaf_cdf hval hidx eps hk hdata hfl hl (hmem l hl') hv hkd
      simp only [hat l (hmem l hl') d h1]
      exact h2)
    (by
      intro d hd
      obtain ⟨l, hl', rfl⟩ := List.mem_map.1 hd
      exact hw0 l (hmem l hl'))
    (by
      intro d hd hp
      obtain ⟨l, hl', rfl⟩ := List.mem_map.1 hd
      obtain ⟨d, h1, -⟩ := leaf_cdf hval hidx eps hk hdata hfl hl (hmem l hl') hv hkd
      simp only [hat l (hmem l hl') d h1]
      exact hsteep l (hmem l hl') d h1 hp)
    hsum
    (by
      obtain ⟨l, hle, hp, hvr⟩ := hvary
      obtain ⟨d, h1, -, -, h2⟩ := leaf_cdf hval hidx eps hk hdata hfl hl hle hv hkd
      refine ⟨_, List.mem_map_of_mem (hmeml l hle hp), hp, ?_⟩
      simp only [hat l hle d h1]
      exact (h2 hvr).2)
  rw [hfst, hsnd, hmerge] at g1
  obtain rfl : p = p' := Except.ok.inj g1
  obtain ⟨x, qs, g3, g4, g5⟩ := g2 order ct
  have key : ∀ (ls : List (ℕ × Leaf (MD L))) (qs : List ℚ), (∀ l ∈ ls, l ∈ h.leaves) →
      List.Forall₂ (fun (d : PF × ℚ) q => if d.1.length = 2 then q = 0 else Num.moment val lab prev d.1 order ct = .ok q)
        (ls.map (fun l => (numAt v l, reachProb val idx h e l))) qs →
      ∃ qs', List.Forall₂ (LeafMoment val lab prev data v order ct) ls qs' ∧
        (List.zipWith (fun (d : PF × ℚ) q => d.2 * (q + Num.lost val lab order ct d.1))
          (ls.map (fun l => (numAt v l, reachProb val idx h e l))) qs).sum =
        (List.zipWith (fun l q => reachProb val idx h e l * q) ls qs').sum := by
    intro ls
    induction ls with
    | nil =>
      intro qs _ hq
      cases hq
      exact ⟨[], .nil, rfl⟩
    | cons l r ih =>
      intro qs hle hq
      rw [List.map_cons] at hq
      cases hq with
      | cons hq1 hq2 =>
        rename_i q qr
        obtain ⟨qs', i1, i2⟩ := ih qr (fun l hl => hle l (List.mem_cons_of_mem _ hl)) hq2
        have hl0 := hle l (by simp)
        obtain ⟨d, h1, h2, h3, h4⟩ := leaf_cdf hval hidx eps hk hdata hfl hl hl0 hv hkd
        simp only [hat l hl0 d h1] at hq1
        refine ⟨(q + Num.lost val lab order ct d) :: qs', .cons ⟨d, h1, fun hs => ?_, fun hs => ?_⟩ i1, ?_⟩
        · rw [if_pos (h3 hs)] at hq1
          rw [hq1, Num.dirac_lost h2 (h3 hs), add_zero]
        · rw [if_neg (h4 hs).1] at hq1
          exact ⟨q, hq1, rfl⟩
        · simp only [List.map_cons, List.zipWith_cons_cons, List.sum_cons, i2, hat l hl0 d h1]
  obtain ⟨qs', k1, k2⟩ := key ls qs hmem g4
  exact ⟨x, qs', g3, k1, by rw [g5, k2]⟩

end

/-- The probability of a label of the symbolic or integer variable `v`, given the evidence. -/
def labelProbMix (val : ℤ → ℚ) (idx : ℚ → ℤ) (k : Bool × Dom L) (h : Heap (MD L)) (e : Query) (v : ℕ) (x : L) : ℚ :=
  mass (mixP val idx) h ((v, .set [((k.2.labels.idxOf x : ℕ) : ℤ)]) :: e) / mass (mixP val idx) h e

theorem expectationOf_spec (num : L → ℚ) {k : Bool × Dom L} {d : DD L} (hb : discOk k d) {P : L → ℚ}
    (hp : ∀ x ∈ k.2.labels, discP d (.set [((k.2.labels.idxOf x : ℕ) : ℤ)]) = P x) :
    ∃ b, expectationOf num d = .ok b ∧
      (k.1 = true → b = .inl (k.2.labels.map (fun x => num x * P x)).sum) ∧
      (k.1 = false → ∃ S, b = .inr (.set S) ∧ S ≠ [] ∧ ∀ x, x ∈ S ↔ x ∈ k.2.labels ∧ ∀ y ∈ k.2.labels, P y ≤ P x) := by
  unfold expectationOf
  cases hb1 : k.1 with
  | true =>
    rw [if_pos (by rw [hb.1, hb1])]
    refine ⟨_, rfl, fun _ => ?_, fun h => by cases h⟩
    rw [mean_labels hb]
    congr 2
    apply List.map_congr_left
    intro x hx
    rw [hp x hx]
  | false =>
    rw [if_neg (by rw [hb.1, hb1]; simp)]
    obtain ⟨S, p, h5, h6, h7, h8, h9, -⟩ := C30_mpe d.2 hb.2.2
    rw [h5]
    refine ⟨_, rfl, (fun hh => by cases hh), fun _ => ⟨S, rfl, h9, fun x => ?_⟩⟩
    rw [hb.2.1] at h7
    have hPx : ∀ x ∈ k.2.labels, d.2.P (fun m => m = x) = P x := fun x hx => by
      rw [discP_P hb hx, hp x hx]
    rw [h8 x, hb.2.1]
    constructor
    · rintro ⟨hx, hpx⟩
      refine ⟨hx, fun y hy => ?_⟩
      rw [← hPx x hx, hpx, ← hPx y hy]
      exact h7 y hy
    · rintro ⟨hx, hmax⟩
      refine ⟨hx, le_antisymm (h7 x hx) ?_⟩
      obtain ⟨z, hz⟩ := List.exists_mem_of_ne_nil S h9
      obtain ⟨hz1, hz2⟩ := (h8 z).1 hz
      rw [hb.2.1] at hz1
      rw [← hz2, hPx x hx, hPx z hz1]
      exact hmax z hz1

section

variable {val : ℤ → ℚ} (hval : StrictMono val) {idx : ℚ → ℤ} (hidx : ∀ n, idx (val n) = n) (rnd : ℚ → ℤ) (eps : ℚ) (c : Cfg)
  (kind : ℕ → MK L) (data : Data) (total : ℕ) (hk : Kinds c kind) (hdata : DataOK c data total)
  (hfl : Floats val c data total) (h : Heap (MD L)) (hl : learn c data total (fitMix val idx eps kind data) = .ok h)
  {lab prev : ℕ → ℚ → ℚ} {s μ : ℕ → ℚ} (hpos : ∀ v, 0 < s v) (hlab : ∀ v x, lab v x = s v * x + μ v)
  (hprev : ∀ v n, prev v (lab v (val n)) = lab v (val (n - 1))) (num : L → ℚ) (e : Query)
  (he : QueryOK (mixFits val) kind c.vars.length e) (hpt : ∀ i ∈ e, i.2.point = none) (fail : Bool)

/-- What is assumed of a numeric variable `v`: the weighted slopes of the leaves' cdfs exceed the tolerance of `merge`,
and the samples in some leaf that the evidence can reach are not all the same. -/
def Mixes (val : ℤ → ℚ) (idx : ℚ → ℤ) (data : Data) (h : Heap (MD L)) (e : Query) (v : ℕ) : Prop :=
  (∀ l ∈ h.leaves, ∀ d, l.2.dists[v]? = some (.inl d) → 0 < reachProb val idx h e l →
    ∀ t ∈ d, ∀ m k, t.2 = .lin m k → Num.tol < reachProb val idx h e l * m) ∧
  ∃ l ∈ h.leaves, 0 < reachProb val idx h e l ∧ ∃ r ∈ l.2.rows, ∃ r' ∈ l.2.rows, data r v ≠ data r' v

include hval hidx hk hdata hfl hl hpos hlab hprev he hpt

/-- For all trees learned over numeric, symbolic and integer variables, with evidence on other variables than those
asked for.  The expectation of an integer variable is the sum of its labels, weighted with their conditional
probabilities; that of a symbolic variable is the set of labels with the greatest conditional probability.  The
expectation of a numeric variable is the sum of the expectations of the leaves that the evidence can reach, weighted
with the probabilities of the leaves given the evidence; `lost` is what the posterior and the leaves leave out for pieces
that hold a single float.

Partial: for numeric variables, leaves whose samples are all the same count as 0 (`C85_violated_numeric`), and there is
another leaf; for variables with evidence see `C85_violated_evidence`. -/
theorem C85_expectation_mixed_partial (vs : List ℕ) (hne : vs ≠ []) (hvs : ∀ v ∈ vs, v < c.vars.length ∧ e.lookup v = none)
    (hm : mass (mixP val idx) h e ≠ 0) (hnum : ∀ v ∈ vs, kind v = .inl () → Mixes val idx data h e v) :
    ∃ ds rs, posterior (mixOps L val idx rnd) c.vars.length (fullOf c) h vs e = .ok ds ∧ ds.map Prod.fst = vs ∧
      expectationMix val idx rnd lab prev num c.vars.length (fullOf c) h (some vs) e fail = .ok (some rs) ∧
      List.Forall₂ (fun d b => b.1 = d.1 ∧
        (∀ k, kind d.1 = .inr k →
          (k.1 = true → b.2 = .inl (k.2.labels.map (fun x => num x * labelProbMix val idx k h e d.1 x)).sum) ∧
          (k.1 = false → ∃ S, b.2 = .inr (.set S) ∧ S ≠ [] ∧ ∀ x, x ∈ S ↔ x ∈ k.2.labels ∧
            ∀ y ∈ k.2.labels, labelProbMix val idx k h e d.1 y ≤ labelProbMix val idx k h e d.1 x)) ∧
        (kind d.1 = .inl () → ∃ (p : PF) (x : ℚ) (ls : List (ℕ × Leaf (MD L))) (qs : List ℚ), d.2 = .inl p ∧ b.2 = .inl x ∧
          ls.Perm (h.leaves.filter (fun l => decide (leafProb (mixP val idx) l.2 e ≠ 0))) ∧
          List.Forall₂ (LeafMoment val (lab d.1) (prev d.1) data d.1 1 0) ls qs ∧
          x + Num.lost val (lab d.1) 1 0 p = (List.zipWith (fun l q => reachProb val idx h e l * q) ls qs).sum)) ds rs := by
  obtain ⟨ds, h1, h2⟩ := (C46_learned_mixed_partial hval hidx rnd eps c kind data total hk hdata hfl h hl vs e hvs he hpt).2 hm
  have hmap : ds.map Prod.fst = vs := by
    clear h1 hvs hne hnum
    induction h2 with
    | nil => rfl
    | cons h3 _ ih => rw [List.map_cons, ih, h3.1]
  have hasked : askedVars c.vars.length (some vs) e = vs := by
    unfold askedVars
    cases vs with
    | nil => exact absurd rfl hne
    | cons a l => rfl
  have hself : List.Forall₂ (fun d d' => d = d' ∧ d ∈ ds) ds ds := List.forall₂_same.2 (fun d hd => ⟨rfl, hd⟩)
  obtain ⟨rs, h3, h4⟩ := forall₂_mapM (Q := fun d b => b.1 = d.1 ∧
        (∀ k, kind d.1 = .inr k →
          (k.1 = true → b.2 = .inl (k.2.labels.map (fun x => num x * labelProbMix val idx k h e d.1 x)).sum) ∧
          (k.1 = false → ∃ S, b.2 = .inr (.set S) ∧ S ≠ [] ∧ ∀ x, x ∈ S ↔ x ∈ k.2.labels ∧
            ∀ y ∈ k.2.labels, labelProbMix val idx k h e d.1 y ≤ labelProbMix val idx k h e d.1 x)) ∧
        (kind d.1 = .inl () → ∃ (p : PF) (x : ℚ) (ls : List (ℕ × Leaf (MD L))) (qs : List ℚ), d.2 = .inl p ∧ b.2 = .inl x ∧
          ls.Perm (h.leaves.filter (fun l => decide (leafProb (mixP val idx) l.2 e ≠ 0))) ∧
          List.Forall₂ (LeafMoment val (lab d.1) (prev d.1) data d.1 1 0) ls qs ∧
          x + Num.lost val (lab d.1) 1 0 p = (List.zipWith (fun l q => reachProb val idx h e l * q) ls qs).sum))
    (fun b => do
      let x ← expectationMixOf val (lab b.1) (prev b.1) num b.2
      return (b.1, x)) hself (by
    rintro d _ ⟨rfl, hd⟩
    obtain ⟨v, hv, ⟨rfl, -, h5, h6⟩⟩ := forall₂_mem_right h2 hd
    cases hkd : kind d.1 with
    | inl u =>
      obtain ⟨p, ls, col, g1, g2, g3, g4⟩ := h6 hkd
      obtain ⟨hst, hvy⟩ := hnum d.1 hv hkd
      obtain ⟨x, qs, g5, g6, g7⟩ := mix_moment hval hidx rnd eps hk hdata hfl hl (hvs _ hv).1 hkd (hpos d.1) (hlab d.1)
        (hprev d.1) he hm hst hvy g2 g3 g4 1 0
      refine ⟨(d.1, .inl x), ?_, rfl, (fun k hk => by cases hk), fun _ => ⟨p, x, ls, qs, g1, rfl, g2, g6, g7⟩⟩
      rw [g1]
      simp only [expectationMixOf, Num.expectation, g5, bind, Except.bind, pure, Except.pure]
    | inr k =>
      obtain ⟨dd, g1, g2, g3⟩ := h5 k hkd
      obtain ⟨b, g4, g5, g6⟩ := expectationOf_spec num g2 (P := labelProbMix val idx k h e d.1)
        (fun x hx => g3 _ (fits_label hx))
      refine ⟨(d.1, b), ?_, rfl, ?_, (fun hk => by cases hk)⟩
      · rw [g1]
        simp only [expectationMixOf, g4, bind, Except.bind, pure, Except.pure]
      · intro k' hk'
        injection hk' with hk'
        subst hk'
        exact ⟨g5, g6⟩)
  refine ⟨ds, rs, h1, hmap, ?_, h4⟩
  unfold expectationMix posteriorMix?
  rw [hasked, h1]
  simp only [bind, Except.bind, pure, Except.pure] at h3 ⊢
  rw [h3]

omit hpos hlab hprev in
/-- If the evidence has probability zero, an `Unsatisfiability` is raised, or `None` returned. -/
theorem C85_unsatisfiable_mixed (vs : List ℕ) (hne : vs ≠ []) (hvs : ∀ v ∈ vs, v < c.vars.length ∧ e.lookup v = none)
    (hm : mass (mixP val idx) h e = 0) :
    expectationMix val idx rnd lab prev num c.vars.length (fullOf c) h (some vs) e fail =
      if fail then .error .unsatisfiable else .ok none := by
  have h1 := (C46_learned_mixed_partial hval hidx rnd eps c kind data total hk hdata hfl h hl vs e hvs he hpt).1 hm
  have hasked : askedVars c.vars.length (some vs) e = vs := by
    unfold askedVars
    cases vs with
    | nil => exact absurd rfl hne
    | cons a l => rfl
  unfold expectationMix posteriorMix?
  rw [hasked, h1]
  cases fail <;> rfl

/-- The moments of all numeric and integer variables, of every order, about centers that are numbers and 0 by default. -/
theorem C85_moment_mixed_partial (order : ℕ) (center : List (ℕ × ℚ))
    (hvs : ∀ v, v < c.vars.length → (kind v = .inl () ∨ ∃ k, kind v = .inr k ∧ k.1 = true) → e.lookup v = none)
    (hm : mass (mixP val idx) h e ≠ 0)
    (hnum : ∀ v, v < c.vars.length → kind v = .inl () → Mixes val idx data h e v) :
    ∃ ds rs, posterior (mixOps L val idx rnd) c.vars.length (fullOf c) h ((List.range c.vars.length).filter
        (fun v => hasMoment (kind v))) e = .ok ds ∧
      (∀ v, v ∈ ds.map Prod.fst ↔ v < c.vars.length ∧ (kind v = .inl () ∨ ∃ k, kind v = .inr k ∧ k.1 = true)) ∧
      momentMix val idx rnd lab prev num kind c.vars.length (fullOf c) h order center e fail = .ok (some rs) ∧
      List.Forall₂ (fun d b => b.1 = d.1 ∧
        (∀ k, kind d.1 = .inr k → b.2 =
          (k.2.labels.map (fun x => (num x - (center.lookup d.1).getD 0) ^ order * labelProbMix val idx k h e d.1 x)).sum) ∧
        (kind d.1 = .inl () → ∃ (p : PF) (ls : List (ℕ × Leaf (MD L))) (qs : List ℚ), d.2 = .inl p ∧
          ls.Perm (h.leaves.filter (fun l => decide (leafProb (mixP val idx) l.2 e ≠ 0))) ∧
          List.Forall₂ (LeafMoment val (lab d.1) (prev d.1) data d.1 order ((center.lookup d.1).getD 0)) ls qs ∧
          b.2 + Num.lost val (lab d.1) order ((center.lookup d.1).getD 0) p =
            (List.zipWith (fun l q => reachProb val idx h e l * q) ls qs).sum)) ds rs := by
  set vs := (List.range c.vars.length).filter (fun v => hasMoment (kind v)) with hvsd
  have hmemv : ∀ v, v ∈ vs ↔ v < c.vars.length ∧ (kind v = .inl () ∨ ∃ k, kind v = .inr k ∧ k.1 = true) := by
    intro v
    rw [hvsd, List.mem_filter, List.mem_range]
    cases hkd : kind v with
    | inl u => simp [hasMoment]
    | inr k => simp [hasMoment]
  have hvs' : ∀ v ∈ vs, v < c.vars.length ∧ e.lookup v = none := by
    intro v hv
    have := (hmemv v).1 hv
    exact ⟨this.1, hvs v this.1 this.2⟩
  obtain ⟨ds, h1, h2⟩ := (C46_learned_mixed_partial hval hidx rnd eps c kind data total hk hdata hfl h hl vs e hvs' he hpt).2 hm
  have hmap : ds.map Prod.fst = vs := by
    clear h1 hvs' hmemv
    clear_value vs
    clear hvsd
    induction h2 with
    | nil => rfl
    | cons h3 _ ih => rw [List.map_cons, ih, h3.1]
  have hself : List.Forall₂ (fun d d' => d = d' ∧ d ∈ ds) ds ds := List.forall₂_same.2 (fun d hd => ⟨rfl, hd⟩)
  obtain ⟨rs, h3, h4⟩ := forall₂_mapM (Q := fun d b => b.1 = d.1 ∧
        (∀ k, kind d.1 = .inr k → b.2 =
          (k.2.labels.map (fun x => (num x - (center.lookup d.1).getD 0) ^ order * labelProbMix val idx k h e d.1 x)).sum) ∧
        (kind d.1 = .inl () → ∃ (p : PF) (ls : List (ℕ × Leaf (MD L))) (qs : List ℚ), d.2 = .inl p ∧
          ls.Perm (h.leaves.filter (fun l => decide (leafProb (mixP val idx) l.2 e ≠ 0))) ∧
          List.Forall₂ (LeafMoment val (lab d.1) (prev d.1) data d.1 order ((center.lookup d.1).getD 0)) ls qs ∧
          b.2 + Num.lost val (lab d.1) order ((center.lookup d.1).getD 0) p =
            (List.zipWith (fun l q => reachProb val idx h e l * q) ls qs).sum))
    (fun b => do
      let x ← momentMixOf val (lab b.1) (prev b.1) num order ((center.lookup b.1).getD 0) b.2
      return (b.1, x)) hself (by
    rintro d _ ⟨rfl, hd⟩
    obtain ⟨v, hv, ⟨rfl, -, h5, h6⟩⟩ := forall₂_mem_right h2 hd
    cases hkd : kind d.1 with
    | inl u =>
      obtain ⟨p, ls, col, g1, g2, g3, g4⟩ := h6 hkd
      obtain ⟨hst, hvy⟩ := hnum d.1 (hvs' _ hv).1 hkd
      obtain ⟨x, qs, g5, g6, g7⟩ := mix_moment hval hidx rnd eps hk hdata hfl hl (hvs' _ hv).1 hkd (hpos d.1) (hlab d.1)
        (hprev d.1) he hm hst hvy g2 g3 g4 order ((center.lookup d.1).getD 0)
      refine ⟨(d.1, x), ?_, rfl, (fun k hk => by cases hk), fun _ => ⟨p, ls, qs, g1, g2, g6, g7⟩⟩
      rw [g1]
      simp only [momentMixOf, g5, bind, Except.bind, pure, Except.pure]
    | inr k =>
      obtain ⟨dd, g1, g2, g3⟩ := h5 k hkd
      refine ⟨(d.1, momentOf num dd.2 order ((center.lookup d.1).getD 0)), ?_, rfl, ?_, (fun hk => by cases hk)⟩
      · rw [g1]
        simp only [momentMixOf, bind, Except.bind, pure, Except.pure]
      · intro k' hk'
        injection hk' with hk'
        subst hk'
        simp only
        rw [moment_labels g2]
        congr 1
        apply List.map_congr_left
        intro x hx
        rw [labelProbMix, ← g3 _ (fits_label hx)])
  refine ⟨ds, rs, h1, fun v => by rw [hmap]; exact hmemv v, ?_, h4⟩
  unfold momentMix posteriorMix?
  rw [← hvsd, h1]
  simp only [bind, Except.bind, pure, Except.pure] at h3 ⊢
  rw [h3]

end

/-! ## Examples -/

omit [DecidableEq L] in
theorem mixes_of_check {val : ℤ → ℚ} {idx : ℚ → ℤ} {data : Data} {h : Heap (MD L)} {e : Query} {v : ℕ}
    (h1 : (h.leaves.all (fun l => (numAt v l).all (fun t => match t.2 with
      | .lin m _ => decide (Num.tol < reachProb val idx h e l * m)
      | _ => true))) = true)
    (h2 : (h.leaves.any (fun l => decide (0 < reachProb val idx h e l) &&
      l.2.rows.any (fun r => l.2.rows.any (fun r' => decide (data r v ≠ data r' v))))) = true) : Mixes val idx data h e v := by
  constructor
  · intro l hle d hd _ t ht m k htm
    rw [List.all_eq_true] at h1
    have h3 := h1 l hle
    simp only [numAt, hd] at h3
    rw [List.all_eq_true] at h3
    have := h3 t ht
    rw [htm] at this
    simpa using this
  · simp only [List.any_eq_true, Bool.and_eq_true, decide_eq_true_eq] at h2
    obtain ⟨l, hle, hp, r, hr, r', hr', hne⟩ := h2
    exact ⟨l, hle, hp, r, hr, r', hr', hne⟩

/-- The leaves of the tree over the numbers 0, 2, 4 and 10, 12, 14 have the expectations 25/8 and 125/8 (the floats of the
example are the integers, so that the upper bound of the last piece is far away); the expectation of the variable is
their mean. -/
example : ∃ h, learn (exM.cfg 6) exMData 6 (fitMix Fun.ival Rat.floor (1 / 100) exMKind exMData) = .ok h ∧
    mass (mixP Fun.ival Rat.floor) h [] ≠ 0 ∧ Mixes Fun.ival Rat.floor exMData h [] 0 ∧
    (h.leaves.map (fun l => (Num.expectation Fun.ival id (fun x => x - 1) (numAt 0 l)).toOption)) = [some (25 / 8), some (125 / 8)] ∧
    expectationMix Fun.ival Rat.floor Rat.floor (fun _ x => x) (fun _ x => x - 1) (fun x : ℤ => (x : ℚ)) 2
      (fullOf (exM.cfg 6)) h (some [0, 1]) [] true = .ok (some [(0, .inl (75 / 8)), (1, .inr (.set [20]))]) ∧
    momentMix Fun.ival Rat.floor Rat.floor (fun _ x => x) (fun _ x => x - 1) (fun x : ℤ => (x : ℚ)) exMKind 2
      (fullOf (exM.cfg 6)) h 2 [(0, 7)] [] true = .ok (some [(0, 205 / 6)]) := by
  obtain ⟨h, h1, h2, h3, h4, h5⟩ : ∃ h, learn (exM.cfg 6) exMData 6 (fitMix Fun.ival Rat.floor (1 / 100) exMKind exMData) = .ok h ∧
      mass (mixP Fun.ival Rat.floor) h [] ≠ 0 ∧
      ((h.leaves.all (fun l => (numAt 0 l).all (fun t => match t.2 with
        | .lin m _ => decide (Num.tol < reachProb Fun.ival Rat.floor h [] l * m)
        | _ => true))) = true) ∧
      ((h.leaves.any (fun l => decide (0 < reachProb Fun.ival Rat.floor h [] l) &&
        l.2.rows.any (fun r => l.2.rows.any (fun r' => decide (exMData r 0 ≠ exMData r' 0))))) = true) ∧
      (h.leaves.map (fun l => (Num.expectation Fun.ival id (fun x => x - 1) (numAt 0 l)).toOption)) = [some (25 / 8), some (125 / 8)] ∧
      expectationMix Fun.ival Rat.floor Rat.floor (fun _ x => x) (fun _ x => x - 1) (fun x : ℤ => (x : ℚ)) 2
        (fullOf (exM.cfg 6)) h (some [0, 1]) [] true = .ok (some [(0, .inl (75 / 8)), (1, .inr (.set [20]))]) ∧
      momentMix Fun.ival Rat.floor Rat.floor (fun _ x => x) (fun _ x => x - 1) (fun x : ℤ => (x : ℚ)) exMKind 2
        (fullOf (exM.cfg 6)) h 2 [(0, 7)] [] true = .ok (some [(0, 205 / 6)]) := exists_ok (by decide +kernel)
  exact ⟨h, h1, h2, mixes_of_check h3 h4, h5⟩

/-- The numbers 2, 2, 2 with one symbol, and 7, 7, 7 with another one. -/
def exSData : Data := fun r v =>
  (([[2, 0], [2, 0], [2, 0], [7, 1], [7, 1], [7, 1]] : List (List ℚ)).getD r []).getD v 0

/-- If the samples of each leaf are all the same, the expectation of a numeric variable is 0 as soon as two leaves can be
reached: here the samples are 2 and 7, three of each. -/
theorem C85_violated_numeric :
    ∃ h, learn (exM.cfg 6) exSData 6 (fitMix Fun.ival Rat.floor (1 / 100) exMKind exSData) = .ok h ∧
      expectationMix Fun.ival Rat.floor Rat.floor (fun _ x => x) (fun _ x => x - 1) (fun x : ℤ => (x : ℚ)) 2
        (fullOf (exM.cfg 6)) h (some [0]) [] true = .ok (some [(0, .inl 0)]) ∧
      expectationMix Fun.ival Rat.floor Rat.floor (fun _ x => x) (fun _ x => x - 1) (fun x : ℤ => (x : ℚ)) 2
        (fullOf (exM.cfg 6)) h (some [0]) [(1, .set [1])] true = .ok (some [(0, .inl 7)]) := exists_ok (by decide +kernel)

end Verif.Trees
