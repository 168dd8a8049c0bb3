import Verif.Trees.Learned2
import Verif.Numeric.MergeTotal
import Verif.Numeric.Props11
import Verif.Numeric.DensLemmas
import Verif.Trees.Lemmas4

/-!
# Trees with variables of both kinds: conditioning on symbolic and integer variables
-/

namespace Verif.Trees

open Iv (FP CS Br NS)
open Fun (PF)
open Vars (RI)
open Num
open Learn (Cfg Data learn DataOK fullOf)

/-- Numeric distributions that can be merged and stored. -/
def numOkM (val : ℤ → ℚ) (d : PF) : Prop := numOk val d ∧ Mergeable d ∧ ∀ s ∈ d, Storable s

variable {L : Type} [DecidableEq L]

/-- A distribution for a variable of the given kind, which can be merged and stored. -/
abbrev mixOkM (val : ℤ → ℚ) : MK L → MD L → Prop := sumOk (fun _ => numOkM val) discOk

theorem PLaws.sub {D E K : Type} {o : DistOps D E} {ok ok' : K → D → Prop} {fits : K → Region → Prop} {P : D → Region → ℚ}
    (h : PLaws o ok fits P) (hs : ∀ k d, ok' k d → ok k d) : PLaws o ok' fits P where
  p_ok := fun k d r hd => h.p_ok k d r (hs k d hd)
  ext := fun k d r s hd => h.ext k d r s (hs k d hd)
  nonneg := fun k d r hd => h.nonneg k d r (hs k d hd)
  le_one := fun k d r hd => h.le_one k d r (hs k d hd)
  mono := fun k d r s hd => h.mono k d r s (hs k d hd)
  empty := fun k d r hd => h.empty k d r (hs k d hd)
  inter := h.inter
  sure := fun k d r s hd => h.sure k d r s (hs k d hd)

/-- Two kinds of distributions, of which those of the second kind are conditioned and merged exactly. -/
theorem sum_laws_on {K₁ K₂ D₁ D₂ E₁ E₂ : Type} {o₁ : DistOps D₁ E₁} {o₂ : DistOps D₂ E₂} {ok₁ : K₁ → D₁ → Prop}
    {ok₂ : K₂ → D₂ → Prop} {fits₁ : K₁ → Region → Prop} {fits₂ : K₂ → Region → Prop} {P₁ : D₁ → Region → ℚ}
    {P₂ : D₂ → Region → ℚ} {A₁ : K₁ → Prop} (h₁ : LawsOn o₁ ok₁ fits₁ P₁ A₁) (h₂ : Laws o₂ ok₂ fits₂ P₂) :
    LawsOn (sumOps o₁ o₂) (sumOk ok₁ ok₂) (sumFits fits₁ fits₂) (sumP P₁ P₂) (Sum.elim A₁ (fun _ => True)) := by
  have hleft : ∀ (k : K₁) (ds : List (D₁ ⊕ D₂)), (∀ d ∈ ds, sumOk ok₁ ok₂ (.inl k) d) →
      ∃ es : List D₁, ds = es.map .inl ∧ ∀ d ∈ es, ok₁ k d := by
    intro k ds
    induction ds with
    | nil => exact fun _ => ⟨[], rfl, by simp⟩
    | cons d ds ih =>
      intro h
      obtain ⟨es, rfl, he⟩ := ih (fun d hd => h d (List.mem_cons_of_mem _ hd))
      have := h d List.mem_cons_self
      cases d with
      | inl d => exact ⟨d :: es, rfl, by simpa using ⟨this, he⟩⟩
      | inr d => exact this.elim
  have hright : ∀ (k : K₂) (ds : List (D₁ ⊕ D₂)), (∀ d ∈ ds, sumOk ok₁ ok₂ (.inr k) d) →
      ∃ es : List D₂, ds = es.map .inr ∧ ∀ d ∈ es, ok₂ k d := by
    intro k ds
    induction ds with
    | nil => exact fun _ => ⟨[], rfl, by simp⟩
    | cons d ds ih =>
      intro h
      obtain ⟨es, rfl, he⟩ := ih (fun d hd => h d (List.mem_cons_of_mem _ hd))
      have := h d List.mem_cons_self
      cases d with
      | inl d => exact this.elim
      | inr d => exact ⟨d :: es, rfl, by simpa using ⟨this, he⟩⟩
  have mleft : ∀ (es : List D₁) ws, (sumOps o₁ o₂).merge (es.map .inl) ws = (o₁.merge es ws).map .inl := by
    intro es ws
    have : (es.map (Sum.inl : D₁ → D₁ ⊕ D₂)).filterMap Sum.getLeft? = es := by
      rw [List.filterMap_map]; exact List.filterMap_some
    simp only [sumOps]
    rw [if_pos (by simp), this]
  have mright : ∀ (es : List D₂) ws, es ≠ [] → (sumOps o₁ o₂).merge (es.map .inr) ws = (o₂.merge es ws).map .inr := by
    intro es ws hne
    have : (es.map (Sum.inr : D₂ → D₁ ⊕ D₂)).filterMap Sum.getRight? = es := by
      rw [List.filterMap_map]; exact List.filterMap_some
    obtain ⟨d, r, rfl⟩ := List.exists_cons_of_ne_nil hne
    simp only [sumOps]
    rw [if_neg (by simp), if_pos (by simp), this]
  refine { toPLaws := sum_laws h₁.toPLaws h₂.toPLaws, crop := ?_, merge := ?_, mergeable := ?_, reload := ?_ }
  · rintro (k | k) (d | d) r hA hd hr hp
    · obtain ⟨d', e1, e2, e3⟩ := h₁.crop k d r hA hd hr hp
      exact ⟨.inl d', by simp only [sumOps, e1]; rfl, e2, e3⟩
    · exact hd.elim
    · exact hd.elim
    · obtain ⟨d', e1, e2, e3⟩ := h₂.crop k d r hd hr hp
      exact ⟨.inr d', by simp only [sumOps, e1]; rfl, e2, e3⟩
  · rintro (k | k) ds ws hA hne hok hlen hw hsum
    · obtain ⟨es, rfl, he⟩ := hleft k ds hok
      obtain ⟨d', e1, e2, e3⟩ := h₁.merge k es ws hA (by simpa using hne) he (by simpa using hlen) hw hsum
      refine ⟨.inl d', by rw [mleft, e1]; rfl, e2, fun s hs => ?_⟩
      rw [List.zipWith_map_left]
      exact e3 s hs
    · obtain ⟨es, rfl, he⟩ := hright k ds hok
      have hne' : es ≠ [] := by simpa using hne
      obtain ⟨d', e1, e2, e3⟩ := h₂.merge k es ws hne' he (by simpa using hlen) hw hsum
      refine ⟨.inr d', by rw [mright _ _ hne', e1]; rfl, e2, fun s hs => ?_⟩
      rw [List.zipWith_map_left]
      exact e3 s hs
  · rintro (k | k) ds ws hne hok hlen hw hsum
    · obtain ⟨es, rfl, he⟩ := hleft k ds hok
      obtain ⟨d', e1, e2⟩ := h₁.mergeable k es ws (by simpa using hne) he (by simpa using hlen) hw hsum
      exact ⟨.inl d', by rw [mleft, e1]; rfl, by simp only [sumOps, e2]; rfl⟩
    · obtain ⟨es, rfl, he⟩ := hright k ds hok
      have hne' : es ≠ [] := by simpa using hne
      obtain ⟨d', e1, e2⟩ := h₂.on.mergeable k es ws hne' he (by simpa using hlen) hw hsum
      exact ⟨.inr d', by rw [mright _ _ hne', e1]; rfl, by simp only [sumOps, e2]; rfl⟩
  · rintro (k | k) (d | d) hd
    · simp only [sumOps, h₁.reload k d hd]; rfl
    · exact hd.elim
    · exact hd.elim
    · simp only [sumOps, h₂.reload k d hd]; rfl

/-- Numeric distributions can be merged and stored. -/
theorem num_laws_on {val : ℤ → ℚ} (hval : StrictMono val) {idx : ℚ → ℤ} (hidx : ∀ n, idx (val n) = n) (rnd : ℚ → ℤ) :
    LawsOn (numOps val idx rnd) (fun _ : Unit => numOkM val) (fun _ => numFits val) (numP val idx) (fun _ => False) where
  toPLaws := (num_laws hval hidx rnd).sub (fun _ _ h => h.1)
  crop := fun _ _ _ h => h.elim
  merge := fun _ _ _ h => h.elim
  mergeable := fun _ ds ws _ hok _ hw hsum => by
    obtain ⟨p, h1, h2⟩ := merge_total rnd (fun d hd => (hok d hd).2.1) hw hsum
    exact ⟨p, h1, reload_storable h2⟩
  reload := fun _ d hd => reload_storable hd.2.2

/-- Symbolic and integer distributions beside numeric ones. -/
theorem mix_laws_on {val : ℤ → ℚ} (hval : StrictMono val) {idx : ℚ → ℤ} (hidx : ∀ n, idx (val n) = n) (rnd : ℚ → ℤ) :
    LawsOn (mixOps L val idx rnd) (mixOkM (L := L) val) (mixFits val) (mixP val idx)
      (Sum.elim (fun _ => False) (fun _ => True)) :=
  sum_laws_on (num_laws_on hval hidx rnd) disc_laws

theorem TreeOK.sub {D K : Type} {ok ok' : K → D → Prop} {fits : K → Region → Prop} {P : D → Region → ℚ} {kind : ℕ → K}
    {full : ℕ → Region} {n : ℕ} {h : Heap D} (hT : TreeOK ok fits P kind full n h)
    (hs : ∀ e ∈ h.leaves, ∀ (v : ℕ) (d : D), e.2.dists[v]? = some d → ok' (kind v) d) :
    TreeOK ok' fits P kind full n h where
  shape := hT.shape
  noNone := hT.noNone
  fitted := hT.fitted
  dists := fun e he => ⟨(hT.dists e he).1, hs e he⟩
  prior := hT.prior
  path := hT.path
  values := hT.values
  support := hT.support

omit [DecidableEq L] in
/-- The numeric distributions in the leaves of a learned tree are fitted to the rows of the leaf. -/
theorem learned_fitted {val : ℤ → ℚ} (hval : StrictMono val) {idx : ℚ → ℤ} (hidx : ∀ n, idx (val n) = n) {eps : ℚ} {c : Cfg}
    {kind : ℕ → MK L} {data : Data} {total : ℕ} (hk : Kinds c kind) (hdata : DataOK c data total)
    (hfl : Floats val c data total) {h : Heap (MD L)} (hl : learn c data total (fitMix val idx eps kind data) = .ok h) :
    ∀ l ∈ h.leaves, l.2.rows ≠ [] ∧ ∀ v, v < c.vars.length → kind v = .inl () → ∃ d, l.2.dists[v]? = some (.inl d) ∧
      Num.fit val eps (l.2.rows.map (fun r => idx (data r v))) = .ok d := by
  intro l hle
  obtain ⟨ix, hI⟩ := Learn.learn_inv hdata hl
  refine ⟨(hI.leaf l hle).nonempty, fun v hlt hkd => ?_⟩
  have hv := hk.numeric hlt hkd
  have hrow : ∀ r ∈ l.2.rows, r < total := by
    intro r hr
    have := hI.rows.mem_iff (a := r)
    simp only [List.flatMap_nil, List.append_nil, List.mem_flatMap, List.mem_range] at this
    exact this.1 ⟨l, hle, hr⟩
  have hflr : ∀ r ∈ l.2.rows, ∃ n, data r v = val n := by
    intro r hr
    obtain ⟨n, hn⟩ := hfl v hv r r (hrow r hr) (hrow r hr)
    exact ⟨n, by rw [← hn]; ring⟩
  obtain ⟨h1, -⟩ := fitNum_spec (eps := eps) hval hidx (hI.leaf l hle).nonempty hflr
  refine ⟨fitNum val idx eps data l.2.rows v, ?_, h1⟩
  rw [(hI.leaf l hle).dists, List.getElem?_map, List.getElem?_range hlt]
  simp [fitMix, hkd]

/-- The distributions of a learned tree can be merged and stored. -/
theorem learned_mix_on {val : ℤ → ℚ} (hval : StrictMono val) {idx : ℚ → ℤ} (hidx : ∀ n, idx (val n) = n) {eps : ℚ} {c : Cfg}
    {kind : ℕ → MK L} {data : Data} {total : ℕ} (hk : Kinds c kind) (hdata : DataOK c data total)
    (hfl : Floats val c data total) {h : Heap (MD L)} (hl : learn c data total (fitMix val idx eps kind data) = .ok h) :
    TreeOK (mixOkM val) (mixFits val) (mixP val idx) kind (fullOf c) c.vars.length h := by
  have hT := learned_mix hval hidx hk hdata hfl hl
  refine hT.sub fun l hle v d hd => ?_
  have hok := (hT.dists l hle).2 v d hd
  have hlt : v < c.vars.length := by
    rw [← (hT.dists l hle).1]
    exact (List.getElem?_eq_some_iff.1 hd).1
  cases hkd : kind v with
  | inr k =>
    rw [hkd] at hok
    cases d with
    | inl d => exact hok.elim
    | inr d => exact hok
  | inl u =>
    rw [hkd] at hok
    obtain ⟨hne, hf⟩ := learned_fitted hval hidx hk hdata hfl hl l hle
    obtain ⟨d', e1, e2⟩ := hf v hlt hkd
    rw [hd] at e1
    injection e1 with e1
    subst e1
    obtain ⟨p, e3, e4⟩ := fit_mergeable hval (eps := eps) (data := l.2.rows.map (fun r => idx (data r v)))
      (s := l.2.rows.map (fun r => idx (data r v))) (l := none) (r := none) (by simp [loadBuffer]) (by simpa using hne)
    rw [e2] at e3
    injection e3 with e3
    subst e3
    exact ⟨hok, e4⟩

/-! ## The likelihood of intervals in the leaves -/

/-- The interval that a path leaves of a numeric variable: it does not contain its upper end, and its lower end is one
of the splits. -/
theorem pathMap_num {data : Data} {total : ℕ} {rows : List ℕ} {full : ℕ → Region} {v : ℕ}
    (hfull : full v = .num ⟨.ninf, .pinf, .exc, .exc⟩) (path : Path) (hcut : Learn.Cut data total rows path)
    (hseg : ∀ s ∈ path, s.1 = v → ∃ I, s.2 = .num I) :
    ∀ R, (pathMap full path).lookup v = some R → ∃ I, R = .num I ∧ (I = riEmptyset ∨ I.right = .exc ∧
      (I.lower = .ninf ∨ ∃ s ∈ path, ∃ x, s.1 = v ∧ s.2 = .num ⟨.fin x, .pinf, .inc, .exc⟩ ∧ I.lower = .fin x)) := by
  induction path using List.reverseRecOn with
  | nil => simp [pathMap]
  | append_singleton l r ih =>
    intro R hR
    have ih' := ih (fun s hs => hcut s (by simp [hs])) (fun s hs => hseg s (by simp [hs]))
    rw [pathMap_snoc, Dict.lookup_set] at hR
    by_cases hv : v = r.1
    · rw [if_pos hv] at hR
      cases hR
      subst hv
      have hbase : ∃ I, ((pathMap full l).lookup r.1).getD (full r.1) = .num I ∧ (I = riEmptyset ∨ I.right = .exc ∧
          (I.lower = .ninf ∨ ∃ s ∈ l, ∃ x, s.1 = r.1 ∧ s.2 = .num ⟨.fin x, .pinf, .inc, .exc⟩ ∧ I.lower = .fin x)) := by
        cases hl : (pathMap full l).lookup r.1 with
        | none => exact ⟨_, by rw [Option.getD_none, hfull], .inr ⟨rfl, .inl rfl⟩⟩
        | some R' => exact ih' R' hl
      obtain ⟨I, hI, hI'⟩ := hbase
      obtain ⟨J, hJ⟩ := hseg r (by simp) rfl
      obtain ⟨x, hx, -⟩ := hcut r (by simp) J hJ
      refine ⟨riInter I J, by rw [hI, hJ]; rfl, ?_⟩
      rcases hI' with rfl | ⟨h1, h2⟩
      · left
        exact inter_empty_left
      · by_cases hi : riIntersects I J = true
        · right
          have hJr : J.right = .exc := by rcases hx with rfl | rfl <;> rfl
          unfold riInter
          rw [hi]
          simp only [Bool.not_true, Bool.false_eq_true, if_false]
          refine ⟨?_, ?_⟩
          · rw [h1, hJr]
            split_ifs <;> rfl
          · rcases le_total J.lower I.lower with hle | hle
            · rw [max_eq_left hle]
              rcases h2 with h2 | ⟨s, hs, y, h3, h4, h5⟩
              · exact .inl h2
              · exact .inr ⟨s, by simp [hs], y, h3, h4, h5⟩
            · rw [max_eq_right hle]
              rcases hx with rfl | rfl
              · exact .inl rfl
              · exact .inr ⟨r, by simp, x, rfl, hJ, rfl⟩
        · left
          unfold riInter
          rw [Bool.not_eq_true] at hi
          rw [hi]
          rfl
    · rw [if_neg hv] at hR
      obtain ⟨I, h1, h2⟩ := ih' R hR
      refine ⟨I, h1, h2.imp id (fun h => ⟨h.1, h.2.imp id ?_⟩)⟩
      rintro ⟨s, hs, y, h3⟩
      exact ⟨s, by simp [hs], y, h3⟩

/-- An interval that is no single number, but one within the region of a leaf: it ends at the lower end of the
region. -/
theorem touch {I : CS} (hI : LeftClosed I) {val : ℤ → ℚ} (hpt : (Region.num (embI val I)).point = none) {R : RI}
    (hR : R.right = .exc) {x : XQ} (h : (Region.num (riInter (embI val I) R)).point = some x) : R.lower = x := by
  unfold Region.point at h
  simp only at h
  split_ifs at h with hc
  obtain ⟨h1, h2, h3⟩ := hc
  simp only [Option.some.injEq] at h
  by_cases hi : riIntersects (embI val I) R = true
  · have e : riInter (embI val I) R = ⟨max (embI val I).lower R.lower, min (embI val I).upper R.upper,
      if R.lower = (embI val I).lower then Br.max (embI val I).left R.left
        else if (embI val I).lower > R.lower then (embI val I).left else R.left,
      if R.upper = (embI val I).upper then Br.max (embI val I).right R.right
        else if (embI val I).upper < R.upper then (embI val I).right else R.right⟩ := by
      unfold riInter
      rw [hi]
      rfl
    rw [e] at h h1 h2 h3
    simp only at h h1 h2 h3
    have hup : (embI val I).upper < R.upper ∧ (embI val I).right = .inc := by
      by_cases h4 : R.upper = (embI val I).upper
      · rw [if_pos h4, hR] at h3
        cases hb : (embI val I).right <;> rw [hb] at h3 <;> cases h3
      · rw [if_neg h4] at h3
        by_cases h5 : (embI val I).upper < R.upper
        · rw [if_pos h5] at h3
          exact ⟨h5, h3⟩
        · rw [if_neg h5, hR] at h3
          cases h3
    rw [min_eq_left hup.1.le] at h1
    rcases le_total (embI val I).lower R.lower with h6 | h6
    · rw [max_eq_right h6] at h
      exact h
    · rw [max_eq_left h6] at h1
      exfalso
      have hleft : (embI val I).left = .inc := by
        rcases hI.1 with ⟨h7, _⟩ | ⟨_, h7⟩
        · exfalso
          rw [show (embI val I).lower = emb val I.lower from rfl, h7] at h1
          rcases hI.2.1 with ⟨h8, _⟩ | ⟨n, h8⟩ <;>
            rw [show (embI val I).upper = emb val I.upper from rfl, h8] at h1 <;> cases h1
        · exact h7
      unfold Region.point at hpt
      simp only [h1, hleft, hup.2, and_self, if_true] at hpt
      cases hpt
  · rw [Bool.not_eq_true] at hi
    have e : riInter (embI val I) R = riEmptyset := by
      unfold riInter
      rw [hi]
      rfl
    rw [e] at h2
    cases h2

/-- A fitted distribution at numbers below the samples. -/
theorem fitNum_point {val : ℤ → ℚ} (hval : StrictMono val) {idx : ℚ → ℤ} (hidx : ∀ n, idx (val n) = n) {eps : ℚ} {data : Data}
    {rows : List ℕ} {v : ℕ} (hne : rows ≠ []) (hfl : ∀ r ∈ rows, ∃ n, data r v = val n) {n : ℤ}
    (hn : ∀ r ∈ rows, val n < data r v) (rnd : ℚ → ℤ) :
    numP val idx (fitNum val idx eps data rows v) (.num ⟨.fin (val n), .fin (val n), .inc, .inc⟩) = 0 ∧
    (numOps val idx rnd).pdf (fitNum val idx eps data rows v) (.fin (val n)) = .ok (.fin 0) := by
  set s := rows.map (fun r => idx (data r v)) with hs
  have hmem : ∀ x ∈ s, n < x := by
    intro x hx
    obtain ⟨r, hr, rfl⟩ := List.mem_map.1 hx
    obtain ⟨m, hm⟩ := hfl r hr
    have := hn r hr
    rw [hm] at this ⊢
    rw [hidx]
    exact hval.lt_iff_lt.1 this
  have hload : loadBuffer s none none = .ok s := by simp [loadBuffer]
  have hsne : s ≠ [] := by simpa [hs] using hne
  have hI : LeftClosed ⟨.fin n, .fin n, .inc, .inc⟩ := ⟨.inr ⟨⟨n, rfl⟩, rfl⟩, .inr ⟨n, rfl⟩, .inr ⟨rfl, rfl⟩⟩
  have key : ∀ (d : PF) (A : FP → ℚ) (U : FP → Br → ℚ), (∀ I, LeftClosed I → pInterval val d I = .ok (endMass A U I)) →
      numP val idx d (.num ⟨.fin (val n), .fin (val n), .inc, .inc⟩) = endMass A U ⟨.fin n, .fin n, .inc, .inc⟩ := by
    intro d A U h
    have := numP_of (idx := idx) hidx h hI idx
    unfold numP
    rw [show (⟨.fin (val n), .fin (val n), .inc, .inc⟩ : RI) = embI val ⟨.fin n, .fin n, .inc, .inc⟩ from rfl, this]
  obtain ⟨lo, hlo, hmin⟩ := exists_least hsne
  obtain ⟨hi, hhi, hmax⟩ := exists_greatest hsne
  have hnlo := hmem lo hlo
  rcases (hmin hi hhi).lt_or_eq with hlt | heq
  · obtain ⟨p, F, hp, -, -, hF⟩ := fitCdf_of hval (eps := eps) hload hlo hhi hlt hmin hmax
    obtain ⟨p', F', g, hp', -, hpdf, hdens, -, -, hg⟩ := fit_dens hval (eps := eps) hload hlo hhi hlt hmin hmax
    rw [hp] at hp'
    injection hp' with hp'
    subst hp'
    have hfit : fitNum val idx eps data rows v = p := by unfold fitNum; rw [← hs, hp]
    rw [hfit]
    refine ⟨?_, ?_⟩
    · rw [key p _ _ (fun I hI => pInterval_fit hF.span hI)]
      have h1 : ¬ lo < n := by omega
      have h2 : ¬ lo = n := by omega
      simp [endMass, fitU, below, FP.lt_def, FP.leb, hF.zero n hnlo]
    · simp only [numOps, bind, Except.bind, hpdf, toFP, hidx, hdens, hg n (.inl hnlo)]
  · subst heq
    have hp := fit_single (val := val) (eps := eps) hload hlo (fun y hy => le_antisymm (hmax y hy) (hmin y hy))
    have hfit : fitNum val idx eps data rows v = jumpCdf lo := by unfold fitNum; rw [← hs, hp]
    rw [hfit]
    refine ⟨?_, ?_⟩
    · rw [key (jumpCdf lo) _ _ (fun I hI => pInterval_dirac lo hI)]
      have h1 : ¬ lo < n := by omega
      have h2 : ¬ lo = n := by omega
      have h3 : ¬ lo ≤ n := by omega
      simp [endMass, FP.lt_def, FP.leb, h1, h2]
    · obtain ⟨d, h1, h2, -⟩ := jump_dens lo
      simp only [numOps, bind, Except.bind, h1, toFP, hidx, h2, if_neg hnlo.ne]

/-- In learned trees, the likelihood of the evidence in a leaf is its probability, if the evidence is no single number. -/
theorem learned_lik {val : ℤ → ℚ} (hval : StrictMono val) {idx : ℚ → ℤ} (hidx : ∀ n, idx (val n) = n) (rnd : ℚ → ℤ) {eps : ℚ}
    {c : Cfg} {kind : ℕ → MK L} {data : Data} {total : ℕ} (hk : Kinds c kind) (hdata : DataOK c data total)
    (hfl : Floats val c data total) {h : Heap (MD L)} (hl : learn c data total (fitMix val idx eps kind data) = .ok h)
    {v : ℕ} {r : Region} (hr : mixFits val (kind v) r) (hpt : r.point = none) {l : ℕ × Leaf (MD L)} (hle : l ∈ h.leaves)
    {d : MD L} (hd : l.2.dists[v]? = some d) :
    lik (mixOps L val idx rnd) d (l.2.restrict (fullOf c) v r) = .ok (mixP val idx d r) := by
  have hT := learned_mix_on hval hidx hk hdata hfl hl
  have hgen := lik_eq (mix_laws_on hval hidx rnd) (hT.dists l hle).2 (hT.path l hle) hT.values (hT.support l hle) hd hr
  cases hp : (l.2.restrict (fullOf c) v r).point with
  | none => exact hgen hp
  | some x =>
    clear hgen
    obtain ⟨ix, hI⟩ := Learn.learn_inv hdata hl
    have hrow : ∀ r ∈ l.2.rows, r < total := by
      intro r hr
      have := hI.rows.mem_iff (a := r)
      simp only [List.flatMap_nil, List.append_nil, List.mem_flatMap, List.mem_range] at this
      exact this.1 ⟨l, hle, hr⟩
    have hlt : v < c.vars.length := by
      rw [← (hT.dists l hle).1]
      exact (List.getElem?_eq_some_iff.1 hd).1
    have hres := restrict_P (mix_laws_on hval hidx rnd).toPLaws (hT.dists l hle).2 (hT.path l hle) hT.values
      (hT.support l hle) hd hr
    cases hkd : kind v with
    | inr k =>
      exfalso
      rw [hkd] at hr
      obtain ⟨z, rfl, -⟩ := hr
      unfold Leaf.restrict at hp
      cases hR : (pathMap (fullOf c) l.2.path).lookup v with
      | none => rw [hR] at hp; cases hp
      | some R => rw [hR] at hp; cases R <;> cases hp
    | inl u =>
      rw [hkd] at hr
      have hv := hk.numeric hlt hkd
      have hseg : ∀ s ∈ l.2.path, s.1 = v → ∃ I, s.2 = .num I := by
        rintro s hs rfl
        have h2 := ((hI.leaf l hle).regions s hs).2
        rw [hv] at h2
        exact h2
      have hfull : fullOf c v = .num ⟨.ninf, .pinf, .exc, .exc⟩ := by unfold fullOf; rw [hv]
      have hflr : ∀ r ∈ l.2.rows, ∃ n, data r v = val n := by
        intro r hr
        obtain ⟨n, hn⟩ := hfl v hv r r (hrow r hr) (hrow r hr)
        exact ⟨n, by rw [← hn]; ring⟩
      cases hR : (pathMap (fullOf c) l.2.path).lookup v with
      | none =>
        unfold Leaf.restrict at hp
        rw [hR] at hp
        rw [hpt] at hp
        cases hp
      | some R =>
        obtain ⟨J, rfl, hJ⟩ := pathMap_num hfull l.2.path (hI.leaf l hle).cut hseg R hR
        have hre : l.2.restrict (fullOf c) v r = r.inter (.num J) := by unfold Leaf.restrict; rw [hR]
        rw [hre] at hp hres ⊢
        rcases hr with rfl | ⟨I, hIc, rfl⟩
        · exfalso
          simp only [Region.inter, inter_empty_left] at hp
          cases hp
        · rcases hJ with rfl | ⟨hJr, hJl⟩
          · exfalso
            simp only [Region.inter, inter_empty_right] at hp
            cases hp
          · have hx : J.lower = x := touch hIc hpt hJr hp
            have hxx : riInter (embI val I) J = ⟨x, x, .inc, .inc⟩ := by
              simp only [Region.inter, Region.point] at hp
              split_ifs at hp with hc
              cases hri : riInter (embI val I) J with
              | mk a b p q =>
                rw [hri] at hc hp
                simp only [Option.some.injEq] at hc hp
                obtain ⟨rfl, rfl, rfl⟩ := hc
                subst hp
                rfl
            rcases hJl with hn | ⟨s, hs, y, hsv, hs2, hy⟩
            · exfalso
              rw [hx] at hn
              subst hn
              simp only [Region.inter, hxx] at hres
              rw [hkd] at hres
              rcases hres.1 with h1 | ⟨K, hK, h1⟩
              · cases h1
              · injection h1 with h1
                have e1 := congrArg Vars.RI.upper h1
                have e2 : emb val K.upper = .ninf := e1.symm
                rcases hK.2.1 with ⟨h2, _⟩ | ⟨m, h2⟩ <;> rw [h2] at e2 <;> cases e2
            · rw [hx] at hy
              subst hy
              obtain ⟨t, ht, ⟨r1, r2, hr1, hr2, hte⟩, hne⟩ := (hI.leaf l hle).cut s hs _ hs2
              have hty : t = y := by
                rcases ht with ht | ht
                · cases ht
                · injection ht with ht; injection ht with ht; exact ht.symm
              subst hty
              rw [hsv] at hte hne
              obtain ⟨n, hn⟩ := hfl v hv r1 r2 hr1 hr2
              rw [hn] at hte
              subst hte
              have hgt : ∀ r ∈ l.2.rows, val n < data r v := by
                intro r hr
                have := (hI.leaf l hle).sat r hr s hs
                rw [hs2, hsv] at this
                rcases this.1 with h | ⟨h, _⟩
                · exact (XQ.fin_lt _ _).1 h
                · exact absurd (XQ.fin.inj h).symm (hne r hr)
              obtain ⟨p1, p2⟩ := fitNum_point (eps := eps) hval hidx (hI.leaf l hle).nonempty hflr hgt rnd
              have hdd : d = .inl (fitNum val idx eps data l.2.rows v) := by
                rw [(hI.leaf l hle).dists, List.getElem?_map, List.getElem?_range hlt] at hd
                simp only [Option.map_some, fitMix, hkd, Option.some.injEq] at hd
                exact hd.symm
              subst hdd
              have hz : mixP (L := L) val idx (.inl (fitNum val idx eps data l.2.rows v)) (.num (embI val I)) = 0 := by
                rw [← hres.2]
                simp only [Region.inter, hxx]
                exact p1
              rw [hz]
              unfold lik
              rw [hp]
              simp only [sumOps, bind, Except.bind]
              rw [p2]
              rfl

end Verif.Trees
