import Verif.Trees.NumLaws
import Verif.Trees.Learned
import Verif.Numeric.JsonLemmas

/-!
# Learned trees over numeric, symbolic and integer variables
-/

namespace Verif.Trees

open Iv (FP CS Br NS)
open Vars (RI)
open Fun (PF)
open Disc (Dist Dom Arg)
open Learn (Cfg Data learn Valid Sat DataOK fullOf domainOf)

/-! ## Two kinds of variables -/

/-- Distributions of the right kind. -/
def sumOk {K₁ K₂ D₁ D₂ : Type} (ok₁ : K₁ → D₁ → Prop) (ok₂ : K₂ → D₂ → Prop) : K₁ ⊕ K₂ → D₁ ⊕ D₂ → Prop
  | .inl k, .inl d => ok₁ k d
  | .inr k, .inr d => ok₂ k d
  | _, _ => False

/-- Values of the right kind. -/
def sumFits {K₁ K₂ : Type} (fits₁ : K₁ → Region → Prop) (fits₂ : K₂ → Region → Prop) : K₁ ⊕ K₂ → Region → Prop
  | .inl k => fits₁ k
  | .inr k => fits₂ k

/-- Probabilities under distributions of both kinds. -/
def sumP {D₁ D₂ : Type} (P₁ : D₁ → Region → ℚ) (P₂ : D₂ → Region → ℚ) : D₁ ⊕ D₂ → Region → ℚ
  | .inl d => P₁ d
  | .inr d => P₂ d

theorem sum_laws {K₁ K₂ D₁ D₂ E₁ E₂ : Type} {o₁ : DistOps D₁ E₁} {o₂ : DistOps D₂ E₂} {ok₁ : K₁ → D₁ → Prop}
    {ok₂ : K₂ → D₂ → Prop} {fits₁ : K₁ → Region → Prop} {fits₂ : K₂ → Region → Prop} {P₁ : D₁ → Region → ℚ}
    {P₂ : D₂ → Region → ℚ} (h₁ : PLaws o₁ ok₁ fits₁ P₁) (h₂ : PLaws o₂ ok₂ fits₂ P₂) :
    PLaws (sumOps o₁ o₂) (sumOk ok₁ ok₂) (sumFits fits₁ fits₂) (sumP P₁ P₂) where
  p_ok := by
    rintro (k | k) (d | d) r hd hr
    · exact h₁.p_ok k d r hd hr
    · exact hd.elim
    · exact hd.elim
    · exact h₂.p_ok k d r hd hr
  ext := by
    rintro (k | k) (d | d) r s hd hr hs
    · exact h₁.ext k d r s hd hr hs
    · exact hd.elim
    · exact hd.elim
    · exact h₂.ext k d r s hd hr hs
  nonneg := by
    rintro (k | k) (d | d) r hd hr
    · exact h₁.nonneg k d r hd hr
    · exact hd.elim
    · exact hd.elim
    · exact h₂.nonneg k d r hd hr
  le_one := by
    rintro (k | k) (d | d) r hd hr
    · exact h₁.le_one k d r hd hr
    · exact hd.elim
    · exact hd.elim
    · exact h₂.le_one k d r hd hr
  mono := by
    rintro (k | k) (d | d) r s hd hr hs
    · exact h₁.mono k d r s hd hr hs
    · exact hd.elim
    · exact hd.elim
    · exact h₂.mono k d r s hd hr hs
  empty := by
    rintro (k | k) (d | d) r hd hr
    · exact h₁.empty k d r hd hr
    · exact hd.elim
    · exact hd.elim
    · exact h₂.empty k d r hd hr
  inter := by
    rintro (k | k) r s hr hs
    · exact h₁.inter k r s hr hs
    · exact h₂.inter k r s hr hs
  sure := by
    rintro (k | k) (d | d) r s hd hr hs
    · exact h₁.sure k d r s hd hr hs
    · exact hd.elim
    · exact hd.elim
    · exact h₂.sure k d r s hd hr hs

/-- If all restrictions of a variable on a path are certain, so is their intersection. -/
theorem path_sure {D E K : Type} {o : DistOps D E} {ok : K → D → Prop} {fits : K → Region → Prop}
    {P : D → Region → ℚ} {kind : ℕ → K} {full : ℕ → Region} {n : ℕ} (L : PLaws o ok fits P)
    (hfull : ∀ v, v < n → fits (kind v) (full v) ∧ ∀ r x, fits (kind v) r → r.Mem x → (full v).Mem x) {v : ℕ} {d : D} (hd : ok (kind v) d) (h0 : P d (full v) = 1) :
    ∀ path : Path, (∀ s ∈ path, s.1 < n ∧ fits (kind s.1) s.2 ∧ s.2.OK) → (∀ s ∈ path, s.1 = v → P d s.2 = 1) →
    ∀ R, (pathMap full path).lookup v = some R → P d R = 1 := by
  intro path
  induction path using List.reverseRecOn with
  | nil => intro _ _ R hR; simp [pathMap] at hR
  | append_singleton l e ih =>
    intro hp h1 R hR
    have ih' := ih (fun s hs => hp s (by simp [hs])) (fun s hs => h1 s (by simp [hs]))
    rw [pathMap_snoc, Dict.lookup_set] at hR
    by_cases hv : v = e.1
    · rw [if_pos hv] at hR
      have he := hp e (by simp)
      have hPe := h1 e (by simp) hv.symm
      rw [← hv] at he hR
      simp only [Option.some.injEq] at hR
      subst hR
      cases hl : (pathMap full l).lookup v with
      | none =>
        simp only [Option.getD_none]
        rw [L.sure (kind v) d _ _ hd (hfull v he.1).1 he.2.1 hPe, h0]
      | some R' =>
        simp only [Option.getD_some]
        have hfit := pathMap_fits L l (full := full) (kind := kind) (n := n) (fun s hs => hp s (by simp [hs]))
          (fun v hv => hfull v hv) v R' hl
        rw [L.sure (kind v) d _ _ hd hfit.2 he.2.1 hPe, ih' R' hl]
    · rw [if_neg hv] at hR
      exact ih' R hR

/-! ## The distributions of a leaf -/

/-- `Numeric._fit` (numeric.py 244-259) on the rows of a leaf. -/
def fitNum (val : ℤ → ℚ) (idx : ℚ → ℤ) (eps : ℚ) (data : Data) (rows : List ℕ) (v : ℕ) : PF :=
  match Num.fit val eps (rows.map (fun r => idx (data r v))) with
  | .ok p => p
  | .error _ => []

variable {val : ℤ → ℚ} {idx : ℚ → ℤ} {eps : ℚ} {data : Data}

theorem fitNum_spec (hval : StrictMono val) (hidx : ∀ n, idx (val n) = n) {rows : List ℕ} {v : ℕ} (hne : rows ≠ [])
    (hfl : ∀ r ∈ rows, ∃ n, data r v = val n) :
    Num.fit val eps (rows.map (fun r => idx (data r v))) = .ok (fitNum val idx eps data rows v) ∧
    numOk val (fitNum val idx eps data rows v) ∧
    numP val idx (fitNum val idx eps data rows v) (.num ⟨.ninf, .pinf, .exc, .exc⟩) = 1 ∧
    (∀ n, (∀ r ∈ rows, data r v < val n) →
      numP val idx (fitNum val idx eps data rows v) (.num ⟨.ninf, .fin (val n), .exc, .exc⟩) = 1) ∧
    (∀ n, (∀ r ∈ rows, val n < data r v) →
      numP val idx (fitNum val idx eps data rows v) (.num ⟨.fin (val n), .pinf, .inc, .exc⟩) = 1) := by
  set s := rows.map (fun r => idx (data r v)) with hs
  have hmem : ∀ x ∈ s, ∃ r ∈ rows, data r v = val x := by
    intro x hx
    obtain ⟨r, hr, rfl⟩ := List.mem_map.1 hx
    obtain ⟨n, hn⟩ := hfl r hr
    exact ⟨r, hr, by rw [hn, hidx]⟩
  have hload : Num.loadBuffer s none none = .ok s := by simp [Num.loadBuffer]
  have hsne : s ≠ [] := by simpa [hs] using hne
  have hI1 : LeftClosed ⟨.ninf, .pinf, .exc, .exc⟩ :=
    ⟨.inl ⟨rfl, rfl⟩, .inl ⟨rfl, rfl⟩, .inl (by simp [FP.lt_def, FP.leb])⟩
  have hI2 : ∀ n, LeftClosed ⟨.ninf, .fin n, .exc, .exc⟩ := fun n =>
    ⟨.inl ⟨rfl, rfl⟩, .inr ⟨n, rfl⟩, .inl (by simp [FP.lt_def, FP.leb])⟩
  have hI3 : ∀ n, LeftClosed ⟨.fin n, .pinf, .inc, .exc⟩ := fun n =>
    ⟨.inr ⟨⟨n, rfl⟩, rfl⟩, .inl ⟨rfl, rfl⟩, .inl (by simp [FP.lt_def, FP.leb])⟩
  have key : ∀ (d : PF) (A : FP → ℚ) (U : FP → Br → ℚ),
      (∀ I, LeftClosed I → Num.pInterval val d I = .ok (endMass A U I)) →
      numP val idx d (.num ⟨.ninf, .pinf, .exc, .exc⟩) = endMass A U ⟨.ninf, .pinf, .exc, .exc⟩ ∧
      (∀ n, numP val idx d (.num ⟨.ninf, .fin (val n), .exc, .exc⟩) = endMass A U ⟨.ninf, .fin n, .exc, .exc⟩) ∧
      (∀ n, numP val idx d (.num ⟨.fin (val n), .pinf, .inc, .exc⟩) = endMass A U ⟨.fin n, .pinf, .inc, .exc⟩) := by
    intro d A U h
    refine ⟨?_, fun n => ?_, fun n => ?_⟩
    · have := numP_of (idx := idx) hidx h hI1 idx
      unfold numP
      rw [show (⟨.ninf, .pinf, .exc, .exc⟩ : RI) = embI val ⟨.ninf, .pinf, .exc, .exc⟩ from rfl, this]
    · have := numP_of (idx := idx) hidx h (hI2 n) idx
      unfold numP
      rw [show (⟨.ninf, .fin (val n), .exc, .exc⟩ : RI) = embI val ⟨.ninf, .fin n, .exc, .exc⟩ from rfl, this]
    · have := numP_of (idx := idx) hidx h (hI3 n) idx
      unfold numP
      rw [show (⟨.fin (val n), .pinf, .inc, .exc⟩ : RI) = embI val ⟨.fin n, .pinf, .inc, .exc⟩ from rfl, this]
  obtain ⟨lo, hlo, hmin⟩ := Num.exists_least hsne
  obtain ⟨hi, hhi, hmax⟩ := Num.exists_greatest hsne
  obtain ⟨rlo, hrlo, elo⟩ := hmem lo hlo
  obtain ⟨rhi, hrhi, ehi⟩ := hmem hi hhi
  rcases (hmin hi hhi).lt_or_eq with hlt | heq
  · obtain ⟨p, F, hp, -, -, hF⟩ := Num.fitCdf_of hval (eps := eps) hload hlo hhi hlt hmin hmax
    have hfit : fitNum val idx eps data rows v = p := by unfold fitNum; rw [← hs, hp]
    rw [hfit]
    obtain ⟨k1, k2, k3⟩ := key p _ _ (fun I hI => pInterval_fit hF.span hI)
    refine ⟨hp, .inr ⟨lo, hi, F, hF.span⟩, ?_, fun n hn => ?_, fun n hn => ?_⟩
    · rw [k1]
      simp [endMass, fitU, Num.below, FP.lt_def, FP.leb]
    · rw [k2]
      have h1 := hn rhi hrhi
      rw [ehi, hval.lt_iff_lt] at h1
      have h2 : lo < n := by omega
      simp [endMass, fitU, Num.below, FP.lt_def, FP.leb, h2, hF.one n h1.le]
    · rw [k3]
      have h1 := hn rlo hrlo
      rw [elo, hval.lt_iff_lt] at h1
      simp [endMass, fitU, Num.below, FP.lt_def, FP.leb, hF.zero n h1]
  · subst heq
    have hp := Num.fit_single (val := val) (eps := eps) hload hlo (fun y hy => le_antisymm (hmax y hy) (hmin y hy))
    have hfit : fitNum val idx eps data rows v = Num.jumpCdf lo := by unfold fitNum; rw [← hs, hp]
    rw [hfit]
    obtain ⟨k1, k2, k3⟩ := key (Num.jumpCdf lo) _ _ (fun I hI => pInterval_dirac lo hI)
    refine ⟨hp, .inl ⟨lo, rfl⟩, ?_, fun n hn => ?_, fun n hn => ?_⟩
    · rw [k1]
      simp [endMass, FP.lt_def, FP.leb]
    · rw [k2]
      have h1 := hn rhi hrhi
      rw [ehi, hval.lt_iff_lt] at h1
      simp [endMass, FP.lt_def, FP.leb, h1]
    · rw [k3]
      have h1 := hn rlo hrlo
      rw [elo, hval.lt_iff_lt] at h1
      simp [endMass, FP.lt_def, FP.leb, h1.le]

variable {L : Type} [DecidableEq L]

/-- The kind of a variable. -/
abbrev MK (L : Type) := Unit ⊕ (Bool × Dom L)

/-- A distribution of a leaf. -/
abbrev MD (L : Type) := PF ⊕ DD L

/-- The operations on the distributions of a leaf. -/
abbrev mixOps (L : Type) [DecidableEq L] (val : ℤ → ℚ) (idx rnd : ℚ → ℤ) : DistOps (MD L) (NS ⊕ Arg L) :=
  sumOps (numOps val idx rnd) (discOps L)

/-- A distribution for a variable of the given kind. -/
abbrev mixOk (val : ℤ → ℚ) : MK L → MD L → Prop := sumOk (fun _ => numOk val) discOk

/-- A set of values of a variable of the given kind. -/
abbrev mixFits (val : ℤ → ℚ) : MK L → Region → Prop := sumFits (fun _ => numFits val) discFits

/-- The probability of a set of values. -/
abbrev mixP (val : ℤ → ℚ) (idx : ℚ → ℤ) : MD L → Region → ℚ := sumP (numP val idx) discP

/-- The value indices of a symbolic or integer variable. -/
def domOf (kind : ℕ → MK L) (v : ℕ) : Bool × Dom L :=
  match kind v with
  | .inl _ => (false, ⟨"", []⟩)
  | .inr k => k

/-- `variable.distribution()._fit` (trees.py 1622-1626) on the rows of a leaf. -/
def fitMix (val : ℤ → ℚ) (idx : ℚ → ℤ) (eps : ℚ) (kind : ℕ → MK L) (data : Data) (rows : List ℕ) (v : ℕ) : MD L :=
  match kind v with
  | .inl _ => .inl (fitNum val idx eps data rows v)
  | .inr _ => .inr (fitDisc (domOf kind) data rows v)

/-- The variables of the learner are of these kinds. -/
def Kinds (c : Cfg) (kind : ℕ → MK L) : Prop :=
  ∀ v, v < c.vars.length → (c.vars[v]? = some .numeric ∧ kind v = .inl ()) ∨
    ∃ b dom, kind v = .inr (b, dom) ∧ dom.labels.Nodup ∧
      (c.vars[v]? = some (.integer dom.labels.length) ∧ b = true ∨
       c.vars[v]? = some (.symbolic dom.labels.length) ∧ b = false)

/-- The numbers in the table and their pairwise means are floats. -/
def Floats (val : ℤ → ℚ) (c : Cfg) (data : Data) (total : ℕ) : Prop :=
  ∀ v, c.vars[v]? = some .numeric → ∀ r r', r < total → r' < total → ∃ n, (data r v + data r' v) / 2 = val n

variable {c : Cfg} {kind : ℕ → MK L} {total : ℕ}

omit [DecidableEq L] in
theorem Kinds.discrete (hk : Kinds c kind) {v : ℕ} (hv : v < c.vars.length) {k : Bool × Dom L} (h : kind v = .inr k) :
    DiscreteAt c (domOf kind) v ∧ domOf kind v = k := by
  have hd : domOf kind v = k := by unfold domOf; rw [h]
  refine ⟨?_, hd⟩
  rcases hk v hv with ⟨_, h'⟩ | ⟨b, dom, h', h1, h2⟩
  · rw [h] at h'; cases h'
  · rw [h] at h'
    have hd' : domOf kind v = (b, dom) := by rw [hd]; exact Sum.inr.inj h'
    unfold DiscreteAt
    rw [hd']
    exact ⟨h1, h2⟩

omit [DecidableEq L] in
theorem Kinds.numeric (hk : Kinds c kind) {v : ℕ} (hv : v < c.vars.length) (h : kind v = .inl ()) :
    c.vars[v]? = some .numeric := by
  rcases hk v hv with ⟨h1, _⟩ | ⟨b, dom, h', _⟩
  · exact h1
  · rw [h] at h'; cases h'

theorem mix_laws (hval : StrictMono val) (hidx : ∀ n, idx (val n) = n) (rnd : ℚ → ℤ) :
    PLaws (mixOps L val idx rnd) (mixOk (L := L) val) (mixFits val) (mixP val idx) :=
  sum_laws (num_laws hval hidx rnd) disc_laws.toPLaws

/-- A learned tree over numeric, symbolic and integer variables is a fitted tree in the sense of `TreeOK`. -/
theorem learned_mix (hval : StrictMono val) (hidx : ∀ n, idx (val n) = n) (hk : Kinds c kind)
    (hdata : DataOK c data total) (hfl : Floats val c data total) {h : Heap (MD L)}
    (hl : learn c data total (fitMix val idx eps kind data) = .ok h) :
    TreeOK (mixOk val) (mixFits val) (mixP val idx) kind (fullOf c) c.vars.length h := by
  obtain ⟨ix, hI⟩ := Learn.learn_inv hdata hl
  have hrow : ∀ e ∈ h.leaves, ∀ r ∈ e.2.rows, r < total := by
    intro e he r hr
    have := hI.rows.mem_iff (a := r)
    simp only [List.flatMap_nil, List.append_nil, List.mem_flatMap, List.mem_range] at this
    exact this.1 ⟨e, he, hr⟩
  have hnumfull : numFits val (.num ⟨.ninf, .pinf, .exc, .exc⟩) :=
    .inr ⟨⟨.ninf, .pinf, .exc, .exc⟩, ⟨.inl ⟨rfl, rfl⟩, .inl ⟨rfl, rfl⟩, .inl (by simp [FP.lt_def, FP.leb])⟩, rfl⟩
  have hfullN : ∀ v, c.vars[v]? = some .numeric → fullOf c v = .num ⟨.ninf, .pinf, .exc, .exc⟩ := by
    intro v h; unfold fullOf; rw [h]
  have hpath : ∀ e ∈ h.leaves, ∀ s ∈ e.2.path, s.1 < c.vars.length ∧ mixFits val (kind s.1) s.2 ∧ s.2.OK := by
    intro e he s hs
    have hreg := (hI.leaf e he).regions s hs
    have hv := regOK_lt hreg
    refine ⟨hv, ?_, hreg.1⟩
    cases hkd : kind s.1 with
    | inl u =>
      have hn := hk.numeric hv hkd
      have h2 := hreg.2
      rw [hn] at h2
      obtain ⟨I, hIs⟩ := h2
      obtain ⟨x, hx, ⟨r, r', hr, hr', hxe⟩, -⟩ := (hI.leaf e he).cut s hs I hIs
      obtain ⟨n, hn'⟩ := hfl s.1 hn r r' hr hr'
      rw [hn'] at hxe
      subst hxe
      rw [hIs]
      right
      rcases hx with rfl | rfl
      · exact ⟨⟨.ninf, .fin n, .exc, .exc⟩, ⟨.inl ⟨rfl, rfl⟩, .inr ⟨n, rfl⟩, .inl (by simp [FP.lt_def, FP.leb])⟩, rfl⟩
      · exact ⟨⟨.fin n, .pinf, .inc, .exc⟩,
          ⟨.inr ⟨⟨n, rfl⟩, rfl⟩, .inl ⟨rfl, rfl⟩, .inl (by simp [FP.lt_def, FP.leb])⟩, rfl⟩
    | inr k =>
      obtain ⟨h1, h2⟩ := hk.discrete hv hkd
      have := (regOK_fits h1 hreg).1
      rw [h2] at this
      exact this
  have hfullfits : ∀ v, v < c.vars.length → mixFits val (kind v) (fullOf c v) ∧
      ∀ r x, mixFits val (kind v) r → r.Mem x → (fullOf c v).Mem x := by
    intro v hv
    cases hkd : kind v with
    | inl u =>
      rw [hfullN v (hk.numeric hv hkd)]
      refine ⟨hnumfull, ?_⟩
      rintro r x (rfl | ⟨I, hI', rfl⟩) hx
      · obtain ⟨h1, h2⟩ := hx
        simp only [riEmptyset, and_false, or_false, reduceCtorEq] at h1 h2
        exact absurd (h1.trans h2) (lt_irrefl _)
      · obtain ⟨h1, h2⟩ := hx
        refine ⟨.inl ?_, .inl ?_⟩
        · rcases h1 with h1 | ⟨h1, h3⟩
          · exact (XQ.ninf_le _).trans_lt h1
          · rcases hI'.1 with ⟨_, h4⟩ | ⟨⟨n, h4⟩, _⟩
            · rw [show (embI val I).left = I.left from rfl, h4] at h3; cases h3
            · rw [← h1, show (embI val I).lower = emb val I.lower from rfl, h4]
              exact XQ.ninf_lt_fin _
        · rcases h2 with h2 | ⟨h2, h3⟩
          · exact h2.trans_le (XQ.le_pinf _)
          · rcases hI'.2.1 with ⟨_, h4⟩ | ⟨n, h4⟩
            · rw [show (embI val I).right = I.right from rfl, h4] at h3; cases h3
            · rw [h2, show (embI val I).upper = emb val I.upper from rfl, h4]
              exact XQ.fin_lt_pinf _
    | inr k =>
      obtain ⟨h1, h2⟩ := hk.discrete hv hkd
      have := full_fits h1
      rw [h2] at this
      exact this
  have hdist : ∀ e ∈ h.leaves, ∀ (v : ℕ) (d : MD L), e.2.dists[v]? = some d →
      v < c.vars.length ∧ d = fitMix val idx eps kind data e.2.rows v := by
    intro e he v d hd
    rw [(hI.leaf e he).dists] at hd
    rw [List.getElem?_map] at hd
    cases hr : (List.range c.vars.length)[v]? with
    | none => rw [hr] at hd; cases hd
    | some w =>
      rw [hr] at hd
      obtain ⟨h1, h2⟩ := List.getElem?_eq_some_iff.1 hr
      rw [List.getElem_range] at h2
      subst h2
      rw [List.length_range] at h1
      exact ⟨h1, by cases hd; rfl⟩
  have hflr : ∀ e ∈ h.leaves, ∀ v, c.vars[v]? = some .numeric → ∀ r ∈ e.2.rows, ∃ n, data r v = val n := by
    intro e he v hv r hr
    obtain ⟨n, hn⟩ := hfl v hv r r (hrow e he r hr) (hrow e he r hr)
    exact ⟨n, by rw [← hn]; ring⟩
  have hok : ∀ e ∈ h.leaves, ∀ v, v < c.vars.length → mixOk val (kind v) (fitMix val idx eps kind data e.2.rows v) := by
    intro e he v hv
    unfold fitMix
    cases hkd : kind v with
    | inl u => exact (fitNum_spec hval hidx (hI.leaf e he).nonempty (hflr e he v (hk.numeric hv hkd))).2.1
    | inr k =>
      obtain ⟨h1, h2⟩ := hk.discrete hv hkd
      have := (fitDisc_spec h1 (fun r hr => hdata r (hrow e he r hr)) (hI.leaf e he).nonempty).1
      rw [h2] at this
      exact this
  constructor
  · exact hI.shape
  · exact (learned_shape hdata hl).2.1
  · exact (learned_shape hdata hl).2.2
  · intro e he
    refine ⟨by rw [(hI.leaf e he).dists]; simp, ?_⟩
    intro v d hd
    obtain ⟨hv, rfl⟩ := hdist e he v d hd
    exact hok e he v hv
  · intro e he
    rw [(hI.leaf e he).prior]
    positivity
  · exact hpath
  · exact hfullfits
  · intro e he v d R hR hd
    obtain ⟨hv, rfl⟩ := hdist e he v d hd
    cases hkd : kind v with
    | inl u =>
      have hn := hk.numeric hv hkd
      obtain ⟨-, -, s1, s2, s3⟩ := fitNum_spec (eps := eps) hval hidx (hI.leaf e he).nonempty (hflr e he v hn)
      refine path_sure (mix_laws (L := L) hval hidx idx) (kind := kind) (full := fullOf c) (n := c.vars.length)
        hfullfits (hok e he v hv) ?_ e.2.path (hpath e he)
        ?_ R hR
      · unfold fitMix
        rw [hkd, hfullN v hn]
        exact s1
      · intro s hs hsv
        have hreg := (hI.leaf e he).regions s hs
        have h2 := hreg.2
        rw [hsv, hn] at h2
        obtain ⟨I, hIs⟩ := h2
        obtain ⟨x, hx, ⟨r, r', hr, hr', hxe⟩, hxr⟩ := (hI.leaf e he).cut s hs I hIs
        rw [hsv] at hxe hxr
        obtain ⟨n, hn'⟩ := hfl v hn r r' hr hr'
        rw [hn'] at hxe
        subst hxe
        have hsat : ∀ r ∈ e.2.rows, RIMem I (.fin (data r v)) := by
          intro r hr
          have := (hI.leaf e he).sat r hr s hs
          rw [hIs, hsv] at this
          exact this
        unfold fitMix
        rw [hkd, hIs]
        rcases hx with rfl | rfl
        · refine s2 n (fun r hr => ?_)
          rcases (hsat r hr).2 with h | ⟨_, h⟩
          · exact (XQ.fin_lt _ _).1 h
          · cases h
        · refine s3 n (fun r hr => ?_)
          rcases (hsat r hr).1 with h | ⟨h, _⟩
          · exact (XQ.fin_lt _ _).1 h
          · exact absurd (XQ.fin.inj h).symm (hxr r hr)
    | inr k =>
      obtain ⟨h1, h2⟩ := hk.discrete hv hkd
      have hspec := (fitDisc_spec h1 (fun r hr => hdata r (hrow e he r hr)) (hI.leaf e he).nonempty).2
      unfold fitMix
      rw [hkd]
      show discP _ R = 1
      rw [hspec]
      have hall : e.2.rows.countP (fun r => decide (R.Mem (.fin (data r v)))) = e.2.rows.length := by
        rw [List.countP_eq_length]
        intro r hr
        rw [decide_eq_true_eq, pathMap_lookup (fullOf c) e.2.path v _ R hR]
        refine ⟨?_, fun s hs hsv => hsv ▸ (hI.leaf e he).sat r hr s hs⟩
        have hvalid := hdata r (hrow e he r hr)
        have hi : ∃ i : ℕ, i < (domOf kind v).2.labels.length ∧ data r v = (i : ℚ) := by
          rcases h1.2 with h' | h'
          · exact hvalid v _ (.inl h'.1)
          · exact hvalid v _ (.inr h'.1)
        obtain ⟨i, hi, hie⟩ := hi
        refine (full_fits h1).2 (.set [(i : ℤ)]) _ ⟨_, rfl, ?_⟩ ?_
        · intro z hz
          rw [List.mem_singleton.1 hz]
          omega
        · rw [hie]
          exact (mem_set_nat _ i).2 (by simp)
      rw [hall]
      have : e.2.rows.length ≠ 0 := by
        simpa using (hI.leaf e he).nonempty
      exact div_self (by exact_mod_cast this)

end Verif.Trees
