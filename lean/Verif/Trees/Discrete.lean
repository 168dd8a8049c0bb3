import Verif.Trees.Spec
import Verif.Discrete.Props

/-!
# Trees over symbolic and integer variables

The discrete distributions satisfy the laws that the theorems about trees ask for.
-/

namespace Verif.Trees

open Disc (Dist Dom Arg)

variable {L : Type} [DecidableEq L]

/-- A distribution of a leaf: `true` marks integer variables. -/
abbrev DD (L : Type) := Bool × Dist L

/-- The argument of `_p` and `_crop`: a set of value indices.  An interval is never passed for a
discrete variable. -/
def regionArg : Region → Except Err (Arg ℤ)
  | .set l => .ok (.set l)
  | .num _ => .error .typeError

/-- The operations of symbolic (multinomial.py) and integer (integer.py) distributions.  `pdf` is
never called for them. -/
def discOps (L : Type) [DecidableEq L] : DistOps (DD L) (Arg L) where
  p d r := do
    let a ← regionArg r
    if d.1 then d.2.intPVal a else d.2.pVal a
  pdf _ _ := .error .typeError
  crop d r := do
    let a ← regionArg r
    let d' ← if d.1 then d.2.intCropVal a else d.2.cropVal a
    return (d.1, d')
  merge ds ws := do
    let d' ← Dist.merge (ds.map Prod.snd) ws
    return ((ds.map Prod.fst).headD false, d')
  mpe d := do
    let m ← d.2.mpe
    return (m.1, .fin m.2)
  similarity d e := .ok (Disc.jaccard d.2 e.2)
  reload d := do
    let d' ← Dist.mk? d.2.dom d.2.params
    return (d.1, d')

/-- A distribution over the given domain. -/
def discOk (k : Bool × Dom L) (d : DD L) : Prop := d.1 = k.1 ∧ d.2.dom = k.2 ∧ d.2.Proper

/-- A set of values of the domain. -/
def discFits (k : Bool × Dom L) (r : Region) : Prop :=
  ∃ l, r = .set l ∧ ∀ z ∈ l, 0 ≤ z ∧ z < (k.2.labels.length : ℤ)

/-- The probability of a set of values: the sum of the parameters at their indices. -/
def discP (d : DD L) (r : Region) : ℚ :=
  Disc.mass (List.range d.2.params.length) d.2.params (fun i : ℕ => r.Mem (.fin (i : ℚ)))

omit [DecidableEq L] in
theorem mem_set_nat (l : List ℤ) (i : ℕ) : (Region.set l).Mem (.fin (i : ℚ)) ↔ (i : ℤ) ∈ l := by
  constructor
  · rintro ⟨z, hz, h⟩
    have : XQ.fin ((i : ℤ) : ℚ) = XQ.fin (z : ℚ) := by rw [← h]; simp
    rw [Region.fin_int_inj] at this
    rw [this]; exact hz
  · intro h
    exact ⟨(i : ℤ), h, by simp⟩

/-- The same probability, over the labels. -/
theorem discP_labels {d : DD L} (h : d.2.Proper) (r : Region) :
    discP d r = d.2.P (fun l => r.Mem (.fin ((d.2.dom.labels.idxOf l : ℕ) : ℚ))) := by
  unfold discP Dist.P
  apply Disc.mass_congr
  · rw [List.length_range, h.2.1]
  · intro i j l hi hl
    obtain ⟨hi', rfl⟩ := List.getElem?_eq_some_iff.1 hi
    obtain ⟨hl', rfl⟩ := List.getElem?_eq_some_iff.1 hl
    rw [List.getElem_range, h.1.idxOf_getElem]

omit [DecidableEq L] in
theorem mass_mono' {M : Type} : ∀ (ls : List M) (ps : List ℚ) (S T : M → Prop) [DecidablePred S] [DecidablePred T],
    (∀ p ∈ ps, 0 ≤ p) → (∀ l, S l → T l) → Disc.mass ls ps S ≤ Disc.mass ls ps T
  | [], ps, S, T, _, _, _, _ => by rw [Disc.mass_nil, Disc.mass_nil]
  | l :: ls, [], S, T, _, _, _, _ => by rw [Disc.mass_nil', Disc.mass_nil']
  | l :: ls, p :: ps, S, T, _, _, h, hs => by
    rw [Disc.mass_cons, Disc.mass_cons]
    have h1 := mass_mono' ls ps S T (fun q hq => h q (List.mem_cons_of_mem _ hq)) hs
    have h0 := h p List.mem_cons_self
    by_cases hS : S l
    · rw [if_pos hS, if_pos (hs l hS)]; linarith
    · rw [if_neg hS]
      split_ifs <;> linarith

omit [DecidableEq L] in
theorem discP_total {d : DD L} (h : d.2.Proper) (r : Region) (hr : ∀ i : ℕ, i < d.2.params.length → r.Mem (.fin (i : ℚ))) :
    discP d r = 1 := by
  unfold discP
  rw [Disc.mass_univ _ _ _ (by simp) (fun i hi => hr i (List.mem_range.1 hi))]
  exact h.2.2.2

omit [DecidableEq L] in
theorem discP_le_one {d : DD L} (h : d.2.Proper) (r : Region) : discP d r ≤ 1 := by
  have h1 : Disc.mass (List.range d.2.params.length) d.2.params (fun _ : ℕ => True) = 1 := by
    rw [Disc.mass_univ _ _ _ (by simp) (fun _ _ => trivial)]
    exact h.2.2.2
  rw [← h1]
  exact mass_mono' _ _ _ _ h.2.2.1 (fun _ _ => trivial)

theorem restrict_range (ps : List ℚ) (l : List ℤ) :
    Disc.restrict ps l = Disc.zeroOutside (List.range ps.length) ps
      (fun i : ℕ => (Region.set l).Mem (.fin (i : ℚ))) := by
  apply List.ext_getElem
  · simp [Disc.restrict, Disc.zeroOutside]
  · intro i h1 h2
    simp only [Disc.restrict, Disc.zeroOutside, List.getElem_map, List.getElem_zipIdx,
      List.getElem_zipWith, List.getElem_range, mem_set_nat, zero_add]

/-- Both `_crop`s, on a set with positive probability. -/
theorem crop_eq {d : DD L} (hd : d.2.Proper) (l : List ℤ) (hp : discP d (.set l) ≠ 0) :
    (discOps L).crop d (.set l)
      = .ok (d.1, ⟨d.2.dom, (Disc.restrict d.2.params l).map (· / discP d (.set l))⟩) := by
  have hs : (Disc.restrict d.2.params l).sum = discP d (.set l) := by
    rw [restrict_range, Disc.zeroOutside_sum]
    rfl
  have hpos : 0 < discP d (.set l) :=
    lt_of_le_of_ne (Disc.mass_nonneg _ _ _ hd.2.2.1) (Ne.symm hp)
  rcases d with ⟨b, d⟩
  simp only [discOps, regionArg, bind, Except.bind, pure, Except.pure]
  cases b with
  | false =>
    simp only [Bool.false_eq_true, if_false, Dist.cropVal, Arg.elems, hs]
    rw [if_neg hp]
  | true =>
    simp only [if_true, Dist.intCropVal, Arg.elems]
    have hnn : ∀ q ∈ Disc.restrict d.params l, 0 ≤ q := by
      rw [restrict_range]
      exact Disc.zeroOutside_nonneg _ _ _ hd.2.2.1
    rw [Disc.normValues_nonneg _ hnn, hs, if_neg hp]
    simp only [Dist.mk?]
    rw [if_neg]
    simp only [List.length_map, ne_eq, not_not]
    rw [restrict_range, Disc.zeroOutside_length _ _ _ (by simp), List.length_range]
    exact hd.2.1.symm

/-- Symbolic and integer distributions satisfy the laws. -/
theorem disc_laws : Laws (discOps L) discOk discFits discP where
  p_ok := by
    rintro ⟨b, dom⟩ ⟨b', d⟩ r ⟨rfl, rfl, hd⟩ ⟨l, rfl, hl⟩
    have hidx : ∀ v ∈ (Arg.set l : Arg ℤ).elems, ∃ i : ℕ, v = i ∧ i < d.params.length := by
      intro v hv
      obtain ⟨h1, h2⟩ := hl v hv
      refine ⟨v.toNat, by omega, ?_⟩
      have := hd.2.1
      simp only at this h2
      omega
    have heq : d.pVal (.set l) = .ok (discP (b', d) (.set l)) := by
      rw [Disc.pVal_eq d (.set l) hidx]
      congr 1
      unfold discP
      apply Disc.mass_congr_set
      intro i _
      rw [mem_set_nat]
      rfl
    simp only [discOps, regionArg, bind, Except.bind]
    cases b' with
    | false => simpa using heq
    | true =>
      simp only [if_true, Dist.intPVal]
      rw [if_neg]
      · exact heq
      · rw [Classical.not_not]
        intro v hv
        obtain ⟨h1, h2⟩ := hl v hv
        simp only at h2
        omega
  ext := by
    intro k d r s _ _ _ h
    unfold discP
    apply Disc.mass_congr_set
    intro i _
    exact h _
  nonneg := by
    rintro k d r ⟨_, _, hd⟩ _
    exact Disc.mass_nonneg _ _ _ hd.2.2.1
  le_one := by
    rintro k d r ⟨_, _, hd⟩ _
    exact discP_le_one hd r
  mono := by
    rintro k d r s ⟨_, _, hd⟩ _ _ h
    exact mass_mono' _ _ _ _ hd.2.2.1 (fun i => h _)
  empty := by
    intro k d r _ _ h
    exact Disc.mass_empty _ _ _ (fun i _ => h _)
  inter := by
    rintro k _ _ ⟨a, rfl, ha⟩ ⟨b, rfl, hb⟩
    exact ⟨_, rfl, fun z hz => ha z (List.mem_filter.1 hz).1⟩
  sure := by
    rintro k d r s ⟨_, _, hd⟩ _ _ h
    -- the complement of `s` has no mass
    have hsplit : ∀ (S T : ℕ → Prop) [DecidablePred S] [DecidablePred T],
        Disc.mass (List.range d.2.params.length) d.2.params S
          = Disc.mass (List.range d.2.params.length) d.2.params (fun i => S i ∧ T i)
          + Disc.mass (List.range d.2.params.length) d.2.params (fun i => S i ∧ ¬ T i) := by
      intro S T _ _
      rw [← Disc.mass_add _ _ (fun i => S i ∧ T i) (fun i => S i ∧ ¬ T i) (fun i _ h => h.2.2 h.1.2)]
      apply Disc.mass_congr_set
      intro i _
      by_cases hT : T i <;> simp [hT]
    have hall : Disc.mass (List.range d.2.params.length) d.2.params (fun _ : ℕ => True) = 1 := by
      rw [Disc.mass_univ _ _ _ (by simp) (fun _ _ => trivial)]
      exact hd.2.2.2
    have h1 := hsplit (fun _ => True) (fun i : ℕ => s.Mem (.fin (i : ℚ)))
    have h2 : Disc.mass (List.range d.2.params.length) d.2.params
        (fun i : ℕ => True ∧ s.Mem (.fin (i : ℚ))) = 1 := by
      rw [← h]
      apply Disc.mass_congr_set
      intro i _
      simp
    have h3 : Disc.mass (List.range d.2.params.length) d.2.params
        (fun i : ℕ => True ∧ ¬ s.Mem (.fin (i : ℚ))) = 0 := by linarith
    have h4 := hsplit (fun i : ℕ => r.Mem (.fin (i : ℚ))) (fun i : ℕ => s.Mem (.fin (i : ℚ)))
    have h5 : Disc.mass (List.range d.2.params.length) d.2.params
        (fun i : ℕ => r.Mem (.fin (i : ℚ)) ∧ ¬ s.Mem (.fin (i : ℚ))) = 0 := by
      apply le_antisymm
      · rw [← h3]
        exact mass_mono' _ _ _ _ hd.2.2.1 (fun i h => ⟨trivial, h.2⟩)
      · exact Disc.mass_nonneg _ _ _ hd.2.2.1
    unfold discP
    rw [h4, h5, add_zero]
    apply Disc.mass_congr_set
    intro i _
    exact Region.mem_inter _
  crop := by
    rintro k d r ⟨h1, h2, hd⟩ ⟨l, rfl, hl⟩ hp
    have hpos : 0 < discP d (.set l) :=
      lt_of_le_of_ne (Disc.mass_nonneg _ _ _ hd.2.2.1) (Ne.symm hp)
    refine ⟨_, crop_eq hd l hp, ⟨h1, h2, hd.1, ?_, ?_, ?_⟩, ?_⟩
    · simp only [List.length_map]
      rw [restrict_range, Disc.zeroOutside_length _ _ _ (by simp), List.length_range]
      exact hd.2.1
    · intro q hq
      simp only [List.mem_map] at hq
      obtain ⟨x, hx, rfl⟩ := hq
      rw [restrict_range] at hx
      exact div_nonneg (Disc.zeroOutside_nonneg _ _ _ hd.2.2.1 x hx) hpos.le
    · simp only
      rw [Ut.sum_div, restrict_range, Disc.zeroOutside_sum]
      exact div_self hp
    · intro s _
      have hlen : ((Disc.restrict d.2.params l).map (· / discP d (.set l))).length = d.2.params.length := by
        rw [List.length_map, restrict_range, Disc.zeroOutside_length _ _ _ (by simp), List.length_range]
      rw [show discP (d.1, (⟨d.2.dom, (Disc.restrict d.2.params l).map (· / discP d (.set l))⟩ : Dist L)) s
        = Disc.mass (List.range ((Disc.restrict d.2.params l).map (· / discP d (.set l))).length)
          ((Disc.restrict d.2.params l).map (· / discP d (.set l)))
          (fun i : ℕ => s.Mem (.fin (i : ℚ))) from rfl, hlen, Disc.mass_map_div, restrict_range,
        Disc.mass_zeroOutside]
      congr 1
      unfold discP
      apply Disc.mass_congr_set
      intro i _
      exact (Region.mem_inter _).symm
  merge := by
    rintro ⟨b, dom⟩ ds ws hne hds hlen hw hsum
    have hne' : ds.map Prod.snd ≠ [] := by simpa using hne
    obtain ⟨d', h1, h2, h3, h4, h5, h6, h7⟩ := Disc.C29_merge_partial (ds.map Prod.snd) ws dom hne'
      (by
        intro d hd
        obtain ⟨x, hx, rfl⟩ := List.mem_map.1 hd
        exact (hds x hx).2)
      (by simpa using hlen) hw (by rw [hsum]; norm_num)
    have hb : (ds.map Prod.fst).headD false = b := by
      cases ds with
      | nil => exact absurd rfl hne
      | cons d ds => exact (hds d List.mem_cons_self).1
    refine ⟨(b, d'), ?_, ⟨rfl, h2, h6 hsum⟩, ?_⟩
    · simp only [discOps, h1, hb, bind, Except.bind, pure, Except.pure]
    · intro s _
      rw [discP_labels (h6 hsum), h7]
      rw [List.zipWith_map_left]
      congr 1
      clear hne hne' h1 h7 hb hlen hw hsum h5 h6
      induction ds generalizing ws with
      | nil => rfl
      | cons d ds ih =>
        cases ws with
        | nil => rfl
        | cons w ws =>
          simp only [List.zipWith_cons_cons]
          rw [ih ws (fun x hx => hds x (List.mem_cons_of_mem _ hx))]
          have hd := hds d List.mem_cons_self
          rw [discP_labels hd.2.2, hd.2.1, h2]
          rw [mul_comm]
  reload := by
    rintro k ⟨b, d⟩ ⟨_, _, hd⟩
    simp only [discOps, Dist.mk?]
    rw [if_neg (by rw [hd.2.1]; simp)]
    rfl

end Verif.Trees
