import Verif.Trees.MpeMix
import Verif.Trees.Props8

/-!
# C48: the most probable explanations of trees with numeric variables
-/

namespace Verif.Trees

open Iv (FP NS)
open Learn (Cfg Data learn DataOK fullOf exists_ok)
open Fun (PF)

variable {L : Type} [DecidableEq L]

/-! ## Products -/

theorem prod_single (n v0 : ℕ) (a : ℚ) (h : v0 < n) :
    ((List.range n).map (fun v => if v = v0 then a else 1)).prod = a := by
  induction n with
  | zero => omega
  | succ n ih =>
    rw [List.range_succ, List.map_append, List.prod_append]
    simp only [List.map_cons, List.map_nil, List.prod_cons, List.prod_nil, mul_one]
    by_cases hv : n = v0
    · rw [if_pos hv, show (List.range n).map (fun v => if v = v0 then a else 1) = (List.range n).map (fun _ => 1) from
        List.map_congr_left (fun v hv' => if_neg (by have := List.mem_range.1 hv'; omega))]
      simp
    · rw [if_neg hv, ih (by omega), mul_one]

/-- A factor for each variable of the evidence. -/
theorem prod_lookup (n : ℕ) (f : ℕ → Region → ℚ) : ∀ {e : Query}, (e.map Prod.fst).Nodup → (∀ i ∈ e, i.1 < n) →
    ((List.range n).map (fun v => match e.lookup v with
      | none => 1
      | some r => f v r)).prod = (e.map (fun i => f i.1 i.2)).prod
  | [], _, _ => by simp
  | (v0, r0) :: e, hn, hlt => by
    simp only [List.map_cons, List.nodup_cons] at hn
    have ih := prod_lookup n f hn.2 (fun i hi => hlt i (by simp [hi]))
    have hl0 : e.lookup v0 = none := by
      cases h : e.lookup v0 with
      | none => rfl
      | some r => exact absurd (List.mem_map_of_mem (f := Prod.fst) (Dict.lookup_mem h)) hn.1
    have h0 : v0 < n := hlt (v0, r0) (by simp)
    rw [List.map_cons, List.prod_cons, ← ih, ← prod_single n v0 (f v0 r0) h0, ← List.prod_map_mul]
    congr 1
    apply List.map_congr_left
    intro v _
    by_cases hv : v = v0
    · subst hv
      simp [hl0]
    · rw [List.lookup_cons, show (v == v0) = false by simpa using hv, if_neg hv]
      simp

/-! ## Conditioning a variable -/

/-- The label of the evidence. -/
theorem cell_cond {k : Bool × Disc.Dom L} {d d' : DD L} (hd : discOk k d) (hd' : discOk k d') {r : Region}
    (hr : discFits k r) (h : ∀ S, discFits k S → discP d' S = discP d (S.inter r) / discP d r) {x : L}
    (hx : x ∈ k.2.labels) :
    discDens d' x = if r.Mem (.fin (k.2.labels.idxOf x : ℚ)) then discDens d x / discP d r else 0 := by
  have hi : discFits k (.set [(k.2.labels.idxOf x : ℤ)]) := ⟨_, rfl, by
    intro z hz
    rw [List.mem_singleton.1 hz]
    have := List.idxOf_lt_length_iff.2 hx
    omega⟩
  have hmem : ∀ y, (Region.set [(k.2.labels.idxOf x : ℤ)]).Mem y ↔ y = .fin (k.2.labels.idxOf x : ℚ) := by
    intro y
    simp [Region.Mem]
  rw [← discP_label hd' hx, h _ hi]
  split
  · rename_i hm
    rw [← discP_label hd hx]
    congr 1
    refine disc_laws.ext k d _ _ hd (disc_laws.inter k _ _ hi hr) hi (fun y => ?_)
    rw [Region.mem_inter, hmem]
    constructor
    · exact fun h => h.1
    · rintro rfl
      exact ⟨rfl, hm⟩
  · rename_i hm
    rw [disc_laws.empty k d _ hd (disc_laws.inter k _ _ hi hr), zero_div]
    intro y hy
    rw [Region.mem_inter, hmem] at hy
    obtain ⟨rfl, hy⟩ := hy
    exact hm hy

section

variable {val : ℤ → ℚ} (hval : StrictMono val) {idx : ℚ → ℤ} (hidx : ∀ n, idx (val n) = n) (rnd : ℚ → ℤ) {eps : ℚ}
  {c : Cfg} {kind : ℕ → MK L} {data : Data} {total : ℕ} (hk : Kinds c kind) (hdata : DataOK c data total)
  (hfl : Floats val c data total) {h : Heap (MD L)} (hl : learn c data total (fitMix val idx eps kind data) = .ok h)

/-- How a leaf of the conditional tree comes from a leaf of the tree. -/
structure CondRel (val : ℤ → ℚ) (idx : ℚ → ℤ) (kind : ℕ → MK L) (n : ℕ) (e : Query) (m : ℚ) (l l' : ℕ × Leaf (MD L)) : Prop where
  prior : l'.2.prior = l.2.prior * leafProb (mixP val idx) l.2 e / m
  len : l'.2.dists.length = n
  num : ∀ v, v < n → kind v = .inl () → l'.2.dists[v]? = l.2.dists[v]?
  disc : ∀ v, v < n → ∀ k, kind v = .inr k → ∃ d d', l.2.dists[v]? = some (.inr d) ∧ discOk k d ∧
    l'.2.dists[v]? = some (.inr d') ∧ discOk k d' ∧ ∀ S, discFits k S → discP d' S = match e.lookup v with
      | none => discP d S
      | some r => discP d (S.inter r) / discP d r

omit [DecidableEq L] in
include hdata hl in
theorem priors_sum : (h.leaves.map (fun l => l.2.prior)).sum = 1 := by
  have h0 : 0 < total := by
    rcases Nat.eq_zero_or_pos total with rfl | h0
    · rw [Learn.C40_no_data] at hl
      cases hl
    · exact h0
  obtain ⟨h', h1, -, -, -, h2⟩ := Learn.C40_partition c data total (fitMix val idx eps kind data) hdata h0
  rw [hl] at h1
  cases h1
  exact h2

include hval hidx hk hdata hfl hl in
/-- The conditional tree, also without evidence. -/
theorem cond_leaves (priors : List (ℕ × MD L)) (hp : ∀ b ∈ priors, (mixOps L val idx rnd).reload b.2 = .ok b.2) {e : Query}
    (he : QueryOK (mixFits val) kind c.vars.length e) (hdisc : ∀ i ∈ e, ∃ k, kind i.1 = .inr k)
    (hm : mass (mixP val idx) h e ≠ 0) :
    ∃ h' ps, conditional (mixOps L val idx rnd) c.vars.length (fullOf c) h priors e = .ok (h', ps) ∧
      List.Forall₂ (CondRel val idx kind c.vars.length e (mass (mixP val idx) h e))
        (h.leaves.filter (fun l => decide (0 < leafProb (mixP val idx) l.2 e))) h'.leaves := by
  have hT := learned_mix_on hval hidx hk hdata hfl hl
  obtain ⟨hb, hs⟩ := learned_binary hdata hl
  have hdd : ∀ l ∈ h.leaves, ∀ v, v < c.vars.length → ∀ k, kind v = .inr k → ∃ d, l.2.dists[v]? = some (.inr d) ∧ discOk k d := by
    intro l hle v hv k hkv
    obtain ⟨d, hd⟩ : ∃ d, l.2.dists[v]? = some d := ⟨_, List.getElem?_eq_getElem (by rw [(hT.dists l hle).1]; exact hv)⟩
    have hok := (hT.dists l hle).2 v d hd
    rw [hkv] at hok
    cases d with
    | inl d => exact hok.elim
    | inr d => exact ⟨d, hd, hok⟩
  by_cases hne : e = []
  · subst hne
    refine ⟨h, priors, ?_, ?_⟩
    · rw [conditional_copied (mix_laws_on hval hidx rnd).reload hT hs priors hp]
      rfl
    · have h1 : ∀ l : ℕ × Leaf (MD L), leafProb (mixP val idx) l.2 [] = 1 := fun l => by simp [leafProb]
      have h2 : mass (mixP val idx) h [] = 1 := by
        rw [← priors_sum hdata hl]
        unfold mass
        simp only [h1, mul_one]
      rw [List.filter_eq_self.2 (fun l _ => by rw [h1]; decide), h2, List.forall₂_same]
      intro l hle
      refine ⟨by rw [h1]; ring, (hT.dists l hle).1, fun _ _ _ => rfl, fun v hv k hkv => ?_⟩
      obtain ⟨d, h3, h4⟩ := hdd l hle v hv k hkv
      exact ⟨d, d, h3, h4, h3, h4, fun S _ => rfl⟩
  · have hpt : ∀ i ∈ e, i.2.point = none := by
      intro i hi
      have h1 := (he.2 i hi).2.1
      obtain ⟨k, hkd⟩ := hdisc i hi
      rw [hkd] at h1
      obtain ⟨l, hr, -⟩ := h1
      rw [hr]
      rfl
    rw [conditional_copied (mix_laws_on hval hidx rnd).reload hT hs priors hp]
    obtain ⟨-, h2⟩ := conditionalOf_on (mix_laws_on hval hidx rnd) hT hb priors he (by
      intro i hi
      obtain ⟨k, hkd⟩ := hdisc i hi
      rw [hkd]
      trivial) hne hpt
    obtain ⟨h', ps, h3, h4, h5, h6, -⟩ := h2 hm
    refine ⟨h', ps, h3, ?_⟩
    rw [List.forall₂_iff_zip] at h5 h6 ⊢
    refine ⟨h5.1, fun {l l'} hz => ?_⟩
    have h7 := h5.2 hz
    have h8 := h6.2 hz
    have hmem := (List.mem_filter.1 (List.of_mem_zip hz).1).1
    have hmem' := (List.of_mem_zip hz).2
    refine ⟨h7.prior, (h4.dists l' hmem').1, fun v hv hkv => h8 v ?_, fun v hv k hkv => ?_⟩
    · cases hlk : e.lookup v with
      | none => rfl
      | some r =>
        obtain ⟨k, hkd⟩ := hdisc _ (Dict.lookup_mem hlk)
        rw [hkv] at hkd
        cases hkd
    · obtain ⟨d, h9, h10⟩ := hdd l hmem v hv k hkv
      obtain ⟨d', h11, h12⟩ := h7.dists v hv
      have hok := (h4.dists l' hmem').2 v d' h11
      rw [hkv] at hok h12
      cases d' with
      | inl d' => exact hok.elim
      | inr d' =>
        refine ⟨d, d', h9, h10, h11, hok, fun S hS => ?_⟩
        have := h12 S hS
        unfold condProb at this
        rw [h9] at this
        exact this

open Classical in
/-- The density of a world in a leaf of the conditional tree. -/
theorem cond_density {e : Query} (he : QueryOK (mixFits val) kind c.vars.length e) (hdisc : ∀ i ∈ e, ∃ k, kind i.1 = .inr k)
    {m : ℚ} {l l' : ℕ × Leaf (MD L)} (hr : CondRel val idx kind c.vars.length e m l l')
    (hpos : 0 < leafProb (mixP val idx) l.2 e) (top : ℕ → ℚ) {w : ℕ → Cell L} (hw : World val kind c.vars.length w) :
    jointDensity c.vars.length (leafCell idx top l'.2) l'.2 w =
      if Agrees kind e w then jointDensity c.vars.length (leafCell idx top l.2) l.2 w / m else 0 := by
  -- the factor that the evidence adds
  obtain ⟨f, hf⟩ : ∃ f : ℕ → Region → ℚ, f = fun v r => match l.2.dists[v]? with
      | some d => mixP val idx d r
      | none => 0 := ⟨_, rfl⟩
  have hprob : leafProb (mixP val idx) l.2 e = (e.map (fun i => f i.1 i.2)).prod := by
    subst hf
    unfold leafProb
    congr 1
    apply List.map_congr_left
    intro i _
    beta_reduce
    cases l.2.dists[i.1]? <;> rfl
  have hlab : ∀ v, v < c.vars.length → ∀ k, kind v = .inr k → ∃ x, w v = .inr x ∧ x ∈ k.2.labels := by
    intro v hv k hkv
    have := hw v hv
    rw [hkv] at this
    cases hx : w v with
    | inl y => rw [hx] at this; exact this.elim
    | inr x => rw [hx] at this; exact ⟨x, rfl, this⟩
  -- the densities of one variable
  have hone : ∀ v, v < c.vars.length → ∀ r, e.lookup v = some r → (∀ q, Stored (kind v) (w v) q → r.Mem (.fin q)) →
      leafCell idx top l'.2 v (w v) * f v r = leafCell idx top l.2 v (w v) ∨ f v r = 0 := by
    intro v hv r hlk hmem
    obtain ⟨k, hkv⟩ := hdisc _ (Dict.lookup_mem hlk)
    simp only at hkv
    obtain ⟨d, d', h1, h2, h3, h4, h5⟩ := hr.disc v hv k hkv
    obtain ⟨x, hx, hxl⟩ := hlab v hv k hkv
    have hfit : discFits k r := by
      have := (he.2 _ (Dict.lookup_mem hlk)).2.1
      simp only [hkv] at this
      exact this
    rw [hlk] at h5
    have h6 := cell_cond h2 h4 hfit h5 hxl
    have hin : r.Mem (.fin (k.2.labels.idxOf x : ℚ)) := by
      apply hmem
      rw [hkv, hx]
      exact ⟨_, by rw [List.getElem?_eq_getElem (List.idxOf_lt_length_iff.2 hxl), List.getElem_idxOf], rfl⟩
    rw [if_pos hin] at h6
    have hfv : f v r = discP d r := by rw [hf]; simp only [h1]; rfl
    by_cases h0 : discP d r = 0
    · right; rw [hfv, h0]
    · left
      simp only [leafCell, h1, h3, hx, cellDens, h6, hfv]
      field_simp
  have hother : ∀ v, v < c.vars.length → e.lookup v = none → leafCell idx top l'.2 v (w v) = leafCell idx top l.2 v (w v) := by
    intro v hv hlk
    cases hkv : kind v with
    | inl u => unfold leafCell; rw [hr.num v hv hkv]
    | inr k =>
      obtain ⟨d, d', h1, h2, h3, h4, h5⟩ := hr.disc v hv k hkv
      obtain ⟨x, hx, hxl⟩ := hlab v hv k hkv
      rw [hlk] at h5
      simp only at h5
      simp only [leafCell, h1, h3, hx, cellDens]
      rw [← discP_label h2 hxl, ← discP_label h4 hxl, h5 _ ⟨_, rfl, by
        intro z hz
        rw [List.mem_singleton.1 hz]
        have := List.idxOf_lt_length_iff.2 hxl
        omega⟩]
  have hlt : ∀ i ∈ e, i.1 < c.vars.length := fun i hi => (he.2 i hi).1
  unfold jointDensity
  by_cases ha : Agrees kind e w
  · rw [if_pos ha, hr.prior]
    have hprod : ((List.range c.vars.length).map (fun v => leafCell idx top l'.2 v (w v))).prod *
        leafProb (mixP val idx) l.2 e = ((List.range c.vars.length).map (fun v => leafCell idx top l.2 v (w v))).prod := by
      rw [hprob, ← prod_lookup c.vars.length f he.1 hlt, ← List.prod_map_mul]
      congr 1
      apply List.map_congr_left
      intro v hv
      have hv := List.mem_range.1 hv
      cases hlk : e.lookup v with
      | none => simp only [mul_one]; exact hother v hv hlk
      | some r =>
        have hie := Dict.lookup_mem hlk
        rcases hone v hv r hlk (fun q hq => ha _ hie q hq) with h1 | h1
        · exact h1
        · exfalso
          rw [hprob, List.prod_eq_zero] at hpos
          · exact lt_irrefl _ hpos
          · exact List.mem_map.2 ⟨_, hie, h1⟩
    rw [← hprod]
    ring
  · rw [if_neg ha]
    unfold Agrees at ha
    push Not at ha
    obtain ⟨⟨v, r⟩, hi, q, hq, hnm⟩ := ha
    have hv := hlt _ hi
    simp only at hq hnm hv
    obtain ⟨k, hkv⟩ := hdisc _ hi
    simp only at hkv
    obtain ⟨d, d', h1, h2, h3, h4, h5⟩ := hr.disc v hv k hkv
    obtain ⟨x, hx, hxl⟩ := hlab v hv k hkv
    have hlk : e.lookup v = some r := Dict.mem_lookup he.1 hi
    rw [hlk] at h5
    have hfit : discFits k r := by
      have := (he.2 _ hi).2.1
      simp only [hkv] at this
      exact this
    have h6 := cell_cond h2 h4 hfit h5 hxl
    have hnot : ¬ r.Mem (.fin (k.2.labels.idxOf x : ℚ)) := by
      rw [hkv, hx] at hq
      obtain ⟨i, hi1, rfl⟩ := hq
      have hnd : k.2.labels.Nodup := h2.2.1 ▸ h2.2.2.1
      have : k.2.labels.idxOf x = i := by
        obtain ⟨hlt', rfl⟩ := List.getElem?_eq_some_iff.1 hi1
        exact hnd.idxOf_getElem i hlt'
      rw [this]
      exact hnm
    rw [if_neg hnot] at h6
    rw [List.prod_eq_zero, mul_zero]
    refine List.mem_map.2 ⟨v, List.mem_range.2 hv, ?_⟩
    simp only [leafCell, h3, hx, cellDens, h6]

/-- A leaf that excludes the evidence. -/
theorem excluded_density {e : Query} (he : QueryOK (mixFits val) kind c.vars.length e)
    (hdisc : ∀ i ∈ e, ∃ k, kind i.1 = .inr k) {l : ℕ × Leaf (MD L)}
    (hdd : ∀ v, v < c.vars.length → ∀ k, kind v = .inr k → ∃ d, l.2.dists[v]? = some (.inr d) ∧ discOk k d)
    (h0 : leafProb (mixP val idx) l.2 e = 0) (top : ℕ → ℚ) {w : ℕ → Cell L} (hw : World val kind c.vars.length w)
    (ha : Agrees kind e w) : jointDensity c.vars.length (leafCell idx top l.2) l.2 w = 0 := by
  unfold leafProb at h0
  rw [List.prod_eq_zero_iff] at h0
  obtain ⟨⟨v, r⟩, hi, hz⟩ := List.mem_map.1 h0
  have hv : v < c.vars.length := (he.2 _ hi).1
  obtain ⟨k, hkv⟩ := hdisc _ hi
  simp only at hkv hz
  obtain ⟨d, h1, h2⟩ := hdd v hv k hkv
  rw [h1] at hz
  have hfit : discFits k r := by
    have := (he.2 _ hi).2.1
    simp only [hkv] at this
    exact this
  have hwv := hw v hv
  rw [hkv] at hwv
  cases hx : w v with
  | inl y => rw [hx] at hwv; exact hwv.elim
  | inr x =>
    rw [hx] at hwv
    have hxl : x ∈ k.2.labels := hwv
    have hin : r.Mem (.fin (k.2.labels.idxOf x : ℚ)) := by
      apply ha _ hi
      simp only [hkv, hx]
      exact ⟨_, by rw [List.getElem?_eq_getElem (List.idxOf_lt_length_iff.2 hxl), List.getElem_idxOf], rfl⟩
    have hs : discFits k (.set [(k.2.labels.idxOf x : ℤ)]) := ⟨_, rfl, by
      intro z hz
      rw [List.mem_singleton.1 hz]
      have := List.idxOf_lt_length_iff.2 hxl
      omega⟩
    have h3 : discDens d x = 0 := by
      rw [← discP_label h2 hxl]
      refine le_antisymm ?_ (disc_laws.nonneg k d _ h2 hs)
      refine le_trans (disc_laws.mono k d _ r h2 hs hfit ?_) (le_of_eq hz)
      intro y hy
      simp [Region.Mem] at hy
      rw [hy]
      exact hin
    unfold jointDensity
    rw [List.prod_eq_zero, mul_zero]
    refine List.mem_map.2 ⟨v, List.mem_range.2 hv, ?_⟩
    simp only [leafCell, h1, hx, cellDens, h3]

/-! ## Worlds as lists -/

omit [DecidableEq L] in
theorem assigns_world {n : ℕ} {w : ℕ → Cell L} :
    Assigns (CellOK val) kind n ((List.range n).map w) ↔ World val kind n w := by
  constructor
  · intro ha v hv
    exact ha.2 v (w v) (by rw [List.getElem?_map, List.getElem?_range hv]; rfl)
  · intro hw
    refine ⟨by simp, fun v y hy => ?_⟩
    rw [List.getElem?_map] at hy
    have hv : v < n := by
      by_contra hc
      rw [List.getElem?_eq_none (by simpa using hc)] at hy
      cases hy
    rw [List.getElem?_range hv] at hy
    obtain rfl := Option.some.inj hy
    exact hw v hv

omit [DecidableEq L] in
theorem list_world {n : ℕ} {x : List (Cell L)} (hx : x.length = n) : ∃ w : ℕ → Cell L, x = (List.range n).map w := by
  refine ⟨fun v => x[v]?.getD (.inl 0), ?_⟩
  apply List.ext_getElem
  · simp [hx]
  · intro i h1 h2
    simp [List.getElem?_eq_getElem h1]

omit [DecidableEq L] in
theorem zip_world (n : ℕ) (g : ℕ → Cell L → ℚ) (w : ℕ → Cell L) :
    (List.zipWith (fun (f : Cell L → ℚ) x => f x) ((List.range n).map g) ((List.range n).map w)).prod =
      ((List.range n).map (fun v => g v (w v))).prod := by
  rw [List.zipWith_map, List.zipWith_self]

/-! ## The densities of the leaves of a learned tree -/

include hval hidx hk hdata hfl hl in
theorem leaf_density (top : ℕ → ℚ) (ht : ∀ v, v < c.vars.length → kind v = .inl () → 0 < top v) :
    ∀ l ∈ h.leaves, LeafDensity val idx eps kind c.vars.length data top l.2 (leafCell idx top l.2) := by
  intro l hle
  obtain ⟨ix, hI⟩ := Learn.learn_inv hdata hl
  have hrow : ∀ r ∈ l.2.rows, r < total := by
    intro r hr
    have := hI.rows.mem_iff (a := r)
    simp only [List.flatMap_nil, List.append_nil, List.mem_flatMap, List.mem_range] at this
    exact this.1 ⟨l, hle, hr⟩
  obtain ⟨hne, hfit⟩ := learned_fitted hval hidx hk hdata hfl hl l hle
  constructor
  · intro v hv k hkv x hx
    obtain ⟨h1, h2⟩ := hk.discrete hv hkv
    obtain ⟨h3, h4⟩ := fitDisc_spec h1 (fun r hr => hdata r (hrow r hr)) (hI.leaf l hle).nonempty
    have hd : l.2.dists[v]? = some (fitMix val idx eps kind data l.2.rows v) := by
      rw [(hI.leaf l hle).dists, List.getElem?_map, List.getElem?_range hv]
      rfl
    simp only [leafCell, hd, fitMix, hkv, cellDens]
    rw [← discP_label (k := k) (by rw [← h2]; exact h3) hx, h4]
    congr 2
    apply List.countP_congr
    intro r hr
    simp only [decide_eq_true_eq]
    constructor
    · intro hm
      obtain ⟨z, hz, e⟩ := hm
      rw [List.mem_singleton.1 hz] at e
      exact_mod_cast XQ.fin.inj e
    · intro e
      exact ⟨((k.2.labels.idxOf x : ℕ) : ℤ), by simp, by rw [e]; simp⟩
  · intro v hv hkv
    obtain ⟨d, h1, h2⟩ := hfit v hv hkv
    obtain ⟨p, F, h3, h4, h5, -⟩ := num_best (L := L) (rnd := fun _ => 0) hval hidx (eps := eps)
      (s := l.2.rows.map (fun r => idx (data r v))) (by simpa using hne) (ht v hv hkv)
    rw [h2] at h3
    obtain rfl := Except.ok.inj h3
    refine ⟨d, F, h2, h4, ?_⟩
    simp only [leafCell, h1]
    exact h5

/-! ## C48 -/

include hval hidx hk hdata hfl hl in
/-- `mpe` of a tree learned from labels and numbers.  The value is the maximal density of a world that agrees with the
evidence in a leaf, times the prior of the leaf, divided by the probability of the evidence.  Every explanation that is
returned is the set of all worlds that agree with the evidence and attain the maximum in one of the leaves; there is always
one, and no such world is missed.

Partial: evidence on numeric variables (see C47), trees learned with `close_convex_gaps` and scaled variables are missing.
In leaves whose numbers are all the same the density of this number is the minimal distance of the variable, see
`C48_violated_single_value`. -/
theorem C48_learned_mixed_partial (dists : ℕ → Option ℚ) (top : ℕ → ℚ)
    (htop : ∀ v, v < c.vars.length → kind v = .inl () → dists v = some (top v) ∧ 0 < top v)
    (priors : List (ℕ × MD L)) (hp : ∀ b ∈ priors, (mixOps L val idx rnd).reload b.2 = .ok b.2) {e : Query}
    (he : QueryOK (mixFits val) kind c.vars.length e) (hdisc : ∀ i ∈ e, ∃ k, kind i.1 = .inr k) :
    (mass (mixP val idx) h e = 0 → e ≠ [] →
      mpe (mixOps L val idx rnd) c.vars.length (fullOf c) dists h priors e = .error .unsatisfiable) ∧
    (mass (mixP val idx) h e ≠ 0 → ∃ (dens : Leaf (MD L) → ℕ → Cell L → ℚ) (ss : List (List (NS ⊕ Disc.Arg L))) (m : ℚ),
      (∀ l ∈ h.leaves, LeafDensity val idx eps kind c.vars.length data top l.2 (dens l.2)) ∧
      mpe (mixOps L val idx rnd) c.vars.length (fullOf c) dists h priors e = .ok (ss, m) ∧ 0 < m ∧ ss ≠ [] ∧
      (∀ l ∈ h.leaves, ∀ w, World val kind c.vars.length w → Agrees kind e w →
        jointDensity c.vars.length (dens l.2) l.2 w / mass (mixP val idx) h e ≤ m) ∧
      (∀ s ∈ ss, (∃ w, Explained val c.vars.length s w) ∧ ∃ l ∈ h.leaves, ∀ w, Explained val c.vars.length s w ↔
        World val kind c.vars.length w ∧ Agrees kind e w ∧
          jointDensity c.vars.length (dens l.2) l.2 w / mass (mixP val idx) h e = m) ∧
      (∀ l ∈ h.leaves, ∀ w, World val kind c.vars.length w → Agrees kind e w →
        jointDensity c.vars.length (dens l.2) l.2 w / mass (mixP val idx) h e = m →
        ∃ s ∈ ss, Explained val c.vars.length s w)) := by
  have hT := learned_mix_on hval hidx hk hdata hfl hl
  obtain ⟨hb, hs⟩ := learned_binary hdata hl
  have hcheck := checkQuery_ok he
  constructor
  · intro hm hne
    have hpt : ∀ i ∈ e, i.2.point = none := by
      intro i hi
      have h1 := (he.2 i hi).2.1
      obtain ⟨k, hkd⟩ := hdisc i hi
      rw [hkd] at h1
      obtain ⟨l, hr, -⟩ := h1
      rw [hr]
      rfl
    have h2 := (conditionalOf_on (mix_laws_on hval hidx rnd) hT hb priors he (by
      intro i hi
      obtain ⟨k, hkd⟩ := hdisc i hi
      rw [hkd]
      trivial) hne hpt).1 hm
    unfold mpe
    rw [hcheck, conditional_copied (mix_laws_on hval hidx rnd).reload hT hs priors hp, h2]
    rfl
  intro hm
  obtain ⟨h', ps, h1, h2⟩ := cond_leaves hval hidx rnd hk hdata hfl hl priors hp he hdisc hm
  rw [List.forall₂_iff_get] at h2
  obtain ⟨hlen, h2⟩ := h2
  have hto : ∀ l' ∈ h'.leaves, ∃ l ∈ h.leaves, 0 < leafProb (mixP val idx) l.2 e ∧
      CondRel val idx kind c.vars.length e (mass (mixP val idx) h e) l l' := by
    intro l' hl'
    obtain ⟨i, hi, rfl⟩ := List.getElem_of_mem hl'
    have hmem := List.mem_filter.1 (List.getElem_mem (by omega : i <
      (h.leaves.filter (fun l => decide (0 < leafProb (mixP val idx) l.2 e))).length))
    exact ⟨_, hmem.1, by simpa using hmem.2, h2 i (by omega) hi⟩
  have hfrom : ∀ l ∈ h.leaves, 0 < leafProb (mixP val idx) l.2 e → ∃ l' ∈ h'.leaves,
      CondRel val idx kind c.vars.length e (mass (mixP val idx) h e) l l' := by
    intro l hl hpos
    obtain ⟨i, hi, hli⟩ := List.getElem_of_mem (List.mem_filter.2 ⟨hl, by simpa using hpos⟩ :
      l ∈ h.leaves.filter (fun l => decide (0 < leafProb (mixP val idx) l.2 e)))
    refine ⟨_, List.getElem_mem (by omega : i < h'.leaves.length), ?_⟩
    rw [← hli]
    exact h2 i hi (by omega)
  have hmpos : 0 < mass (mixP val idx) h e := by
    refine lt_of_le_of_ne ?_ (Ne.symm hm)
    unfold mass
    apply List.sum_nonneg
    intro x hx
    obtain ⟨l, hle, rfl⟩ := List.mem_map.1 hx
    exact mul_nonneg (hT.prior l hle) (leafProb_nonneg (mix_laws hval hidx rnd) ((learned_mix hval hidx hk hdata hfl hl).dists l hle).2
      (fun i hi => (he.2 i hi).2.1))
  have hlik : ∀ l ∈ h.leaves, 0 ≤ leafProb (mixP val idx) l.2 e := fun l hle =>
    leafProb_nonneg (mix_laws hval hidx rnd) ((learned_mix hval hidx hk hdata hfl hl).dists l hle).2
      (fun i hi => (he.2 i hi).2.1)
  have hdd : ∀ l ∈ h.leaves, ∀ v, v < c.vars.length → ∀ k, kind v = .inr k →
      ∃ d, l.2.dists[v]? = some (.inr d) ∧ discOk k d := by
    intro l hle v hv k hkv
    obtain ⟨d, hd⟩ : ∃ d, l.2.dists[v]? = some d := ⟨_, List.getElem?_eq_getElem (by rw [(hT.dists l hle).1]; exact hv)⟩
    have hok := (hT.dists l hle).2 v d hd
    rw [hkv] at hok
    cases d with
    | inl d => exact hok.elim
    | inr d => exact ⟨d, hd, hok⟩
  have hexc : ∀ l ∈ h.leaves, ¬ 0 < leafProb (mixP val idx) l.2 e → ∀ w, World val kind c.vars.length w →
      Agrees kind e w → jointDensity c.vars.length (leafCell idx top l.2) l.2 w / mass (mixP val idx) h e = 0 := by
    intro l hle hn w hw ha
    rw [excluded_density he hdisc (hdd l hle) (le_antisymm (not_lt.1 hn) (hlik l hle)) top hw ha, zero_div]
  -- the explanations of the conditional tree
  obtain ⟨ss, m, h3, h4, h5, h6, h7, h8⟩ := mpeOf_explained (o := mixOps L val idx rnd) (val := CellOK val) (kind := kind)
    (n := c.vars.length) (has := InState val) (dens := fun (g : Cell L → ℚ) x => g x) dists (h := h')
    (fun l => (List.range c.vars.length).map (leafCell idx top l.2)) (fun l _ => by simp) (by
      intro l' hl'
      obtain ⟨l, hle, -, hr⟩ := hto l' hl'
      refine leaf_best dists l'.2 _ (by simp [hr.len]) ?_
      intro v d g hd hg
      have hv : v < c.vars.length := by
        rw [← hr.len]
        exact (List.getElem?_eq_some_iff.1 hd).1
      rw [List.getElem?_map, List.getElem?_range hv] at hg
      obtain rfl := Option.some.inj hg
      have hg' : leafCell idx top l'.2 v = cellDens idx (top v) d := by
        funext x
        unfold leafCell
        rw [hd]
      rw [hg']
      cases hkv : kind v with
      | inr k =>
        obtain ⟨d0, d', h1, h2, h3, h4, -⟩ := hr.disc v hv k hkv
        rw [hd] at h3
        obtain rfl := Option.some.inj h3
        exact disc_best _ h4
      | inl u =>
        obtain ⟨hne, hfit⟩ := learned_fitted hval hidx hk hdata hfl hl l hle
        obtain ⟨p, h1, h2⟩ := hfit v hv hkv
        obtain ⟨h3, h4⟩ := htop v hv hkv
        obtain ⟨p', F, h5, -, -, h6⟩ := num_best (L := L) (rnd := rnd) hval hidx (eps := eps)
          (s := l.2.rows.map (fun r => idx (data r v))) (by simpa using hne) h4
        rw [h2] at h5
        obtain rfl := Except.ok.inj h5
        rw [hr.num v hv hkv, h1] at hd
        obtain rfl := Option.some.inj hd
        rw [h3]
        exact h6)
    (by
      intro l' hl'
      obtain ⟨l, hle, h3, hr⟩ := hto l' hl'
      rw [hr.prior]
      exact div_nonneg (mul_nonneg (hT.prior l hle) h3.le) hmpos.le)
    (by
      by_contra hc
      push Not at hc
      apply hm
      unfold mass
      apply List.sum_eq_zero
      intro x hx
      obtain ⟨l, hle, rfl⟩ := List.mem_map.1 hx
      by_cases h0 : 0 < leafProb (mixP val idx) l.2 e
      · obtain ⟨l', hl', hr⟩ := hfrom l hle h0
        have := hc l' hl'
        rw [hr.prior, div_eq_zero_iff] at this
        exact this.resolve_right hm
      · rw [le_antisymm (not_lt.1 h0) (hlik l hle), mul_zero])
  have hjoint : ∀ (l : ℕ × Leaf (MD L)) (w : ℕ → Cell L), l.2.prior * (List.zipWith (fun (g : Cell L → ℚ) x => g x)
      ((List.range c.vars.length).map (leafCell idx top l.2)) ((List.range c.vars.length).map w)).prod =
        jointDensity c.vars.length (leafCell idx top l.2) l.2 w := by
    intro l w
    rw [zip_world]
    rfl
  classical
  refine ⟨leafCell idx top, ss, m, leaf_density hval hidx hk hdata hfl hl top (fun v hv hkv => (htop v hv hkv).2), ?_, h4, h5,
    ?_, ?_, ?_⟩
  · unfold mpe
    rw [hcheck, h1]
    exact h3
  · intro l hle w hw ha
    by_cases h0 : 0 < leafProb (mixP val idx) l.2 e
    · obtain ⟨l', hl', hr⟩ := hfrom l hle h0
      have := h6 l' hl' _ (assigns_world.2 hw)
      rw [hjoint, cond_density he hdisc hr h0 top hw, if_pos ha] at this
      exact this
    · rw [hexc l hle h0 w hw ha]
      exact h4.le
  · intro s hs
    obtain ⟨⟨x, hx⟩, l', hl', h9⟩ := h7 s hs
    obtain ⟨l, hle, h0, hr⟩ := hto l' hl'
    constructor
    · obtain ⟨w, rfl⟩ := list_world ((h9 x).1 hx).1.1
      exact ⟨w, hx⟩
    · refine ⟨l, hle, fun w => ?_⟩
      unfold Explained
      rw [h9, assigns_world, hjoint]
      apply and_congr_right
      intro hw
      rw [cond_density he hdisc hr h0 top hw]
      by_cases ha : Agrees kind e w
      · rw [if_pos ha]
        exact ⟨fun h => ⟨ha, h⟩, fun h => h.2⟩
      · rw [if_neg ha]
        exact ⟨fun h => absurd h h4.ne, fun h => absurd h.1 ha⟩
  · intro l hle w hw ha heq
    by_cases h0 : 0 < leafProb (mixP val idx) l.2 e
    · obtain ⟨l', hl', hr⟩ := hfrom l hle h0
      refine h8 l' hl' _ (assigns_world.2 hw) ?_
      rw [hjoint, cond_density he hdisc hr h0 top hw, if_pos ha]
      exact heq
    · rw [hexc l hle h0 w hw ha] at heq
      exact absurd heq h4.ne

end

end Verif.Trees
