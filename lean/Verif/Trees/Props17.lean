import Verif.Trees.Props16
import Verif.Trees.Props10

/-!
# C48: the most probable explanations and the likelihood
-/

namespace Verif.Trees

open Iv (FP NS)
open Learn (Cfg Data learn DataOK fullOf exists_ok)
open Fun (PF)

variable {L : Type} [DecidableEq L]

/-- Intervals are convex. -/
theorem ri_convex {I : Vars.RI} {a x b : XQ} (ha : RIMem I a) (hb : RIMem I b) (h1 : a ≤ x) (h2 : x ≤ b) : RIMem I x := by
  unfold RIMem at *
  grind

/-- A sum with one term that is not zero. -/
theorem sum_one {A : Type} {f : A → ℚ} {a : A} : ∀ {l : List A}, l.Nodup → a ∈ l → (∀ x ∈ l, x ≠ a → f x = 0) →
    (l.map f).sum = f a
  | [], _, ha, _ => by cases ha
  | x :: l, hn, ha, h => by
    rw [List.map_cons, List.sum_cons]
    rw [List.nodup_cons] at hn
    by_cases hx : x = a
    · subst hx
      rw [List.sum_eq_zero, add_zero]
      intro y hy
      obtain ⟨z, hz, rfl⟩ := List.mem_map.1 hy
      exact h z (by simp [hz]) (fun hc => hn.1 (hc ▸ hz))
    · rw [h x (by simp) hx, zero_add]
      exact sum_one hn.2 ((List.mem_cons.1 ha).resolve_left (Ne.symm hx)) (fun y hy => h y (by simp [hy]))

section

variable {val : ℤ → ℚ} (hval : StrictMono val) {idx : ℚ → ℤ} (hidx : ∀ n, idx (val n) = n) (rnd : ℚ → ℤ) {eps : ℚ}
  {c : Cfg} {kind : ℕ → MK L} {data : Data} {total : ℕ} (hk : Kinds c kind) (hdata : DataOK c data total)
  (hfl : Floats val c data total) {h : Heap (MD L)} (hl : learn c data total (fitMix val idx eps kind data) = .ok h)

include hval hidx hk hdata hfl hl in
/-- A value has a positive density in a leaf only if it meets the restrictions on the path. -/
theorem cell_sat {l : ℕ × Leaf (MD L)} (hle : l ∈ h.leaves) {top : ℕ → ℚ} {g : ℕ → Cell L → ℚ}
    (hg : LeafDensity val idx eps kind c.vars.length data top l.2 g) {w : ℕ → Cell L} {s : ℕ × Region}
    (hs : s ∈ l.2.path) (hwv : CellOK val (kind s.1) (w s.1)) (hgv : g s.1 (w s.1) ≠ 0) :
    s.2.Mem (.fin (store (kind s.1) (w s.1))) := by
  obtain ⟨ix, hI⟩ := Learn.learn_inv hdata hl
  have hrow : ∀ r ∈ l.2.rows, r < total := by
    intro r hr
    have := hI.rows.mem_iff (a := r)
    simp only [List.flatMap_nil, List.append_nil, List.mem_flatMap, List.mem_range] at this
    exact this.1 ⟨l, hle, hr⟩
  have hT := learned_mix hval hidx hk hdata hfl hl
  have hv : s.1 < c.vars.length := (hT.path l hle s hs).1
  have hsat : ∀ r ∈ l.2.rows, s.2.Mem (.fin (data r s.1)) := fun r hr => (hI.leaf l hle).sat r hr s hs
  cases hkv : kind s.1 with
  | inl u =>
    rw [hkv] at hwv
    cases hx : w s.1 with
    | inr x => rw [hx] at hwv; exact hwv.elim
    | inl y =>
      rw [hx] at hwv hgv
      obtain ⟨n, rfl⟩ := hwv
      have hnum := hk.numeric hv hkv
      obtain ⟨p, F, -, -, lo, hi, hlo, hhi, hbd, hone, hmany⟩ := hg.number s.1 hv hkv
      have hn : lo ≤ n ∧ n ≤ hi := by
        rcases (hbd hi hhi).1.lt_or_eq with hlt | heq
        · by_contra hc
          exact hgv ((hmany hlt).2.2 n (by omega))
        · have := hone heq n
          by_cases hc : n = lo
          · omega
          · rw [if_neg hc] at this
            exact absurd this hgv
      obtain ⟨r1, hr1, rfl⟩ := List.mem_map.1 hlo
      obtain ⟨r2, hr2, rfl⟩ := List.mem_map.1 hhi
      have hcell : ∀ r ∈ l.2.rows, data r s.1 = val (idx (data r s.1)) := by
        intro r hr
        obtain ⟨n, hn⟩ := hfl s.1 hnum r r (hrow r hr) (hrow r hr)
        have h1 : data r s.1 = val n := by rw [← hn]; ring
        rw [h1, hidx]
      have hreg := (hI.leaf l hle).regions s hs
      unfold Learn.RegOK at hreg
      rw [hnum] at hreg
      obtain ⟨-, I, hI'⟩ := hreg
      have h1 := hsat r1 hr1
      have h2 := hsat r2 hr2
      rw [hI'] at h1 h2 ⊢
      rw [hcell r1 hr1] at h1
      rw [hcell r2 hr2] at h2
      simp only [store]
      refine ri_convex h1 h2 ?_ ?_
      · exact (XQ.fin_le _ _).2 (hval.monotone hn.1)
      · exact (XQ.fin_le _ _).2 (hval.monotone hn.2)
  | inr k =>
    rw [hkv] at hwv
    cases hx : w s.1 with
    | inl y => rw [hx] at hwv; exact hwv.elim
    | inr x =>
      rw [hx] at hwv hgv
      rw [hg.label s.1 hv k hkv x hwv] at hgv
      have : l.2.rows.countP (fun r => decide (data r s.1 = (k.2.labels.idxOf x : ℚ))) ≠ 0 := by
        intro hc
        rw [hc] at hgv
        simp at hgv
      obtain ⟨r, hr, hd⟩ := List.countP_pos_iff.1 (Nat.pos_of_ne_zero this)
      have := hsat r hr
      rw [of_decide_eq_true hd] at this
      simp only [store]
      exact this

include hval hidx hk hdata hfl hl in
/-- A world has a positive density in a leaf only if it meets the restrictions on the path. -/
theorem density_sat {l : ℕ × Leaf (MD L)} (hle : l ∈ h.leaves) {top : ℕ → ℚ} {g : ℕ → Cell L → ℚ}
    (hg : LeafDensity val idx eps kind c.vars.length data top l.2 g) {w : ℕ → Cell L} (hw : World val kind c.vars.length w)
    (h0 : jointDensity c.vars.length g l.2 w ≠ 0) : Learn.Sat l.2.path (fun v => store (kind v) (w v)) := by
  intro s hs
  have hv : s.1 < c.vars.length := ((learned_mix hval hidx hk hdata hfl hl).path l hle s hs).1
  refine cell_sat hval hidx hk hdata hfl hl hle hg hs (hw s.1 hv) ?_
  intro hc
  apply h0
  unfold jointDensity
  rw [List.prod_eq_zero, mul_zero]
  exact List.mem_map.2 ⟨s.1, List.mem_range.2 hv, hc⟩

/-- Unless all numbers are the same, they determine the density. -/
theorem density_unique {l : ℕ × Leaf (MD L)} {top top' : ℕ → ℚ} {g g' : ℕ → Cell L → ℚ} {n : ℕ}
    (hg : LeafDensity val idx eps kind n data top l.2 g) (hg' : LeafDensity val idx eps kind n data top' l.2 g')
    (hmany : ∀ v, v < n → kind v = .inl () → ∃ r ∈ l.2.rows, ∃ r' ∈ l.2.rows, idx (data r v) ≠ idx (data r' v))
    {w : ℕ → Cell L} (hw : World val kind n w) {v : ℕ} (hv : v < n) : g v (w v) = g' v (w v) := by
  have hwv := hw v hv
  cases hkv : kind v with
  | inr k =>
    rw [hkv] at hwv
    cases hx : w v with
    | inl y => rw [hx] at hwv; exact hwv.elim
    | inr x =>
      rw [hx] at hwv
      rw [hg.label v hv k hkv x hwv, hg'.label v hv k hkv x hwv]
  | inl u =>
    rw [hkv] at hwv
    cases hx : w v with
    | inr x => rw [hx] at hwv; exact hwv.elim
    | inl y =>
      rw [hx] at hwv
      obtain ⟨n, rfl⟩ := hwv
      obtain ⟨p, F, hp, hF, lo, hi, hlo, hhi, hbd, -, hm⟩ := hg.number v hv hkv
      obtain ⟨p', F', hp', hF', lo', hi', hlo', hhi', hbd', -, hm'⟩ := hg'.number v hv hkv
      rw [hp] at hp'
      obtain rfl := Except.ok.inj hp'
      have hFF : F = F' := by
        funext z
        have h1 := hF z
        rw [hF' z] at h1
        exact (Option.some.inj (Except.ok.inj h1)).symm
      subst hFF
      obtain rfl : lo = lo' := le_antisymm (hbd _ hlo').1 (hbd' _ hlo).1
      obtain rfl : hi = hi' := le_antisymm (hbd' _ hhi).2 (hbd _ hhi').2
      obtain ⟨r, hr, r', hr', hne⟩ := hmany v hv hkv
      have hlt : lo < hi := by
        have h1 := hbd _ (List.mem_map.2 ⟨r, hr, rfl⟩)
        have h2 := hbd _ (List.mem_map.2 ⟨r', hr', rfl⟩)
        omega
      obtain ⟨h1, h2, h3⟩ := hm hlt
      obtain ⟨h1', h2', h3'⟩ := hm' hlt
      beta_reduce at h1 h2 h3 h1' h2' h3'
      by_cases hout : n < lo ∨ hi < n
      · rw [h3 n hout, h3' n hout]
      · push Not at hout
        rcases hout.2.lt_or_eq with hlt' | rfl
        · rw [(h1 n hout.1 hlt').2, (h1' n hout.1 hlt').2]
        · rw [h2, h2', (h1 _ (by omega) (by omega)).2, (h1' _ (by omega) (by omega)).2]

include hval hidx hk hdata hfl hl in
/-- The most probable explanations are the most likely worlds: among all worlds that agree with the evidence, those in the
explanations that `mpe` returns are exactly those with the greatest `likelihood`, and the value is this likelihood divided
by the probability of the evidence.

Partial: no leaf may have the same number in all its rows, see `C48_violated_single_value`; the evidence is on symbolic and
integer variables, and there are no scaled variables. -/
theorem C48_most_likely_partial (scaling : ℚ) (dists : List (ℕ × ℚ))
    (hdist : ∀ v, v < c.vars.length → kind v = .inl () → ∃ δ, dists.lookup v = some δ ∧ 0 < δ)
    (hmany : ∀ l ∈ h.leaves, ∀ v, v < c.vars.length → kind v = .inl () →
      ∃ r ∈ l.2.rows, ∃ r' ∈ l.2.rows, data r v ≠ data r' v)
    (priors : List (ℕ × MD L)) (hp : ∀ b ∈ priors, (mixOps L val idx rnd).reload b.2 = .ok b.2) {e : Query}
    (he : QueryOK (mixFits val) kind c.vars.length e) (hdisc : ∀ i ∈ e, ∃ k, kind i.1 = .inr k)
    (hm : mass (mixP val idx) h e ≠ 0) : ∃ (ss : List (List (NS ⊕ Disc.Arg L))) (m : ℚ),
      mpe (mixOps L val idx rnd) c.vars.length (fullOf c) (fun v => dists.lookup v) h priors e = .ok (ss, m) ∧
      (∃ s ∈ ss, ∃ w, Explained val c.vars.length s w) ∧
      (∀ s ∈ ss, ∀ w, Explained val c.vars.length s w → World val kind c.vars.length w ∧ Agrees kind e w) ∧
      ∀ w, World val kind c.vars.length w → Agrees kind e w → ∃ q,
        likelihood idx scaling dists kind c.vars.length h [(List.range c.vars.length).map w] = .ok [q] ∧
        q ≤ m * mass (mixP val idx) h e ∧
        ((∃ s ∈ ss, Explained val c.vars.length s w) ↔ q = m * mass (mixP val idx) h e) := by
  obtain ⟨top, htop⟩ : ∃ top : ℕ → ℚ, ∀ v, v < c.vars.length → kind v = .inl () → dists.lookup v = some (top v) ∧ 0 < top v := by
    refine ⟨fun v => (dists.lookup v).getD 0, fun v hv hkv => ?_⟩
    obtain ⟨δ, h1, h2⟩ := hdist v hv hkv
    simp only [h1, Option.getD_some, true_and]
    exact h2
  obtain ⟨dens, ss, m, h1, h2, h3, h4, h5, h6, h7⟩ := (C48_learned_mixed_partial hval hidx rnd hk hdata hfl hl
    (fun v => dists.lookup v) top htop priors hp he hdisc).2 hm
  have hT := learned_mix hval hidx hk hdata hfl hl
  have hmpos : 0 < mass (mixP val idx) h e := by
    refine lt_of_le_of_ne ?_ (Ne.symm hm)
    unfold mass
    apply List.sum_nonneg
    intro x hx
    obtain ⟨l, hle, rfl⟩ := List.mem_map.1 hx
    exact mul_nonneg (hT.prior l hle) (leafProb_nonneg (mix_laws hval hidx rnd) (hT.dists l hle).2
      (fun i hi => (he.2 i hi).2.1))
  obtain ⟨ix, hI⟩ := Learn.learn_inv hdata hl
  have hmany' : ∀ l ∈ h.leaves, ∀ v, v < c.vars.length → kind v = .inl () →
      ∃ r ∈ l.2.rows, ∃ r' ∈ l.2.rows, idx (data r v) ≠ idx (data r' v) := by
    intro l hle v hv hkv
    obtain ⟨r, hr, r', hr', hne⟩ := hmany l hle v hv hkv
    refine ⟨r, hr, r', hr', fun hc => hne ?_⟩
    have hcell : ∀ r ∈ l.2.rows, data r v = val (idx (data r v)) := by
      intro r hr
      have hrt : r < total := by
        have := hI.rows.mem_iff (a := r)
        simp only [List.flatMap_nil, List.append_nil, List.mem_flatMap, List.mem_range] at this
        exact this.1 ⟨l, hle, hr⟩
      obtain ⟨n, hn⟩ := hfl v (hk.numeric hv hkv) r r hrt hrt
      have h1 : data r v = val n := by rw [← hn]; ring
      rw [h1, hidx]
    rw [hcell r hr, hcell r' hr', hc]
  obtain ⟨s0, hs0⟩ := List.exists_mem_of_ne_nil _ h4
  refine ⟨ss, m, h2, ⟨s0, hs0, (h6 s0 hs0).1⟩, ?_, ?_⟩
  · intro s hs w hw
    obtain ⟨-, l, -, hl'⟩ := h6 s hs
    obtain ⟨hw1, hw2, -⟩ := (hl' w).1 hw
    exact ⟨hw1, hw2⟩
  intro w hw ha
  obtain ⟨dens', k1, k2⟩ := C84_world_partial hval hidx hk hdata hl scaling dists
    (fun v hv hkv => by
      obtain ⟨δ, h1, h2⟩ := hdist v hv hkv
      exact ⟨δ, h1, h2.ne'⟩) [w] (by simp) (fun w' hw' => by rw [List.mem_singleton.1 hw']; exact hw)
  have hD : ∀ l ∈ h.leaves, LeafDensity val idx eps kind c.vars.length data (fun v => scaling / top v) l.2 (dens' l.2) := by
    intro l hle
    constructor
    · exact fun v hv => ((k2 l hle).2 v hv).1
    · intro v hv hkv
      exact ((k2 l hle).2 v hv).2 hkv _ (htop v hv hkv).1
  have hEq : ∀ l ∈ h.leaves, l.2.prior * ((List.range c.vars.length).map (fun v => dens' l.2 v (w v))).prod =
      jointDensity c.vars.length (dens l.2) l.2 w := by
    intro l hle
    unfold jointDensity
    congr 2
    apply List.map_congr_left
    intro v hv
    exact density_unique (hD l hle) (h1 l hle) (hmany' l hle) hw (List.mem_range.1 hv)
  -- the one leaf of the world
  have hvalid : Learn.Valid c (fun v => store (kind v) (w v)) := by
    intro v n hvn
    have hv : v < c.vars.length := by
      by_contra hc
      rw [List.getElem?_eq_none (by omega)] at hvn
      rcases hvn with hvn | hvn <;> cases hvn
    rcases hk v hv with ⟨h8, -⟩ | ⟨b, dom, h8, -, h9⟩
    · rw [h8] at hvn
      rcases hvn with hvn | hvn <;> cases hvn
    · have hn : n = dom.labels.length := by
        rcases h9 with ⟨h9, -⟩ | ⟨h9, -⟩ <;> rw [h9] at hvn <;> rcases hvn with hvn | hvn <;> cases hvn <;> rfl
      have hwv := hw v hv
      rw [h8] at hwv
      cases hx : w v with
      | inl y => rw [hx] at hwv; exact hwv.elim
      | inr x =>
        rw [hx] at hwv
        exact ⟨dom.labels.idxOf x, by rw [hn]; exact List.idxOf_lt_length_iff.2 hwv, by simp only [h8, hx, store]⟩
  obtain ⟨k0, l0, hl0, -, huniq⟩ := Learn.C42_exactly_one c data total (fitMix val idx eps kind data) hdata hl _ hvalid
  have hwf : Dict.WF h.leaves := (List.nodup_append.1 hI.shape.nodup).2.1
  have hmem0 : (k0, l0) ∈ h.leaves := Dict.lookup_mem hl0
  have hother : ∀ l ∈ h.leaves, l ≠ (k0, l0) → jointDensity c.vars.length (dens l.2) l.2 w = 0 := by
    intro l hle hne
    by_contra hc
    have hs := density_sat hval hidx hk hdata hfl hl hle (h1 l hle) hw hc
    have hlk := Dict.mem_lookup hwf hle
    have := huniq l.1 l.2 hlk hs
    apply hne
    rw [this, hl0] at hlk
    exact Prod.ext this (Option.some.inj hlk).symm
  have hsum : (h.leaves.map (fun l => jointDensity c.vars.length (dens l.2) l.2 w)).sum =
      jointDensity c.vars.length (dens l0) l0 w := by
    exact sum_one (a := (k0, l0)) (f := fun l => jointDensity c.vars.length (dens l.2) l.2 w) (List.Nodup.of_map _ hwf) hmem0 hother
  have hlik : likelihood idx scaling dists kind c.vars.length h [(List.range c.vars.length).map w] =
      .ok [jointDensity c.vars.length (dens l0) l0 w] := by
    rw [← hsum]
    rw [List.map_singleton, List.map_singleton, List.map_congr_left hEq] at k1
    exact k1
  refine ⟨_, hlik, ?_, ?_⟩
  · have := h5 _ hmem0 w hw ha
    rwa [div_le_iff₀ hmpos] at this
  · constructor
    · rintro ⟨s, hs, hsw⟩
      obtain ⟨-, l, hle, hl'⟩ := h6 s hs
      obtain ⟨-, -, hq⟩ := (hl' w).1 hsw
      by_cases hne : l = (k0, l0)
      · subst hne
        exact (div_eq_iff hm).1 hq
      · rw [hother l hle hne, zero_div] at hq
        exact absurd hq h3.ne
    · intro hq
      exact h7 _ hmem0 w hw ha ((div_eq_iff hm).2 hq)

end

/-! ## An example and a violation -/

instance decExplanations : DecidableEq (List (List (NS ⊕ Disc.Arg ℤ)) × ℚ) := inferInstance

/-- The tree over 0, 2, 4 and 10, 12, 14: the most probable explanation given the second symbol is between 10 and 14. -/
example : ∃ h, learn (exM.cfg 6) exMData 6 (fitMix Fun.ival Rat.floor (1 / 100) exMKind exMData) = .ok h ∧
    mass (mixP Fun.ival Rat.floor) h [(1, .set [1])] ≠ 0 ∧ (∀ i ∈ [((1 : ℕ), Region.set [1])], ∃ k, exMKind i.1 = .inr k) ∧
    QueryOK (mixFits Fun.ival) exMKind 2 [(1, .set [1])] ∧
    (∀ l ∈ h.leaves, ∀ v, v < 2 → exMKind v = .inl () → ∃ r ∈ l.2.rows, ∃ r' ∈ l.2.rows, exMData r v ≠ exMData r' v) ∧
    mpe (mixOps ℤ Fun.ival Rat.floor Rat.floor) 2 (fullOf (exM.cfg 6)) (fun v => [(0, 2)].lookup v) h [] [(1, .set [1])] =
      .ok ([[.inl (.cs ⟨.fin 10, .fin 15, .inc, .exc⟩), .inr (.set [20])]], 3 / 16) := by
  obtain ⟨h, h1, h2, h3, h4⟩ : ∃ h, learn (exM.cfg 6) exMData 6 (fitMix Fun.ival Rat.floor (1 / 100) exMKind exMData) = .ok h ∧
      mass (mixP Fun.ival Rat.floor) h [(1, .set [1])] ≠ 0 ∧
      (∀ l ∈ h.leaves, ∃ r ∈ l.2.rows, ∃ r' ∈ l.2.rows, exMData r 0 ≠ exMData r' 0) ∧
      mpe (mixOps ℤ Fun.ival Rat.floor Rat.floor) 2 (fullOf (exM.cfg 6)) (fun v => [(0, 2)].lookup v) h [] [(1, .set [1])] =
        .ok ([[.inl (.cs ⟨.fin 10, .fin 15, .inc, .exc⟩), .inr (.set [20])]], 3 / 16) := exists_ok (by decide +kernel)
  refine ⟨h, h1, h2, ?_, ?_, ?_, h4⟩
  · intro i hi
    rw [List.mem_singleton.1 hi]
    exact ⟨_, rfl⟩
  · refine ⟨by decide, fun i hi => ?_⟩
    rw [List.mem_singleton.1 hi]
    exact ⟨by decide, ⟨_, rfl, by decide⟩, trivial⟩
  · intro l hl v hv hk
    match v, hv with
    | 0, _ => exact h3 l hl
    | 1, _ => cases hk

/-- Floats that are a tenth apart. -/
def tenth (n : ℤ) : ℚ := n / 10

def tenthIdx (q : ℚ) : ℤ := (q * 10).floor

/-- The numbers 0, 1/5, 2/5 with one symbol, and three times 1 with another one. -/
def exTData : Data := fun r v =>
  (([[0, 0], [1 / 5, 0], [2 / 5, 0], [1, 1], [1, 1], [1, 1]] : List (List ℚ)).getD r []).getD v 0

/-- `mpe` misses the most likely world: in leaves where all numbers are the same it replaces the infinite density by the
minimal distance of the variable, whereas `likelihood` divides by it.  The number 1 with the second symbol has the
likelihood 5, and 1/5 with the first symbol 5/4, but only numbers below 1/2 (the float 5) with the first symbol are
returned. -/
theorem C48_violated_single_value :
    ∃ h, learn (exM.cfg 6) exTData 6 (fitMix tenth tenthIdx (1 / 100) exMKind exTData) = .ok h ∧
      mpe (mixOps ℤ tenth tenthIdx tenthIdx) 2 (fullOf (exM.cfg 6)) (fun v => [(0, 1 / 5)].lookup v) h [] [] =
        .ok ([[.inl (.cs ⟨.fin 0, .fin 5, .inc, .exc⟩), .inr (.set [10])]], 5 / 4) ∧
      likelihood tenthIdx 2 [(0, 1 / 5)] exMKind 2 h [[.inl 1, .inr 20], [.inl (1 / 5), .inr 10]] = .ok [5, 5 / 4] :=
  exists_ok (by decide +kernel)

end Verif.Trees
