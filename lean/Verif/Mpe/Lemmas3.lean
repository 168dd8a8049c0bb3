import Verif.Mpe.Lemmas2
import Verif.Discrete.Lemmas3
import Mathlib.Algebra.BigOperators.Group.List.Basic

/-! # Lemmas on the k-MPE solver for symbolic and integer variables -/

set_option linter.unusedSectionVars false

namespace Verif.Mpe

open Verif.HQ Verif.Disc

variable {V K : Type} [LinearOrder K] [AddCommGroup K] [DecidableEq V] [Inhabited V]
variable {L : Type} [DecidableEq L]

theorem states_nodup (ps : List ℚ) (q : ℚ) : (states ps q).Nodup := by
  have h : (((ps.zipIdx.filter (fun x => x.1 = q)).map Prod.snd).map (fun i : ℕ => (i : ℤ))).Nodup := by
    refine List.Nodup.map (fun a b h => by simpa using h) ?_
    refine List.Nodup.sublist (List.Sublist.map _ List.filter_sublist) ?_
    rw [List.zipIdx_map_snd]
    exact List.nodup_range' ..
  rw [List.map_map] at h
  exact h

theorem states_length (ps : List ℚ) (q : ℚ) : (states ps q).length = ps.count q := by
  unfold states
  rw [List.length_map, ← List.countP_eq_length_filter]
  conv_rhs => rw [← List.zipIdx_map_fst 0 ps]
  rw [List.count, List.countP_map]
  apply List.countP_congr
  intro x _
  simp

/-- The probability of all states of probability `q`. -/
theorem pVal_states (d : Dist L) (q : ℚ) :
    d.pVal (.set (states d.params q)) = .ok (d.params.count q * q) := by
  unfold Dist.pVal
  rw [mapM_ok_map _ (fun _ => q)]
  · simp only [bind, Except.bind, pure, Except.pure, Arg.elems, (states_nodup d.params q).dedup]
    congr 1
    simp [states_length]
  · intro v hv
    obtain ⟨i, rfl, hi⟩ := mem_states.1 (List.mem_dedup.1 hv)
    obtain ⟨h1, h2⟩ := List.getElem?_eq_some_iff.1 hi
    rw [pyGet_natCast _ _ h1, h2]

/-- The problem given to the solver. -/
def valsOf (neglog : ℚ → RawCost K) (dists : List (V × Dist L)) : List (V × List (List ℤ × RawCost K)) :=
  dists.map fun x => (x.1, (likelihoods x.2.params).map fun q =>
    (states x.2.params q, neglog (x.2.params.count q * q)))

theorem rawCosts_ok (neglog : ℚ → RawCost K) (d : Dist L) :
    rawCosts neglog d = .ok ((likelihoods d.params).map fun q =>
      (states d.params q, neglog (d.params.count q * q))) := by
  unfold rawCosts
  rw [kMpeVal_eq]
  simp only [Option.getD_none, List.take_length]
  rw [mapM_ok_map _ (fun g => (g.1, neglog (d.params.count g.2 * g.2)))]
  · rw [List.map_map]; rfl
  · intro g hg
    obtain ⟨q, -, rfl⟩ := List.mem_map.1 hg
    simp only [pVal_states]
    rfl

theorem valsOf_ok (neglog : ℚ → RawCost K) (dists : List (V × Dist L)) :
    (dists.mapM fun x => do return (x.1, ← rawCosts neglog x.2) :
      Except Err (List (V × List (List ℤ × RawCost K)))) = .ok (valsOf neglog dists) := by
  unfold valsOf
  apply mapM_ok_map
  intro x _
  simp only [rawCosts_ok]
  rfl

theorem valsOf_names (neglog : ℚ → RawCost K) (dists : List (V × Dist L)) :
    (valsOf neglog dists).map Prod.fst = dists.map Prod.fst := by
  unfold valsOf
  rw [List.map_map]; rfl

theorem states_inj {ps : List ℚ} {q r : ℚ} (hq : q ∈ ps) (h : ∀ z, z ∈ states ps q ↔ z ∈ states ps r) :
    q = r := by
  obtain ⟨i, hi, rfl⟩ := List.getElem_of_mem hq
  have : (i : ℤ) ∈ states ps ps[i] := mem_states.2 ⟨i, rfl, by simp [hi]⟩
  obtain ⟨j, hj, hj'⟩ := mem_states.1 ((h _).1 this)
  have : i = j := by exact_mod_cast hj
  subst this
  simpa [hi] using hj'

theorem problem_discrete (neglog : ℚ → RawCost K) (dists : List (V × Dist L))
    (hne : dists ≠ []) (hv : (dists.map Prod.fst).Nodup)
    (hpos : ∀ x ∈ dists, ∃ q ∈ x.2.params, q ≠ 0)
    (hlog : ∀ x ∈ dists, ∀ q ∈ x.2.params, q ≠ 0 → ∃ k : K,
      neglog (x.2.params.count q * q) = ((k : WithTop K) : WithBot (WithTop K))) :
    Problem (valsOf neglog dists) := by
  refine ⟨by simpa [valsOf] using hne, by rw [valsOf_names]; exact hv, ?_, ?_, ?_⟩
  · intro v hv'
    obtain ⟨x, hx, rfl⟩ := List.mem_map.1 hv'
    simp only [List.map_map]
    have hs := likelihoods_sorted x.2.params
    rw [List.Nodup, List.pairwise_map]
    refine (List.Pairwise.and_mem.1 hs).imp ?_
    rintro q r ⟨hq, hr, hlt⟩ he
    simp only [Function.comp] at he
    have := states_inj (r := r) (likelihoods_mem.1 hq).1 (fun z => by rw [he])
    exact absurd this (ne_of_gt hlt)
  · intro v hv'
    obtain ⟨x, hx, rfl⟩ := List.mem_map.1 hv'
    obtain ⟨q, hq, hq0⟩ := hpos x hx
    refine ⟨_, List.mem_map_of_mem (likelihoods_mem.2 ⟨hq, hq0⟩), ?_⟩
    obtain ⟨k, hk⟩ := hlog x hx q hq hq0
    simp only [hk]
    intro he
    exact absurd (WithBot.coe_injective he) (by simp)
  · intro v hv'
    obtain ⟨x, hx, rfl⟩ := List.mem_map.1 hv'
    left
    intro y hy
    obtain ⟨q, hq, rfl⟩ := List.mem_map.1 hy
    obtain ⟨hq1, hq2⟩ := likelihoods_mem.1 hq
    obtain ⟨k, hk⟩ := hlog x hx q hq1 hq2
    simp only [hk]
    exact WithBot.coe_ne_bot

theorem allowed_iff (neglog : ℚ → RawCost K) (dists : List (V × Dist L)) (v : V) (a : List ℤ) (k : K) :
    Allowed (valsOf neglog dists) v a k ↔ ∃ d q, (v, d) ∈ dists ∧ q ∈ d.params ∧ q ≠ 0 ∧
      a = states d.params q ∧ Counts (neglog (d.params.count q * q)) k := by
  constructor
  · rintro ⟨vs, hvs, c, hc, hk⟩
    obtain ⟨x, hx, he⟩ := List.mem_map.1 hvs
    cases he
    obtain ⟨q, hq, he⟩ := List.mem_map.1 hc
    cases he
    obtain ⟨hq1, hq2⟩ := likelihoods_mem.1 hq
    exact ⟨x.2, q, hx, hq1, hq2, rfl, hk⟩
  · rintro ⟨d, q, hd, hq, hq0, rfl, hk⟩
    exact ⟨_, List.mem_map_of_mem hd, _, List.mem_map_of_mem (likelihoods_mem.2 ⟨hq, hq0⟩), hk⟩

theorem lookup_of_mem {W B : Type} [BEq W] [LawfulBEq W] {l : List (W × B)}
    (hn : (l.map Prod.fst).Nodup) {v : W} {b : B}
    (h : (v, b) ∈ l) : l.lookup v = some b := by
  induction l with
  | nil => cases h
  | cons x l ih =>
    rw [List.map_cons, List.nodup_cons] at hn
    obtain ⟨w, c⟩ := x
    rw [List.lookup_cons]
    rcases List.mem_cons.1 h with he | he
    · cases he; simp
    · have : v ≠ w := fun e => hn.1 (List.mem_map.2 ⟨_, he, e⟩)
      have hb : (v == w) = false := by simpa using this
      rw [hb]
      exact ih hn.2 he

/-- The states of the variable of probability `q`. -/
def groupOf (dists : List (V × Dist L)) (v : V) (q : ℚ) : List ℤ :=
  match dists.lookup v with
  | none => []
  | some d => states d.params q

theorem groupOf_eq (dists : List (V × Dist L)) (hv : (dists.map Prod.fst).Nodup) (v : V) (d : Dist L)
    (hd : (v, d) ∈ dists) (q : ℚ) : groupOf dists v q = states d.params q := by
  unfold groupOf; rw [lookup_of_mem hv hd]

theorem domainOf_states (dists : List (V × Dist L)) (hv : (dists.map Prod.fst).Nodup) (v : V) (d : Dist L)
    (hd : (v, d) ∈ dists) (q : ℚ) (hq : q ∈ d.params) (hq0 : q ≠ 0) :
    domainOf dists v (states d.params q) = q := by
  unfold domainOf
  rw [lookup_of_mem hv hd]
  simp only [kMpeVal_eq, Option.getD_none, List.take_length]
  rw [lookup_of_mem (b := q) (v := states d.params q)]
  · rfl
  · rw [List.map_map, List.Nodup, List.pairwise_map]
    refine (List.Pairwise.and_mem.1 (likelihoods_sorted d.params)).imp ?_
    rintro a b ⟨ha, hb, hlt⟩ he
    simp only [Function.comp] at he
    have := states_inj (r := b) (likelihoods_mem.1 ha).1 (fun z => by rw [he])
    exact absurd this (ne_of_gt hlt)
  · exact List.mem_map_of_mem (f := fun q => (states d.params q, q)) (likelihoods_mem.2 ⟨hq, hq0⟩)

theorem allowed_of (neglog : ℚ → RawCost K) (dists : List (V × Dist L)) (hv : (dists.map Prod.fst).Nodup)
    (f : V → ℚ) (hf : Choice dists f) (w : V × Dist L) (hw : w ∈ dists) (k : K)
    (hk : neglog (w.2.params.count (f w.1) * f w.1) = ((k : WithTop K) : WithBot (WithTop K))) :
    Allowed (valsOf neglog dists) w.1 (groupOf dists w.1 (f w.1)) k := by
  rw [groupOf_eq dists hv w.1 w.2 hw]
  exact (allowed_iff ..).2 ⟨w.2, f w.1, hw, (hf w hw).1, (hf w hw).2, rfl, Or.inl hk⟩

theorem shows_of (dists : List (V × Dist L)) (hv : (dists.map Prod.fst).Nodup) (f : V → ℚ)
    (hf : Choice dists f) (st : Assign V (List ℤ)) (hperm : (st.map Prod.fst).Perm (dists.map Prod.fst))
    (hp : ∀ p ∈ st, p.2 = groupOf dists p.1 (f p.1)) :
    Shows dists f (st, likelihood (domainOf dists) st) := by
  refine ⟨hperm, ?_, ?_⟩
  · intro p hpm d hd
    rw [hp p hpm, groupOf_eq dists hv _ _ hd]
    exact ⟨states_nodup _ _, fun z => mem_states⟩
  · show likelihood (domainOf dists) st = _
    unfold likelihood
    have e : st.map (fun x => domainOf dists x.1 x.2) = (st.map Prod.fst).map f := by
      rw [List.map_map]
      apply List.map_congr_left
      intro p hpm
      have : p.1 ∈ dists.map Prod.fst := hperm.subset (List.mem_map_of_mem hpm)
      obtain ⟨w, hw, hwe⟩ := List.mem_map.1 this
      have hd : (p.1, w.2) ∈ dists := hwe ▸ hw
      rw [hp p hpm, groupOf_eq dists hv _ _ hd]
      exact domainOf_states dists hv _ _ hd _ (hf _ hd).1 (hf _ hd).2
    rw [e, (hperm.map f).prod_eq, List.map_map]
    rfl

theorem forall₂_exists {P : V × List ℤ → K → Prop} {st : List (V × List ℤ)} {ks : List K}
    (h : List.Forall₂ P st ks) : ∀ p ∈ st, ∃ k, P p k := by
  induction h with
  | nil => simp
  | cons hp _ ih =>
    intro p hpm
    rcases List.mem_cons.1 hpm with rfl | hpm
    · exact ⟨_, hp⟩
    · exact ih p hpm

theorem complete_groups (neglog : ℚ → RawCost K) (dists : List (V × Dist L)) (st : Assign V (List ℤ))
    (c : K) (h : Complete (valsOf neglog dists) st c) :
    ∀ p ∈ st, ∃ d q, (p.1, d) ∈ dists ∧ q ∈ d.params ∧ q ≠ 0 ∧ p.2 = states d.params q := by
  obtain ⟨-, ks, hks, -⟩ := h
  intro p hp
  obtain ⟨k, hk⟩ := forall₂_exists hks p hp
  obtain ⟨d, q, h1, h2, h3, h4, -⟩ := (allowed_iff ..).1 hk
  exact ⟨d, q, h1, h2, h3, h4⟩

theorem choice_of (neglog : ℚ → RawCost K) (dists : List (V × Dist L)) (hv : (dists.map Prod.fst).Nodup)
    (st : Assign V (List ℤ)) (c : K) (h : Complete (valsOf neglog dists) st c) :
    ∃ f, Choice dists f ∧ ∀ p ∈ st, p.2 = groupOf dists p.1 (f p.1) := by
  have hg := complete_groups neglog dists st c h
  have hperm := h.1
  rw [valsOf_names] at hperm
  have hn : (st.map Prod.fst).Nodup := hperm.nodup_iff.2 hv
  refine ⟨fun v => match st.lookup v with
    | none => 0
    | some a => domainOf dists v a, ?_, ?_⟩
  · intro x hx
    have : x.1 ∈ st.map Prod.fst := hperm.symm.subset (List.mem_map_of_mem hx)
    obtain ⟨p, hp, hpe⟩ := List.mem_map.1 this
    have hp' : (x.1, p.2) ∈ st := hpe ▸ hp
    simp only [lookup_of_mem hn hp']
    obtain ⟨d, q, h1, h2, h3, h4⟩ := hg _ hp'
    simp only at h1 h4
    have hd : d = x.2 := by
      have := lookup_of_mem hv h1
      rw [lookup_of_mem hv (show (x.1, x.2) ∈ dists from hx)] at this
      exact (Option.some.inj this).symm
    subst hd
    rw [h4, domainOf_states dists hv _ _ h1 _ h2 h3]
    exact ⟨h2, h3⟩
  · intro p hp
    simp only [lookup_of_mem hn (show (p.1, p.2) ∈ st from hp)]
    obtain ⟨d, q, h1, h2, h3, h4⟩ := hg p hp
    rw [h4, domainOf_states dists hv _ _ h1 _ h2 h3, groupOf_eq dists hv _ _ h1]

theorem groups_of_shows (neglog : ℚ → RawCost K) (dists : List (V × Dist L))
    (hv : (dists.map Prod.fst).Nodup) (f : V → ℚ) (st : Assign V (List ℤ)) (c : K)
    (h : Complete (valsOf neglog dists) st c) (l : ℚ) (hs : Shows dists f (st, l)) :
    ∀ p ∈ st, p.2 = groupOf dists p.1 (f p.1) := by
  intro p hp
  obtain ⟨d, q, h1, h2, h3, h4⟩ := complete_groups neglog dists st c h p hp
  rw [groupOf_eq dists hv _ _ h1, h4]
  have := (hs.2.1 p hp d h1).2
  rw [h4] at this
  have e : q = f p.1 := states_inj h2 fun z => by rw [this z, mem_states]
  rw [e]

end Verif.Mpe
