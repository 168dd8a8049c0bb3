import Verif.Trees.Lemmas2
import Verif.Discrete.Lemmas2

/-!
# Lemmas about joint queries and `posterior`
-/

namespace Verif.Trees

variable {D E K : Type} {o : DistOps D E} {ok : K → D → Prop} {fits : K → Region → Prop}
  {P : D → Region → ℚ} {kind : ℕ → K} {full : ℕ → Region} {n : ℕ} {h : Heap D}

theorem prod_filter_eq (g : ℕ × Region → ℚ) (k : ℕ) : ∀ (e : Query), (e.map Prod.fst).Nodup →
    ((e.filter (fun j => decide (j.1 = k))).map g).prod =
      match e.lookup k with
      | some r => g (k, r)
      | none => 1
  | [], _ => by simp
  | (a, r) :: e, hn => by
    rw [List.map_cons, List.nodup_cons] at hn
    rw [List.lookup_cons]
    by_cases h : a = k
    · subst h
      rw [List.filter_cons_of_pos (by simp), beq_self_eq_true]
      have : e.filter (fun j => decide (j.1 = a)) = [] := by
        rw [List.filter_eq_nil_iff]
        intro j hj hja
        exact hn.1 (List.mem_map.2 ⟨j, hj, by simpa using hja⟩)
      rw [this]
      simp
    · have h' : (k == a) = false := by simpa using fun hc => h hc.symm
      rw [List.filter_cons_of_neg (by simpa using h), h']
      exact prod_filter_eq g k e hn.2

theorem prod_filter_mem (g : ℕ × Region → ℚ) (e : Query) (hn : (e.map Prod.fst).Nodup) :
    ∀ (ks : List ℕ), ks.Nodup → ((e.filter (fun j => ks.contains j.1)).map g).prod =
      (ks.map (fun k => match e.lookup k with
        | some r => g (k, r)
        | none => 1)).prod
  | [], _ => by simp
  | k :: ks, hk => by
    rw [List.nodup_cons] at hk
    rw [List.map_cons, List.prod_cons, ← prod_filter_mem g e hn ks hk.2, ← prod_filter_eq g k e hn]
    clear hn
    induction e with
    | nil => simp
    | cons j e ih =>
      by_cases h1 : j.1 = k
      · have h2 : ks.contains j.1 = false := by
          rw [h1]
          simpa using hk.1
        rw [List.filter_cons_of_pos (by simp [h1]), List.filter_cons_of_pos (by simp [h1]),
          List.filter_cons_of_neg (by rw [h2]; simp), List.map_cons, List.map_cons, List.prod_cons,
          List.prod_cons, ih]
        ring
      · by_cases h2 : ks.contains j.1 = true
        · rw [List.filter_cons_of_pos (by simp at h2; simp [h2]),
            List.filter_cons_of_neg (by simp [h1]),
            List.filter_cons_of_pos (p := fun j : ℕ × Region => ks.contains j.1) h2, List.map_cons, List.map_cons, List.prod_cons,
            List.prod_cons, ih]
          ring
        · rw [List.filter_cons_of_neg (by simp at h2; simp [h1, h2]),
            List.filter_cons_of_neg (by simp [h1]),
            List.filter_cons_of_neg (p := fun j : ℕ × Region => ks.contains j.1) h2, ih]

theorem prod_filter_split (g : ℕ × Region → ℚ) (p : ℕ × Region → Bool) : ∀ (e : Query),
    ((e.filter p).map g).prod * ((e.filter (fun j => !p j)).map g).prod = (e.map g).prod
  | [] => by simp
  | j :: e => by
    by_cases h : p j = true
    · rw [List.filter_cons_of_pos h, List.filter_cons_of_neg (by simp [h]), List.map_cons,
        List.map_cons, List.prod_cons, List.prod_cons, ← prod_filter_split g p e]
      ring
    · rw [List.filter_cons_of_neg h, List.filter_cons_of_pos (by simpa using h), List.map_cons,
        List.map_cons, List.prod_cons, List.prod_cons, ← prod_filter_split g p e]
      ring

theorem prod_map_mul (f g : ℕ × Region → ℚ) : ∀ (q : Query),
    (q.map (fun i => f i * g i)).prod = (q.map f).prod * (q.map g).prod
  | [] => by simp
  | i :: q => by
    simp only [List.map_cons, List.prod_cons]
    rw [prod_map_mul f g q]
    ring

/-- The probability of both queries is the product, if the common variables are independent. -/
theorem leafProb_meet {l : Leaf D} {q e : Query} (hq : (q.map Prod.fst).Nodup)
    (he : (e.map Prod.fst).Nodup)
    (hind : ∀ i ∈ q, ∀ r, e.lookup i.1 = some r → ∀ d, l.dists[i.1]? = some d →
      P d (i.2.inter r) = P d i.2 * P d r) :
    leafProb P l (meet q e) = leafProb P l e * leafProb P l q := by
  obtain ⟨g, hg⟩ : ∃ g : ℕ × Region → ℚ, g = fun i => match l.dists[i.1]? with
    | some d => P d i.2
    | none => 0 := ⟨_, rfl⟩
  have e1 : ∀ q, leafProb P l q = (q.map g).prod := by
    intro q
    rw [hg]
    rfl
  rw [e1, e1, e1]
  unfold meet
  rw [List.map_append, List.prod_append, List.map_map]
  have e2 : q.map (g ∘ meetItem e) = q.map (fun i => g i * (match e.lookup i.1 with
      | some r => g (i.1, r)
      | none => 1)) := by
    apply List.map_congr_left
    intro i hi
    simp only [Function.comp, meetItem]
    cases hl : e.lookup i.1 with
    | none => simp
    | some r =>
      simp only [hg]
      cases hd : l.dists[i.1]? with
      | none => simp
      | some d => exact hind i hi r hl d hd
  rw [e2, prod_map_mul]
  have e3 := prod_filter_mem g e he (q.map Prod.fst) hq
  rw [List.map_map] at e3
  have e4 := prod_filter_split g (fun j => (q.map Prod.fst).contains j.1) e
  rw [← e4, e3]
  simp only [Function.comp_def]
  ring

/-! ## `posterior` -/

section leaf

variable {A : K → Prop} (L : LawsOn o ok fits P A) {l : Leaf D}
  (hlen : l.dists.length = n) (hok : ∀ (v : ℕ) (d : D), l.dists[v]? = some d → ok (kind v) d)
  (hpath : ∀ s ∈ l.path, s.1 < n ∧ fits (kind s.1) s.2 ∧ s.2.OK)
  (hvals : ∀ v, v < n → fits (kind v) (full v) ∧ ∀ r x, fits (kind v) r → r.Mem x → (full v).Mem x)
  (hsup : ∀ (v : ℕ) (d : D) (R : Region), (pathMap full l.path).lookup v = some R →
    l.dists[v]? = some d → P d R = 1)

include L hok hpath hvals hsup in
/-- The likelihood of the evidence on a variable is its probability, unless it is a single number. -/
theorem lik_eq {v : ℕ} {r : Region} {d : D} (hd : l.dists[v]? = some d) (hr : fits (kind v) r)
    (hpt : (l.restrict full v r).point = none) : lik o d (l.restrict full v r) = .ok (P d r) := by
  obtain ⟨h3, h4⟩ := restrict_P L.toPLaws hok hpath hvals hsup hd hr
  have hp := L.p_ok _ _ _ (hok _ _ hd) h3
  rw [h4] at hp
  unfold lik
  rw [hpt]
  exact hp

include hlen in
theorem evidence_fold (e : Query) : ∀ (acc : Option ℚ),
    (∀ i ∈ e, i.1 < n ∧ fits (kind i.1) i.2 ∧ i.2.OK) →
    (∀ i ∈ e, ∀ d, l.dists[i.1]? = some d → lik o d (l.restrict full i.1 i.2) = .ok (P d i.2)) →
    (∀ p, acc = some p → p ≠ 0) →
    e.foldlM (l.evidenceStep o full) acc =
      .ok (match acc with
        | none => none
        | some p => if leafProb P l e = 0 then none else some (p * leafProb P l e)) := by
  induction e with
  | nil =>
    intro acc _ _ _
    cases acc <;> simp [leafProb, pure, Except.pure]
  | cons i e ih =>
    intro acc hq hpt hacc
    rw [List.foldlM_cons]
    cases acc with
    | none =>
      simp only [Leaf.evidenceStep, bind, Except.bind]
      exact ih none (fun j hj => hq j (by simp [hj])) (fun j hj => hpt j (by simp [hj])) (by simp)
    | some p =>
      obtain ⟨h1, h2, -⟩ := hq i (by simp)
      have hlt : i.1 < l.dists.length := by omega
      obtain ⟨d, hd⟩ : ∃ d, l.dists[i.1]? = some d := ⟨_, List.getElem?_eq_getElem hlt⟩
      have hlik : lik o d (l.restrict full i.1 i.2) = .ok (P d i.2) := hpt i (by simp) d hd
      have hLP : leafProb P l (i :: e) = P d i.2 * leafProb P l e := by
        simp only [leafProb, List.map_cons, List.prod_cons, hd]
      simp only [Leaf.evidenceStep, Leaf.dist, hd, hlik, bind, Except.bind, pure, Except.pure]
      have hrec := ih (if P d i.2 = 0 then none else some (p * P d i.2))
        (fun j hj => hq j (by simp [hj])) (fun j hj => hpt j (by simp [hj])) (by
          intro p' hp'
          by_cases hz : P d i.2 = 0
          · rw [if_pos hz] at hp'; cases hp'
          · rw [if_neg hz] at hp'
            cases hp'
            exact mul_ne_zero (hacc p rfl) hz)
      rw [hrec, hLP]
      by_cases hz : P d i.2 = 0
      · simp [hz]
      · by_cases hz' : leafProb P l e = 0
        · simp [hz, hz']
        · simp only [hz, if_false, hz', mul_eq_zero, or_self]
          rw [mul_assoc]

include hlen in
theorem evidence_eq {e : Query} (he : QueryOK fits kind n e)
    (hpt : ∀ i ∈ e, ∀ d, l.dists[i.1]? = some d → lik o d (l.restrict full i.1 i.2) = .ok (P d i.2)) :
    l.evidence o full e = .ok (if leafProb P l e = 0 then none else some (leafProb P l e)) := by
  have := evidence_fold hlen e (some 1) he.2 hpt (by simp)
  unfold Leaf.evidence
  rw [this]
  simp

include L hlen hok hpath hvals hsup in
/-- The distribution a leaf contributes is the conditional one, if the path restricts the variable or
the evidence is certain. -/
theorem leaf_posterior_each {e : Query} (he : QueryOK fits kind n e) (hne : leafProb P l e ≠ 0)
    {v : ℕ} (hv : v < n)
    (hcrop : ∀ r R d, e.lookup v = some r → (pathMap full l.path).lookup v = some R → l.dists[v]? = some d →
      ∃ d', o.crop d (r.inter R) = .ok d' ∧ ok (kind v) d' ∧ ∀ S, fits (kind v) S →
        P d' S = P d (S.inter (r.inter R)) / P d (r.inter R))
    (hsee : ∀ r, e.lookup v = some r → v ∈ l.path.map Prod.fst ∨
      ∀ d, l.dists[v]? = some d → P d r = 1) :
    ∃ d', l.posterior o full e v = .ok d' ∧ ok (kind v) d' ∧ (e.lookup v = none → l.dists[v]? = some d') ∧
      ∀ S, fits (kind v) S → P d' S = condProb P l e v S := by
  have hlt : v < l.dists.length := by omega
  obtain ⟨d, hd⟩ : ∃ d, l.dists[v]? = some d := ⟨_, List.getElem?_eq_getElem hlt⟩
  unfold Leaf.posterior condProb
  simp only [Leaf.dist, hd, bind, Except.bind, pure, Except.pure]
  cases hl : e.lookup v with
  | none => exact ⟨d, rfl, hok _ _ hd, fun _ => rfl, fun S _ => rfl⟩
  | some r =>
    have hm := Dict.lookup_mem hl
    obtain ⟨-, hr, -⟩ := he.2 _ hm
    have hPr : P d r ≠ 0 := by
      intro hz
      apply hne
      unfold leafProb
      apply prod_zero
      exact List.mem_map.2 ⟨(v, r), hm, by simp [hd, hz]⟩
    simp only
    cases hR : (pathMap full l.path).lookup v with
    | none =>
      refine ⟨d, rfl, hok _ _ hd, fun _ => rfl, ?_⟩
      intro S hS
      rcases hsee r hl with hp | hp
      · have := (pathMap_keys full l.path v).2 hp
        exact absurd this (Dict.lookup_none.1 hR)
      · have h1 := hp d hd
        rw [L.sure _ _ _ _ (hok _ _ hd) hS hr h1, h1, div_one]
    | some R =>
      have hfR := (pathMap_fits L.toPLaws l.path hpath hvals v R hR).2
      have hR1 := hsup v d R hR hd
      have hrR : P d (r.inter R) = P d r := L.sure _ _ _ _ (hok _ _ hd) hr hfR hR1
      obtain ⟨d', h1, h2, h3⟩ := hcrop r R d hl hR hd
      refine ⟨d', h1, h2, (fun h => by cases h), ?_⟩
      intro S hS
      rw [h3 S hS, hrR]
      have : P d (S.inter (r.inter R)) = P d (S.inter r) := by
        have hSr := L.inter _ _ _ hS hr
        rw [← L.sure _ _ _ _ (hok _ _ hd) hSr hfR hR1]
        apply L.ext (kind v) _ _ _ (hok _ _ hd)
        · exact L.inter _ _ _ hS (L.inter _ _ _ hr hfR)
        · exact L.inter _ _ _ hSr hfR
        · intro x
          simp only [Region.mem_inter]
          exact ⟨fun h => ⟨⟨h.1, h.2.1⟩, h.2.2⟩, fun h => ⟨h.1.1, h.1.2, h.2⟩⟩
      rw [this]

include L hlen hok hpath hvals hsup in
theorem leaf_posterior {e : Query} (he : QueryOK fits kind n e) (hne : leafProb P l e ≠ 0)
    {v : ℕ} (hv : v < n) (hA : ∀ r, e.lookup v = some r → A (kind v))
    (hsee : ∀ r, e.lookup v = some r → v ∈ l.path.map Prod.fst ∨
      ∀ d, l.dists[v]? = some d → P d r = 1) :
    ∃ d', l.posterior o full e v = .ok d' ∧ ok (kind v) d' ∧ (e.lookup v = none → l.dists[v]? = some d') ∧
      ∀ S, fits (kind v) S → P d' S = condProb P l e v S := by
  refine leaf_posterior_each L hlen hok hpath hvals hsup he hne hv ?_ hsee
  intro r R d hr hR hd
  have hm := Dict.lookup_mem hr
  obtain ⟨-, hfr, -⟩ := he.2 _ hm
  have hfR := (pathMap_fits L.toPLaws l.path hpath hvals v R hR).2
  have hrR : P d (r.inter R) = P d r := L.sure _ _ _ _ (hok _ _ hd) hfr hfR (hsup v d R hR hd)
  refine L.crop (kind v) d (r.inter R) (hA r hr) (hok _ _ hd) (L.inter _ _ _ hfr hfR) ?_
  rw [hrR]
  intro hz
  apply hne
  unfold leafProb
  apply prod_zero
  exact List.mem_map.2 ⟨(v, r), hm, by simp [hd, hz]⟩

end leaf

end Verif.Trees
