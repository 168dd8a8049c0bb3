import Verif.Trees.Reverse
import Verif.Trees.Props11
import Mathlib.Data.List.Sort

/-!
# C88: `reverse` finds the leaves that match a query

The model is `Verif.Trees.Reverse`; `UArg.Describes` (`Verif.Vars.BindSpec`) says which labels a value stands for.
-/

namespace Verif.Trees

open Vars Disc
open Learn (Cfg Data DataOK learn exists_ok fullOf)

/-- The label `a` of the variable is asked for: by the last value given for it, or since none is given. -/
def Wanted (vs : List (Var Domain)) (q : List (Key Domain × UArg)) (v : Var Domain) (a : Atom) : Prop :=
  ∀ pre k u post, q = pre ++ (k, u) :: post → u ≠ .none → Named vs k v →
    (∀ p ∈ post, p.2 ≠ .none → ¬ Named vs p.1 v) → u.Describes v.info a

/-- Either no item of the list has the property or there is a last one. -/
theorem last_or_none {α : Type} (P : α → Prop) (l : List α) :
    (∀ x ∈ l, ¬ P x) ∨ ∃ pre x post, l = pre ++ x :: post ∧ P x ∧ ∀ y ∈ post, ¬ P y := by
  induction l with
  | nil => exact .inl (by simp)
  | cons a l ih =>
    rcases ih with h | ⟨pre, x, post, rfl, h1, h2⟩
    · by_cases ha : P a
      · exact .inr ⟨[], a, l, rfl, ha, h⟩
      · refine .inl fun x hx => ?_
        rcases List.mem_cons.1 hx with rfl | hx
        · exact ha
        · exact h x hx
    · exact .inr ⟨a :: pre, x, post, rfl, h1, h2⟩

variable {vs : List (Var Domain)} {c : Cfg} {kind : ℕ → Bool × Dom Atom} {data : Data} {total : ℕ}

/-- C88: in a tree learned over symbolic and integer variables, `reverse` returns exactly the leaves in which the share
of the training rows with a label that is asked for is at least the confidence, for every variable; each leaf once, with
these shares, and sorted by their sums. -/
theorem C88_leaves (hvs : (vs.map Var.name).Nodup) (hdom : ∀ v ∈ vs, HasLabels v.info) (hk : Discrete c kind)
    (hlen : c.vars.length = vs.length)
    (hkind : ∀ (i : ℕ) v, vs[i]? = some v → (kind i).2.labels = v.info.labels) (hdata : DataOK c data total)
    {h : Heap (DD Atom)} (hl : learn c data total (fitDisc kind data) = .ok h) (lab : ℕ → ℕ → Atom)
    (hlab : ∀ (i : ℕ) v, vs[i]? = some v → ∀ r < total, lab r i ∈ v.info.labels ∧
      data r i = (v.info.labels.idxOf (lab r i) : ℚ))
    {q : List (Key Domain × UArg)} (hq : ∀ p ∈ q, ∀ v, p.1 = .var v → v ∈ vs)
    (hin : ∀ p ∈ q, ∀ v, Named vs p.1 v → ∀ a, p.2.Describes v.info a → a ∈ v.info.labels)
    (hset : ∀ p ∈ q, ∀ l, p.2 = .set l → l.Nodup) (hsome : ∃ p ∈ q, ∃ v, Named vs p.1 v) {m : Asg}
    (hm : preprocessQuery vs noBlur true ⟨false, true⟩ q = .ok m) (W : ℕ → Atom → Bool)
    (hW : ∀ (i : ℕ) v, vs[i]? = some v → ∀ a, W i a = true ↔ Wanted vs q v a) (confidence : ℚ) :
    ∃ res, reverse (discOps Atom) vs (fullOf c) h q confidence = .ok res ∧ (res.map Prod.snd).Nodup ∧
      res.Pairwise (fun a b => b.1.sum ≤ a.1.sum) ∧
      ∀ ps id, (ps, id) ∈ res ↔ ∃ l, (id, l) ∈ h.leaves ∧
        ps = (List.range vs.length).map (fun i => (l.rows.countP (fun r => W i (lab r i)) : ℚ) / l.rows.length) ∧
        ∀ x ∈ ps, confidence ≤ x := by
  have hok := learned_ok hk hdata hl
  obtain ⟨idx, hI⟩ := Learn.learn_inv hdata hl
  have hrow : ∀ e ∈ h.leaves, ∀ r ∈ e.2.rows, r < total := by
    intro e he r hr
    have := hI.rows.mem_iff (a := r)
    simp only [List.flatMap_nil, List.append_nil, List.mem_flatMap, List.mem_range] at this
    exact this.1 ⟨e, he, hr⟩
  obtain ⟨va, qs, h1, h2, h3, h4, h5, h6⟩ := C87_query hvs hdom hq hin hset hm
  -- the region asked for each variable
  have hreg : ∀ (i : ℕ) v, vs[i]? = some v → discFits (kind i) ((qs.lookup i).getD (fullOf c i)) ∧
      ∀ r < total, ((qs.lookup i).getD (fullOf c i)).Mem (.fin (data r i)) ↔ W i (lab r i) = true := by
    intro i v hv
    have hi : i < c.vars.length := by rw [hlen]; exact (List.getElem?_eq_some_iff.1 hv).1
    have hvm := List.mem_of_getElem? hv
    rcases last_or_none (fun p : Key Domain × UArg => p.2 ≠ .none ∧ Named vs p.1 v) q with hno | ⟨pre, p, post, e, hp, hpost⟩
    · have hnone := h5 i v hv (fun p hp h1 h2 => hno p hp ⟨h1, h2⟩)
      rw [hnone]
      refine ⟨(hok.values i hi).1, fun r hr => ?_⟩
      obtain ⟨a1, a2⟩ := hlab i v hv r hr
      have hw : W i (lab r i) = true := by
        rw [hW i v hv]
        intro pre k u post e hu hk
        exact absurd ⟨hu, hk⟩ (hno (k, u) (by rw [e]; simp))
      simp only [hw, iff_true, Option.getD_none]
      refine (hok.values i hi).2 (.set [((v.info.labels.idxOf (lab r i) : ℕ) : ℤ)]) _ ?_ ?_
      · refine ⟨_, rfl, ?_⟩
        intro z hz
        simp only [List.mem_singleton] at hz
        subst hz
        rw [hkind i v hv]
        have := List.idxOf_lt_length_iff.2 a1
        omega
      · exact ⟨_, List.mem_singleton.2 rfl, by rw [a2]; push_cast; rfl⟩
    · obtain ⟨k, u⟩ := p
      obtain ⟨l, h7, h8⟩ := h6 pre k u post i v e hp.1 hv hp.2 (fun p hp h1 h2 => hpost p hp ⟨h1, h2⟩)
      rw [h7]
      simp only [Option.getD_some]
      refine ⟨⟨l, rfl, ?_⟩, fun r hr => ?_⟩
      · obtain ⟨w, hw, l', e', hb⟩ := h4 (i, .set l) (Dict.lookup_mem h7)
        rw [hv] at hw
        cases hw
        cases e'
        rw [hkind i v hv]
        exact hb
      · obtain ⟨a1, a2⟩ := hlab i v hv r hr
        have hwd : Wanted vs q v (lab r i) ↔ u.Describes v.info (lab r i) := by
          constructor
          · intro hw
            exact hw pre k u post e hp.1 hp.2 (fun p hp h1 h2 => hpost p hp ⟨h1, h2⟩)
          · intro hd pre' k' u' post' e' hu' hk' hpost'
            have : u' = u := by
              rw [e] at e'
              rcases List.append_eq_append_iff.1 e' with ⟨t, e1, e2⟩ | ⟨t, e1, e2⟩
              · cases t with
                | nil => simp at e2; exact e2.1.2.symm
                | cons p t =>
                  simp only [List.cons_append, List.cons.injEq] at e2
                  exact absurd ⟨hu', hk'⟩ (hpost (k', u') (by rw [e2.2]; simp))
              · cases t with
                | nil => simp at e2; exact e2.1.2
                | cons p t =>
                  simp only [List.cons_append, List.cons.injEq] at e2
                  exact absurd hp.2 (hpost' (k, u) (by rw [e2.2]; simp) hp.1)
            rw [this]
            exact hd
        rw [hW i v hv, hwd, ← h8 (v.info.labels.idxOf (lab r i)) (lab r i) (by
          rw [List.getElem?_eq_getElem (List.idxOf_lt_length_iff.2 a1), List.getElem_idxOf])]
        constructor
        · rintro ⟨z, hz, e⟩
          rw [a2] at e
          have : ((v.info.labels.idxOf (lab r i) : ℕ) : ℤ) = z := by
            have := XQ.fin.inj e
            exact_mod_cast this
          rw [this]
          exact hz
        · intro hz
          exact ⟨_, hz, by rw [a2]; push_cast; rfl⟩
  -- the confidences of a leaf
  let share : Leaf (DD Atom) → List ℚ := fun l =>
    (List.range vs.length).map (fun i => (l.rows.countP (fun r => W i (lab r i)) : ℚ) / l.rows.length)
  have hleaf : ∀ e ∈ h.leaves, e.2.dists.zipIdx.mapM (fun d => (discOps Atom).p d.1 ((qs.lookup d.2).getD (fullOf c d.2))) =
      .ok (share e.2) := by
    intro e he
    have hL := hI.leaf e he
    rw [mapM_ok_iff, List.forall₂_iff_get]
    have hlen2 : e.2.dists.length = vs.length := by rw [(hok.dists e he).1, hlen]
    refine ⟨by simp [share, hlen2], ?_⟩
    intro i hi hi'
    have hiv : i < vs.length := by simpa [share] using hi'
    have hic : i < c.vars.length := by rw [hlen]; exact hiv
    obtain ⟨hf, hmem⟩ := hreg i vs[i] (List.getElem?_eq_getElem hiv)
    simp only [List.get_eq_getElem, List.getElem_zipIdx, Nat.zero_add, share, List.getElem_map, List.getElem_range]
    have hid : i < e.2.dists.length := by rw [hlen2]; exact hiv
    rw [disc_laws.p_ok (kind i) _ _ ((hok.dists e he).2 i _ (List.getElem?_eq_getElem hid)) hf]
    congr 1
    have hd : e.2.dists[i] = fitDisc kind data e.2.rows i := by
      have : e.2.dists[i]? = some (fitDisc kind data e.2.rows i) := by
        rw [hL.dists, List.getElem?_map, List.getElem?_range hic]; rfl
      rw [List.getElem?_eq_getElem hid] at this
      exact Option.some.inj this
    rw [hd, (fitDisc_spec (hk i hic) (fun r hr => hdata r (hrow e he r hr)) hL.nonempty).2]
    congr 2
    apply List.countP_congr
    intro r hr
    rw [decide_eq_true_eq]
    exact hmem r (hrow e he r hr)
  have hconfs : h.leaves.mapM (fun l => (do
      let ps ← l.2.dists.zipIdx.mapM (fun d => (discOps Atom).p d.1 ((qs.lookup d.2).getD (fullOf c d.2)))
      return (ps, l.1) : Except Err (List ℚ × ℕ))) = .ok (h.leaves.map (fun l => (share l.2, l.1))) := by
    rw [mapM_ok_iff, List.forall₂_map_right_iff]
    refine List.forall₂_same.2 (fun l hl' => ?_)
    rw [hleaf l hl']
    rfl
  refine ⟨((h.leaves.map (fun l => (share l.2, l.1))).filter
    (fun a => a.1.all (fun x => decide (confidence ≤ x)))).insertionSort (fun a b => b.1.sum ≤ a.1.sum), ?_, ?_, ?_, ?_⟩
  · unfold reverse
    rw [if_neg (by
      obtain ⟨p, hp, v, hn⟩ := hsome
      intro hno
      rcases hn with hn | ⟨hn, hv⟩
      · exact hno p hp v.name (by rw [hn]; rfl) (List.mem_map.2 ⟨v, hq p hp v hn, rfl⟩)
      · exact hno p hp v.name (by rw [hn]; rfl) (List.mem_map.2 ⟨v, hv, rfl⟩))]
    simp only [bind, Except.bind, pure, Except.pure] at hconfs ⊢
    rw [hm]
    simp only [h1, h2, hconfs]
  · have hp := (List.perm_insertionSort (fun a b : List ℚ × ℕ => b.1.sum ≤ a.1.sum)
      ((h.leaves.map (fun l => (share l.2, l.1))).filter (fun a => a.1.all (fun x => decide (confidence ≤ x))))).map Prod.snd
    rw [hp.nodup_iff]
    have hnd : ((h.leaves.map (fun l => (share l.2, l.1))).map Prod.snd).Nodup := by
      rw [List.map_map]
      exact (List.nodup_append.1 hok.shape.nodup).2.1
    exact hnd.sublist ((List.filter_sublist).map _)
  · have : Std.Total (fun a b : List ℚ × ℕ => b.1.sum ≤ a.1.sum) := ⟨fun a b => le_total _ _⟩
    have : IsTrans (List ℚ × ℕ) (fun a b : List ℚ × ℕ => b.1.sum ≤ a.1.sum) := ⟨fun a b c h1 h2 => le_trans h2 h1⟩
    exact List.pairwise_insertionSort _ _
  · intro ps id
    rw [List.mem_insertionSort, List.mem_filter, List.mem_map]
    simp only [List.all_eq_true, decide_eq_true_eq]
    constructor
    · rintro ⟨⟨l, hl', e⟩, hc⟩
      cases e
      exact ⟨l.2, hl', rfl, hc⟩
    · rintro ⟨l, hl', rfl, hc⟩
      exact ⟨⟨(id, l), hl', rfl⟩, hc⟩

/-- C88: a query without a name of the tree's variables has no match. -/
theorem C88_foreign {D E : Type} (o : DistOps D E) (full : ℕ → Region) (h : Heap D) (q : List (Key Domain × UArg))
    (hq : ∀ p ∈ q, ∀ v ∈ vs, p.1 ≠ .name v.name ∧ ∀ w, p.1 = .var w → w.name ≠ v.name) (confidence : ℚ) :
    reverse o vs full h q confidence = .ok [] := by
  unfold reverse
  rw [if_pos]
  intro p hp n hn hmem
  obtain ⟨v, hv, rfl⟩ := List.mem_map.1 hmem
  obtain ⟨h1, h2⟩ := hq p hp v hv
  cases hk : p.1 with
  | var w =>
    rw [hk] at hn
    simp only [keyName, Option.mem_def, Option.some.injEq] at hn
    exact h2 w hk hn
  | name s =>
    rw [hk] at hn
    simp only [keyName, Option.mem_def, Option.some.injEq] at hn
    exact h1 (by rw [hk, hn])
  | other => rw [hk] at hn; cases hn

/-! ### An example -/

/-- The weather, the temperature and the place, on which the tree splits. -/
def exR : Learn.Args := ⟨[.symbolic 2, .symbolic 2, .symbolic 2], [0, 1], [2], .int 4, none, none, none, fun _ => false⟩

/-- Ten days: four in the first place, six in the second. -/
def exRData : Data := fun r v =>
  (([[1, 1, 0], [1, 0, 0], [1, 0, 0], [1, 0, 0], [1, 1, 1], [1, 1, 1], [1, 1, 1], [1, 0, 1], [0, 0, 1], [0, 0, 1]] :
    List (List ℚ)).getD r []).getD v 0

/-- Their domains. -/
def exRKind : ℕ → Bool × Dom Atom
  | 0 => (false, ⟨"W", [.str "sun", .str "rain"]⟩)
  | 1 => (false, ⟨"T", [.str "cold", .str "warm"]⟩)
  | _ => (false, ⟨"P", [.str "a", .str "b"]⟩)

/-- The variables. -/
abbrev exRVars : List (Var Domain) :=
  [⟨"w", .symbolic "W" [.str "sun", .str "rain"]⟩, ⟨"t", .symbolic "T" [.str "cold", .str "warm"]⟩,
    ⟨"p", .symbolic "P" [.str "a", .str "b"]⟩]

/-- The learned tree. -/
abbrev exRLearn : Except Err (Heap (DD Atom)) := learn (exR.cfg 10) exRData 10 (fitDisc exRKind exRData)

/-- Rainy days are found in both places with the confidence one half, warm ones only in the second. -/
example : ∃ h, exRLearn = .ok h ∧
    reverse (discOps Atom) exRVars (fullOf (exR.cfg 10)) h [(.name "w", .atom (.str "rain"))] (1 / 2)
      = .ok [([1, 1, 1], 1), ([2 / 3, 1, 1], 2)] ∧
    reverse (discOps Atom) exRVars (fullOf (exR.cfg 10)) h [(.name "t", .list [some (.str "warm")])] (1 / 2)
      = .ok [([1, 1 / 2, 1], 2)] ∧
    reverse (discOps Atom) exRVars (fullOf (exR.cfg 10)) h [(.name "x", .atom (.str "rain"))] (1 / 2) = .ok [] :=
  exists_ok (by decide +kernel)

/-- The theorem applies to the tree of the example of C87. -/
example {h : Heap (DD Atom)} (hl : exLearnA = .ok h) (confidence : ℚ) :
    ∃ res, reverse (discOps Atom) exVs (fullOf (exA.cfg 6)) h [(.name "w", .atom (.str "rain"))] confidence = .ok res ∧
      (res.map Prod.snd).Nodup := by
  obtain ⟨m, hm⟩ : ∃ m, preprocessQuery exVs noBlur true ⟨false, true⟩ [(.name "w", .atom (.str "rain"))] = .ok m :=
    ⟨_, rfl⟩
  have hnamed : ∀ v, Named exVs (.name "w") v → v = ⟨"w", .symbolic "W" [.str "sun", .str "rain"]⟩ := by
    rintro v (h | ⟨h, hv⟩)
    · cases h
    · simp only [List.mem_cons, List.not_mem_nil, or_false] at hv
      rcases hv with rfl | rfl
      · rfl
      · exact absurd h (by simp)
  have hone : ∀ p ∈ [((.name "w", .atom (.str "rain")) : Key Domain × UArg)], p = (.name "w", .atom (.str "rain")) := by simp
  obtain ⟨res, h1, h2, -⟩ := C88_leaves (vs := exVs) (c := exA.cfg 6) (kind := exAtoms) (data := exData) (total := 6)
    (by decide) (by
      intro v hv
      simp only [List.mem_cons, List.not_mem_nil, or_false] at hv
      rcases hv with rfl | rfl
      · exact ⟨by show List.Nodup _; decide +kernel, .inl ⟨_, _, rfl⟩⟩
      · exact ⟨trivial, .inr ⟨_, _, _, rfl⟩⟩) exAtoms_kind rfl (by
      intro i v hv
      match i, hv with
      | 0, hv => cases hv; rfl
      | 1, hv => cases hv; decide +kernel) exA_data hl
    (fun r i => (([[.str "sun", .int 1], [.str "sun", .int 1], [.str "sun", .int 2], [.str "rain", .int 3], [.str "rain", .int 3],
      [.str "rain", .int 2]] : List (List Atom)).getD r []).getD i (.int 1)) (by
      intro i v hv
      match i, hv with
      | 0, hv => cases hv; decide +kernel
      | 1, hv => cases hv; decide +kernel)
    (by intro p hp v e; rw [hone p hp] at e; cases e)
    (by
      intro p hp v hv a ha
      rw [hone p hp] at hv ha
      rw [hnamed v hv] at ha ⊢
      rw [show a = .str "rain" from ha]
      decide +kernel)
    (by intro p hp l e; rw [hone p hp] at e; cases e)
    ⟨_, List.mem_singleton.2 rfl, ⟨"w", .symbolic "W" [.str "sun", .str "rain"]⟩, .inr ⟨rfl, by simp⟩⟩ hm
    (fun i a => if i = 0 then decide (a = .str "rain") else true) (by
      intro i v hv a
      match i, hv with
      | 0, hv =>
        cases hv
        simp only [if_true, decide_eq_true_eq]
        constructor
        · rintro rfl pre k u post e - -
          have := hone (k, u) (by rw [e]; simp)
          cases this
          intro _
          rfl
        · intro h
          exact h [] _ _ [] rfl (by simp) (.inr ⟨rfl, by simp⟩) (by simp)
      | 1, hv =>
        cases hv
        simp only [one_ne_zero, if_false, true_iff]
        intro pre k u post e _ hk
        have := hone (k, u) (by rw [e]; simp)
        cases this
        have := hnamed _ hk
        exact absurd this (by decide)) confidence
  exact ⟨res, h1, h2⟩

/-- C88 is violated: the leaves are sorted by the sum of the probabilities, so that the best match need not come first: a
warm and rainy day has the probability 1/4 in the first place and 1/3 in the second. -/
theorem C88_violated_best : ∃ h, exRLearn = .ok h ∧
    reverse (discOps Atom) exRVars (fullOf (exR.cfg 10)) h
      [(.name "w", .atom (.str "rain")), (.name "t", .atom (.str "warm"))] (1 / 20)
      = .ok [([1, 1 / 4, 1], 1), ([2 / 3, 1 / 2, 1], 2)] :=
  exists_ok (by decide +kernel)

end Verif.Trees
