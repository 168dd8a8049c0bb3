import Verif.Discrete.Props
import Verif.Discrete.Listing

/-!
# C111: listing and changing symbolic and integer distributions
-/

namespace Verif.Disc

variable {L : Type} [DecidableEq L]

theorem mass_atom : ∀ {ls : List L} {ps : List ℚ} {p : ℚ} {l : L}, ls.Nodup → (p, l) ∈ ps.zip ls →
    mass ls ps (fun k => k ∈ [l]) = p
  | [], _, _, _, _, h => by simp at h
  | _ :: _, [], _, _, _, h => by simp at h
  | k :: ls, q :: ps, p, l, hn, h => by
    rw [List.nodup_cons] at hn
    rw [List.zip_cons_cons, List.mem_cons] at h
    unfold mass
    rw [List.zipWith_cons_cons, List.sum_cons]
    rcases h with h | h
    · injection h with h1 h2
      subst h1 h2
      have : ∀ (ls : List L) (ps : List ℚ), l ∉ ls →
          (List.zipWith (fun k p => if k ∈ [l] then p else 0) ls ps).sum = 0 := by
        intro ls
        induction ls with
        | nil => intro ps _; simp
        | cons a ls ih =>
          intro ps ha
          cases ps with
          | nil => simp
          | cons b ps =>
            rw [List.zipWith_cons_cons, List.sum_cons, ih ps (fun hc => ha (by simp [hc])),
              if_neg (by simp only [List.mem_singleton]; exact fun hc => ha (by simp [hc]))]
            simp
      rw [this ls ps hn.1]
      simp
    · have hl : l ∈ ls := (List.of_mem_zip h).2
      rw [if_neg (by simp only [List.mem_singleton]; rintro rfl; exact hn.1 hl), zero_add]
      exact mass_atom hn.2 h

theorem getItem_eq {d : Dist L} (hn : d.dom.labels.Nodup) (hl : d.params.length = d.dom.labels.length) {p : ℚ} {l : L}
    (h : (p, l) ∈ d.items) : d.getItem l = .ok p := by
  unfold Dist.getItem
  rw [p_eq d hn hl, if_pos (by simpa [Arg.elems] using (List.of_mem_zip h).2)]
  exact congrArg _ (mass_atom hn h)

omit [DecidableEq L] in
theorem mass_items : ∀ (ls : List L) (ps : List ℚ) (S : L → Prop) [DecidablePred S],
    mass ls ps S = (((ps.zip ls).filter (fun q => decide (S q.2))).map Prod.fst).sum
  | [], _, _, _ => by simp [mass]
  | _ :: _, [], _, _ => by simp [mass]
  | l :: ls, p :: ps, S, _ => by
    have ih := mass_items ls ps S
    unfold mass at ih ⊢
    rw [List.zipWith_cons_cons, List.sum_cons, ih, List.zip_cons_cons, List.filter_cons]
    by_cases h : S l <;> simp [h]

/-- `items` lists every label of the domain once, in order, each with the probability that indexing returns for it.  The
probability of every event is the sum over the listed labels in it.  For symbolic and integer distributions. -/
theorem C111_items (d : Dist L) (hd : d.Proper) :
    d.items.map Prod.snd = d.dom.labels ∧ (∀ q ∈ d.items, d.getItem q.2 = .ok q.1) ∧
    (∀ (S : L → Prop) [DecidablePred S], d.P S = ((d.items.filter (fun q => decide (S q.2))).map Prod.fst).sum) ∧
    d.intItems = .ok (d.items.map (fun q => (q.1, .atom q.2))) := by
  refine ⟨?_, fun q hq => getItem_eq hd.1 hd.2.1 hq, fun S _ => mass_items _ _ S, ?_⟩
  · exact List.map_snd_zip (by rw [hd.2.1])
  · unfold Dist.intItems
    rw [mapM_ok_iff]
    unfold Dist.itemsVal Dist.items
    rw [List.forall₂_iff_get]
    refine ⟨by simp, fun i h1 h2 => ?_⟩
    have hi : i < d.dom.labels.length := by simp at h1; omega
    simp [Dom.value2label, convert, Dom.labelOf, List.getElem?_eq_getElem hi, bind, Except.bind, pure, Except.pure]

example : exD.Proper ∧ exD.items = [(1/2, 10), (1/4, 20), (0, 30), (1/4, 40)] := ⟨exD_proper, by decide +kernel⟩

omit [DecidableEq L] in
/-- `sorted` lists the same pairs as `items`, with falling probabilities; labels with the same probability stay in the order
of the domain. -/
theorem C111_sorted (d : Dist L) :
    d.sorted.Perm d.items ∧ d.sorted.Pairwise (fun a b => b.1 ≤ a.1) ∧
    ∀ p : ℚ, d.sorted.filter (fun q => decide (q.1 = p)) = d.items.filter (fun q => decide (q.1 = p)) := by
  have ht : Std.Total (fun a b : ℚ × L => b.1 ≤ a.1) := ⟨fun a b => le_total _ _⟩
  have htr : IsTrans (ℚ × L) (fun a b : ℚ × L => b.1 ≤ a.1) := ⟨fun a b c h1 h2 => le_trans h2 h1⟩
  have hperm : d.sorted.Perm d.items := List.perm_insertionSort _ _
  refine ⟨hperm, List.pairwise_insertionSort _ _, fun p => ?_⟩
  have hsub : (d.items.filter (fun q => decide (q.1 = p))).Sublist d.sorted := by
    apply List.sublist_insertionSort
    · rw [List.pairwise_iff_forall_sublist]
      intro a b hab
      have ha : a ∈ d.items.filter (fun q => decide (q.1 = p)) := hab.subset (by simp)
      have hb : b ∈ d.items.filter (fun q => decide (q.1 = p)) := hab.subset (by simp)
      simp only [List.mem_filter, decide_eq_true_eq] at ha hb
      rw [ha.2, hb.2]
    · exact List.filter_sublist
  have h2 := hsub.filter (fun q => decide (q.1 = p))
  rw [List.filter_filter] at h2
  simp only [Bool.and_self] at h2
  exact (h2.eq_of_length (hperm.filter _).length_eq.symm).symm

example : exD.sorted = [(1/2, 10), (1/4, 20), (1/4, 40), (0, 30)] := by decide +kernel

omit [DecidableEq L] in
theorem zip_set : ∀ {ps : List ℚ} {ls : List L} {i : ℕ} {l : L} {x : ℚ}, ls.Nodup → ps.length = ls.length →
    ls[i]? = some l → ∀ p k, (p, k) ∈ (ps.set i x).zip ls ↔ (k = l ∧ p = x) ∨ (k ≠ l ∧ (p, k) ∈ ps.zip ls)
  | _, [], _, _, _, _, _, h => by simp at h
  | [], _ :: _, _, _, _, _, h, _ => by simp at h
  | q :: ps, m :: ls, 0, l, x, hn, _, h => by
    intro p k
    simp only [List.getElem?_cons_zero, Option.some.injEq] at h
    subst h
    rw [List.nodup_cons] at hn
    simp only [List.set_cons_zero, List.zip_cons_cons, List.mem_cons, Prod.mk.injEq]
    constructor
    · rintro (⟨rfl, rfl⟩ | h)
      · exact .inl ⟨rfl, rfl⟩
      · refine .inr ⟨?_, .inr h⟩
        rintro rfl
        exact hn.1 (List.of_mem_zip h).2
    · rintro (⟨rfl, rfl⟩ | ⟨h1, ⟨-, h2⟩ | h2⟩)
      · exact .inl ⟨rfl, rfl⟩
      · exact absurd h2 h1
      · exact .inr h2
  | q :: ps, m :: ls, i + 1, l, x, hn, hlen, h => by
    intro p k
    rw [List.nodup_cons] at hn
    simp only [List.getElem?_cons_succ] at h
    have ih := zip_set (ps := ps) (x := x) hn.2 (by simpa using hlen) h p k
    have hml : m ≠ l := by
      rintro rfl
      exact hn.1 (List.mem_of_getElem? h)
    simp only [List.set_cons_succ, List.zip_cons_cons, List.mem_cons, Prod.mk.injEq, ih]
    constructor
    · rintro (⟨rfl, rfl⟩ | h | ⟨h1, h2⟩)
      · exact .inr ⟨hml, .inl ⟨rfl, rfl⟩⟩
      · exact .inl h
      · exact .inr ⟨h1, .inr h2⟩
    · rintro (h | ⟨h1, h2 | h2⟩)
      · exact .inr (.inl h)
      · exact .inl h2
      · exact .inr (.inr ⟨h1, h2⟩)

/-- Assigning a number to a label gives the label this probability and keeps the probabilities of the other labels; the sum
of the probabilities stays one only if the number is the old probability.  A label outside of the domain raises
`KeyError`. -/
theorem C111_assign (d : Dist L) (hd : d.Proper) (l : L) (x : ℚ) :
    (l ∈ d.dom.labels → ∃ d' p, d.setItem l (.inl x) = .ok d' ∧ d.getItem l = .ok p ∧ d'.dom = d.dom ∧
      d'.getItem l = .ok x ∧ (∀ k ∈ d.dom.labels, k ≠ l → d'.getItem k = d.getItem k) ∧ d'.params.sum = 1 - p + x) ∧
    (l ∉ d.dom.labels → d.setItem l (.inl x) = .error .keyError) := by
  constructor
  · intro hl
    obtain ⟨i, hi⟩ : ∃ i, d.dom.labels.idxOf? l = some i :=
      Option.isSome_iff_exists.1 (by rw [List.isSome_idxOf?]; exact hl)
    have hget : d.dom.labels[i]? = some l := by
      rw [List.idxOf?, List.findIdx?_eq_some_iff_getElem] at hi
      obtain ⟨h1, h2, -⟩ := hi
      rw [List.getElem?_eq_getElem h1]
      simpa using h2
    obtain ⟨hlt, -⟩ := List.getElem?_eq_some_iff.1 hget
    have hlt' : i < d.params.length := by rw [hd.2.1]; exact hlt
    have hz := zip_set (ps := d.params) (x := x) hd.1 hd.2.1 hget
    have hold : (d.params[i], l) ∈ d.items := by
      apply List.mem_of_getElem? (i := i)
      rw [Dist.items, List.getElem?_zip_eq_some]
      exact ⟨List.getElem?_eq_getElem hlt', hget⟩
    refine ⟨⟨d.dom, d.params.set i x⟩, d.params[i], ?_, getItem_eq hd.1 hd.2.1 hold, rfl, ?_, ?_, ?_⟩
    · simp only [Dist.setItem, hi, npSet, if_pos hlt', bind, Except.bind, pure, Except.pure]
    · exact getItem_eq (d := ⟨d.dom, d.params.set i x⟩) hd.1 (by simpa using hd.2.1) ((hz x l).2 (.inl ⟨rfl, rfl⟩))
    · intro k hk hkl
      obtain ⟨j, hj, rfl⟩ := List.getElem_of_mem hk
      have hj' : j < d.params.length := by rw [hd.2.1]; exact hj
      have hm : (d.params[j], d.dom.labels[j]) ∈ d.items := by
        apply List.mem_of_getElem? (i := j)
        rw [Dist.items, List.getElem?_zip_eq_some]
        exact ⟨List.getElem?_eq_getElem hj', List.getElem?_eq_getElem hj⟩
      rw [getItem_eq hd.1 hd.2.1 hm]
      exact getItem_eq (d := ⟨d.dom, d.params.set i x⟩) hd.1 (by simpa using hd.2.1) ((hz _ _).2 (.inr ⟨hkl, hm⟩))
    · have := List.sum_set' d.params i x
      simp only [hlt', dif_pos] at this
      rw [this, hd.2.2.2]
      ring
  · intro hl
    have : d.dom.labels.idxOf? l = none := by
      exact List.idxOf?_eq_none_iff.2 hl
    simp only [Dist.setItem, this]

example : 20 ∈ exD.dom.labels ∧ exD.setItem 20 (.inl (1/8)) = .ok ⟨exD.dom, [1/2, 1/8, 0, 1/4]⟩ ∧
    exD.setItem 25 (.inl (1/8)) = .error .keyError := by decide +kernel

/-- Setting a boolean distribution to a number makes this the probability of `True`. -/
theorem C111_bool_set (p : ℚ) : ∃ d, boolSet p = .ok d ∧ d.getItem true = .ok p ∧ d.getItem false = .ok (1 - p) ∧
    (0 ≤ p → p ≤ 1 → d.Proper) := by
  refine ⟨⟨boolDom, [1 - p, p]⟩, by simp [boolSet, Dist.mk?, boolDom], ?_, ?_, ?_⟩
  · exact getItem_eq (d := ⟨boolDom, [1 - p, p]⟩) (by simp [boolDom]) (by simp [boolDom]) (by simp [Dist.items, boolDom])
  · exact getItem_eq (d := ⟨boolDom, [1 - p, p]⟩) (by simp [boolDom]) (by simp [boolDom]) (by simp [Dist.items, boolDom])
  · intro h0 h1
    refine ⟨by simp [boolDom], by simp [boolDom], ?_, by simp⟩
    intro q hq
    simp only [List.mem_cons, List.not_mem_nil, or_false] at hq
    rcases hq with rfl | rfl <;> linarith

example : boolSet (1/4) = .ok ⟨boolDom, [3/4, 1/4]⟩ := by decide +kernel

/-- Disagreement: a number cannot be assigned to a value of a boolean distribution; `d[v] = p` raises `ValueError` for every
fitted distribution, value and number, because an array of two numbers is assigned to one entry. -/
theorem C111_violated_bool (d : Dist Bool) (hdom : d.dom = boolDom) (hlen : d.params.length = 2) (v : Bool) (p : ℚ) :
    boolSetItem d v p = .error .valueError := by
  have hi : ∃ i, i < 2 ∧ d.dom.labels.idxOf? v = some i := by
    rw [hdom]
    cases v
    · exact ⟨0, by decide, by decide⟩
    · exact ⟨1, by decide, by decide⟩
  obtain ⟨i, h1, h2⟩ := hi
  simp only [boolSetItem, Dist.setItem, h2, npSet, hlen, if_pos h1, bind, Except.bind]

example : ∃ d, boolSet (1/4) = .ok d ∧ boolSetItem d true (1/2) = .error .valueError :=
  ⟨⟨boolDom, [3/4, 1/4]⟩, by decide +kernel, by decide +kernel⟩

omit [DecidableEq L] in
/-- A fitted distribution prints every label with its probability. -/
theorem C111_str_partial (d : Dist L) : describe d.dom (some d.params) = .ok (some (d.items.map Prod.swap)) := by
  simp only [describe, Dist.items, Except.ok.injEq, Option.some.injEq]
  exact (List.zip_swap _ _).symm

example : describe exD.dom (some exD.params) = .ok (some [(10, 1/2), (20, 1/4), (30, 0), (40, 1/4)]) := by decide +kernel

omit [DecidableEq L] in
/-- Disagreement: printing a symbolic or integer distribution that has not been fitted raises `TypeError` instead of printing
`n/a`: the code tests the method `_p` instead of the parameters. -/
theorem C111_violated_str (dom : Dom L) : describe dom none ≠ .ok none := by simp [describe]

end Verif.Disc
