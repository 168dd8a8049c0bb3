import Verif.Discrete.Props2
import Verif.Discrete.Draw
import Verif.Utils.Props
import Verif.ListAux

/-!
# C112: drawing elements in proportion to weights
-/

namespace Verif.Disc

open Verif.Ut

/-- The share of element `i` of the unit interval: from the part of the total that lies before it (excluded) to this part
plus its own weight (included). -/
def Share (ws : List ℚ) (i : ℕ) (r : ℚ) : Prop :=
  i < ws.length ∧ (ws.take i).sum / ws.sum < r ∧ r ≤ (ws.take (i + 1)).sum / ws.sum

/-- Element `i` is drawn at the number `r`: `r` is in its share, or `r` is zero and `i` the first element. -/
def Drawn (ws : List ℚ) (i : ℕ) (r : ℚ) : Prop := Share ws i r ∨ (r = 0 ∧ i = 0)

theorem wheel_spin {β : Type} {pop : List β} {ws : List ℚ} (hlen : pop.length = ws.length) (h0 : ∀ w ∈ ws, 0 ≤ w)
    (hs : 0 < ws.sum) {w : Wheel β} (hw : mkWheel pop ws false = .ok w) {r : ℚ} (hr0 : 0 ≤ r) (hr1 : r < 1) :
    ∃ i e, pop[i]? = some e ∧ w.elements = pop ∧ Drawn ws i r ∧ spin w r = .ok (ws.sum * r) ∧
      w.get (ws.sum * r) = .ok e ∧ w.index (ws.sum * r) = .ok (some i) := by
  have hne : ws ≠ [] := by rintro rfl; simp at hs
  have hpe : pop ≠ [] := by
    rintro rfl
    exact hne (List.length_eq_zero_iff.1 hlen.symm)
  obtain ⟨w', i, hw', hi, e, he, hg⟩ := C26_get pop ws hlen h0 (ws.sum * r) hpe
    ⟨by positivity, by nlinarith⟩
  rw [hw] at hw'
  obtain rfl := Except.ok.inj hw'
  obtain ⟨w'', hw'', hiff⟩ := C26_index_interval pop ws hlen h0 (ws.sum * r) i
  rw [hw] at hw''
  obtain rfl := Except.ok.inj hw''
  obtain ⟨h1, h2, h3⟩ := hiff.1 hi
  have hwe : w = ⟨some (cumsumFrom 0 ws), pop⟩ := by
    simp only [mkWheel, hlen] at hw
    simpa using hw.symm
  refine ⟨i, e, he, by rw [hwe], ?_, ?_, hg, hi⟩
  · rcases h3 with h3 | ⟨h3, h4⟩
    · exact .inl ⟨h1, by rw [div_lt_iff₀ hs]; linarith, by rw [le_div_iff₀ hs]; linarith⟩
    · refine .inr ⟨?_, h3⟩
      rcases mul_eq_zero.1 h4 with h | h
      · linarith
      · exact h
  · rw [hwe]
    simp only [spin, cumsumFrom_last ws 0 hne, zero_add, sub_zero]

/-- The shares of the elements divide the unit interval: every number of `(0, 1]` is in exactly one share, the length of the
share of an element is its weight divided by the sum of the weights, and an element with weight zero has no share. -/
theorem C112_share (ws : List ℚ) (h0 : ∀ w ∈ ws, 0 ≤ w) (hs : 0 < ws.sum) :
    (∀ r, 0 < r → r ≤ 1 → ∃! i, Share ws i r) ∧
    (∀ (i : ℕ) (w : ℚ), ws[i]? = some w →
      (ws.take (i + 1)).sum / ws.sum - (ws.take i).sum / ws.sum = w / ws.sum) ∧
    (∀ (i : ℕ) (r : ℚ), Share ws i r → ∃ w, ws[i]? = some w ∧ 0 < w) := by
  refine ⟨fun r hr0 hr1 => ?_, fun i w hw => ?_, fun i r h => ?_⟩
  · obtain ⟨w, hw, h2, -⟩ := C26_index_defined ws ws rfl h0 (ws.sum * r)
    have hne : ws ≠ [] := by rintro rfl; simp at hs
    obtain ⟨i, hi, hix⟩ := h2 ⟨hne, by positivity, by nlinarith⟩
    have key : ∀ k, Share ws k r ↔ w.index (ws.sum * r) = .ok (some k) := by
      intro k
      obtain ⟨w', hw', hiff⟩ := C26_index_interval ws ws rfl h0 (ws.sum * r) k
      rw [hw] at hw'
      obtain rfl := Except.ok.inj hw'
      rw [hiff]
      have hp : 0 < ws.sum * r := by positivity
      unfold Share
      rw [div_lt_iff₀ hs, le_div_iff₀ hs, mul_comm r]
      constructor
      · rintro ⟨a, b, c⟩
        exact ⟨a, c, .inl b⟩
      · rintro ⟨a, b, c | c⟩
        · exact ⟨a, c, b⟩
        · linarith [c.2]
    refine ⟨i, (key i).2 hix, fun k hk => ?_⟩
    have := (key k).1 hk
    rw [hix] at this
    simpa using this.symm
  · rw [← sub_div, C26_interval_length ws i w hw]
  · obtain ⟨h1, h2, h3⟩ := h
    refine ⟨ws[i], by simp [h1], ?_⟩
    have h4 := C26_interval_length ws i ws[i] (by simp [h1])
    have h5 := lt_of_lt_of_le h2 h3
    rw [div_lt_div_iff_of_pos_right hs] at h5
    linarith

example : (∀ w ∈ [(1 : ℚ) / 2, 0, 3], 0 ≤ w) ∧ 0 < [(1 : ℚ) / 2, 0, 3].sum ∧ Share [1 / 2, 0, 3] 2 (1 / 2) ∧
    ¬ Share [1 / 2, 0, 3] 1 (1 / 7) ∧ Share [1 / 2, 0, 3] 0 (1 / 7) := by
  refine ⟨by decide +kernel, by decide +kernel, ?_, ?_, ?_⟩ <;> unfold Share <;> decide +kernel

/-- With weights that are not negative and not all zero, `wsample` and `wsamplei` return as many elements as wanted, none if
the number is negative.  The element at place `j` is the one whose share the `j`-th random number falls into; `wsamplei` gives
its index in addition. -/
theorem C112_wsample {β : Type} (pop : List β) (ws : List ℚ) (hlen : pop.length = ws.length) (h0 : ∀ w ∈ ws, 0 ≤ w)
    (hs : 0 < ws.sum) (k : ℤ) (u : ℕ → ℚ) (hu : ∀ j, 0 ≤ u j ∧ u j < 1) :
    ∃ out outI, wsample pop ws k u = .ok out ∧ wsampleI pop ws k u = .ok outI ∧
      out.length = k.toNat ∧ outI.length = k.toNat ∧
      ∀ j < k.toNat, ∃ i e, Drawn ws i (u j) ∧ pop[i]? = some e ∧ out[j]? = some e ∧ outI[j]? = some (e, i) := by
  obtain ⟨w, hw⟩ := (C26_construct pop ws false).2 hlen
  choose I E hE hel hD hsp hg hi using fun j => wheel_spin hlen h0 hs hw (hu j).1 (hu j).2
  refine ⟨(List.range k.toNat).map E, (List.range k.toNat).map fun j : ℕ => (E j, I j), ?_, ?_, by simp, by simp,
    fun j hj => ⟨I j, E j, hD j, hE j, by simp [hj], by simp [hj]⟩⟩
  · simp only [wsample, hw, bind, Except.bind, wheelSample]
    split
    · rename_i hk
      simp [hk]
    · rw [mapM_ok_iff]
      simp only [List.forall₂_map_right_iff, List.forall₂_same]
      intro j _
      simp only [hsp j, hg j]
  · have h1 : (List.range k.toNat).mapM (fun j : ℕ => do
        let x ← spin w (u j)
        w.index x) = .ok ((List.range k.toNat).map fun j : ℕ => some (I j)) := by
      rw [mapM_ok_iff]
      simp only [List.forall₂_map_right_iff, List.forall₂_same]
      intro j _
      simp only [hsp j, hi j, bind, Except.bind]
    rw [wsampleI, hw]
    change ((List.range k.toNat).mapM (fun j : ℕ => do
        let x ← spin w (u j)
        w.index x) >>= _) = _
    rw [h1]
    change List.mapM _ _ = _
    rw [mapM_ok_iff, List.forall₂_map_left_iff, List.forall₂_map_right_iff, List.forall₂_same]
    intro j _
    simp only [hel j, hE j]

example : wsample ['a', 'b', 'c'] [1 / 2, 0, 3] 3 (fun j => j / 4) = .ok ['a', 'c', 'c'] ∧
    wsampleI ['a', 'b', 'c'] [1 / 2, 0, 3] 3 (fun j => j / 4) = .ok [('a', 0), ('c', 2), ('c', 2)] ∧
    wsample ['a'] [1] (-2) (fun _ => 0) = .ok [] := by decide +kernel

/-- The errors: `ValueError` if there are not as many weights as elements; without elements an `IndexError` if at least one is
wanted, and the empty list otherwise. -/
theorem C112_errors {β : Type} (pop : List β) (ws : List ℚ) (k : ℤ) (u : ℕ → ℚ) :
    (pop.length ≠ ws.length → wsample pop ws k u = .error .valueError ∧ wsampleI pop ws k u = .error .valueError) ∧
    wsample ([] : List β) [] k u = (if 0 < k then .error .indexError else .ok []) ∧
    wsampleI ([] : List β) [] k u = (if 0 < k then .error .indexError else .ok []) := by
  refine ⟨fun h => ?_, ?_, ?_⟩
  · simp [wsample, wsampleI, mkWheel, h, bind, Except.bind]
  · simp only [wsample, mkWheel, bind, Except.bind, wheelSample, cumsumFrom]
    by_cases hk : 0 < k
    · obtain ⟨n, rfl⟩ : ∃ n : ℕ, k = n + 1 := ⟨(k - 1).toNat, by omega⟩
      rw [if_pos hk]
      simp only [List.length_nil, ne_eq, not_true_eq_false, if_false, Bool.false_eq_true, if_neg (by omega : ¬ ((n : ℤ) + 1 = 0))]
      rw [show ((n : ℤ) + 1).toNat = n + 1 by omega, List.range_succ_eq_map, List.mapM_cons]
      simp [spin, bind, Except.bind]
    · rw [if_neg hk, show k.toNat = 0 by omega]
      simp [pure, Except.pure]
  · simp only [wsampleI, mkWheel, bind, Except.bind, wheelSampleI, cumsumFrom]
    by_cases hk : 0 < k
    · obtain ⟨n, rfl⟩ : ∃ n : ℕ, k = n + 1 := ⟨(k - 1).toNat, by omega⟩
      rw [if_pos hk]
      simp only [List.length_nil, ne_eq, not_true_eq_false, if_false, Bool.false_eq_true]
      rw [show ((n : ℤ) + 1).toNat = n + 1 by omega, List.range_succ_eq_map, List.mapM_cons]
      simp [spin, bind, Except.bind]
    · rw [if_neg hk, show k.toNat = 0 by omega]
      simp [pure, Except.pure]

example : wsample ['a'] [1, 2] 1 (fun _ => 0) = .error .valueError ∧
    wsample ([] : List ℕ) [] 1 (fun _ => 0) = .error .indexError := by decide +kernel

/-- `wchoice`, `wchoicei` and `wchoiced` return the element whose share the random number falls into. -/
theorem C112_choice {β : Type} (pop : List β) (ws : List ℚ) (hlen : pop.length = ws.length) (h0 : ∀ w ∈ ws, 0 ≤ w)
    (hs : 0 < ws.sum) (u : ℕ → ℚ) (hu : ∀ j, 0 ≤ u j ∧ u j < 1) :
    ∃ i e, Drawn ws i (u 0) ∧ pop[i]? = some e ∧ wchoice pop ws u = .ok (some e) ∧
      wchoiceI pop ws u = .ok (some (e, i)) ∧ wchoiceD (pop.zip ws) u = .ok (some e) := by
  obtain ⟨out, outI, h1, h2, h3, h4, h5⟩ := C112_wsample pop ws hlen h0 hs 1 u hu
  obtain ⟨i, e, h6, h7, h8, h9⟩ := h5 0 (by decide)
  have hc : wchoice pop ws u = .ok (some e) := by
    simp only [wchoice, h1, bind, Except.bind, pure, Except.pure, List.head?_eq_getElem?, h8]
  refine ⟨i, e, h6, h7, hc, ?_, ?_⟩
  · simp only [wchoiceI, h2, bind, Except.bind, pure, Except.pure, List.head?_eq_getElem?, h9]
  · rw [wchoiceD, List.map_fst_zip (by omega), List.map_snd_zip (by omega), hc]

example : wchoiceD [('a', 1 / 2), ('b', 0), ('c', 3)] (fun _ => 1 / 2) = .ok (some 'c') ∧
    wchoice ['a', 'b', 'c'] [1 / 2, 0, 3] (fun _ => 1 / 8) = .ok (some 'a') := by decide +kernel

/-- What is proved of "only elements with a positive weight are drawn": it holds for all random numbers but zero.  Missing is
the number zero, see `C112_violated_zero`. -/
theorem C112_positive_partial {β : Type} (pop : List β) (ws : List ℚ) (hlen : pop.length = ws.length)
    (h0 : ∀ w ∈ ws, 0 ≤ w) (hs : 0 < ws.sum) (k : ℤ) (u : ℕ → ℚ) (hu : ∀ j, 0 < u j ∧ u j < 1) :
    ∃ outI, wsampleI pop ws k u = .ok outI ∧
      ∀ p ∈ outI, pop[p.2]? = some p.1 ∧ ∃ w, ws[p.2]? = some w ∧ 0 < w := by
  obtain ⟨out, outI, -, h2, -, h4, h5⟩ := C112_wsample pop ws hlen h0 hs k u (fun j => ⟨(hu j).1.le, (hu j).2⟩)
  refine ⟨outI, h2, fun p hp => ?_⟩
  obtain ⟨j, hj, rfl⟩ := List.mem_iff_getElem.1 hp
  obtain ⟨i, e, h6, h7, -, h9⟩ := h5 j (by omega)
  rw [List.getElem?_eq_getElem hj, Option.some.injEq] at h9
  rw [h9]
  refine ⟨h7, (C112_share ws h0 hs).2.2 i (u j) (h6.resolve_right fun h => ?_)⟩
  linarith [(hu j).1, h.1]

/-- Disagreement: an element with weight zero can be drawn: the first one if the random number is zero.  If all weights are
zero, the first element is always drawn, although no weight allows it. -/
theorem C112_violated_zero :
    ∃ (pop : List Char) (ws : List ℚ), (∀ w ∈ ws, 0 ≤ w) ∧ 0 < ws.sum ∧ ws[0]? = some 0 ∧
      (∃ u : ℕ → ℚ, (∀ j, 0 ≤ u j ∧ u j < 1) ∧ wsampleI pop ws 1 u = .ok [('a', 0)]) ∧
      ∀ u : ℕ → ℚ, wsampleI pop [0, 0] 1 u = .ok [('a', 0)] := by
  refine ⟨['a', 'b'], [0, 1], by decide +kernel, by decide +kernel, rfl, ⟨fun _ => 0, fun _ => by norm_num, by decide +kernel⟩,
    fun u => ?_⟩
  simp [wsampleI, wheelSampleI, mkWheel, cumsumFrom, spin, Wheel.index, firstBound, bind, Except.bind, pure, Except.pure,
    List.range_succ]

/-- Disagreement: `wchoicei` is documented to return the index of the chosen element; it returns a pair of the element and
its index, so the answer is never an index alone. -/
theorem C112_violated_index : ∃ (pop : List ℕ) (ws : List ℚ) (u : ℕ → ℚ), (∀ j, 0 ≤ u j ∧ u j < 1) ∧
    wchoiceI pop ws u = .ok (some (20, 1)) :=
  ⟨[10, 20], [1, 3], fun _ => 1 / 2, fun _ => by norm_num, by decide +kernel⟩

section
variable {L : Type} [DecidableEq L]

/-- `sample(n)` of a symbolic or integer distribution returns `n` labels.  The label at place `j` is the one whose share the
`j`-th random number falls into, and the length of the share of a label is its probability.  `sample_one` returns what
`sample(1)` returns. -/
theorem C112_distribution (d : Dist L) (hd : d.Proper) (n : ℤ) (u : ℕ → ℚ) (hu : ∀ j, 0 ≤ u j ∧ u j < 1) :
    (∃ out : List L, d.sampleN n u = .ok (out.map .atom) ∧ out.length = n.toNat ∧
      ∀ j < n.toNat, ∃ i l, Drawn d.params i (u j) ∧ d.dom.labels[i]? = some l ∧ out[j]? = some l) ∧
    (∃ i l, Drawn d.params i (u 0) ∧ d.dom.labels[i]? = some l ∧ d.sampleOne u = .ok (.atom l)) ∧
    ∀ i l, d.dom.labels[i]? = some l →
      d.p (.atom l) = .ok ((d.params.take (i + 1)).sum / d.params.sum - (d.params.take i).sum / d.params.sum) := by
  obtain ⟨hn, hl, hp, h1⟩ := hd
  have hlen : d.dom.valueList.length = d.params.length := by simp [Dom.valueList, hl]
  have hs : 0 < d.params.sum := by rw [h1]; norm_num
  have hval : ∀ (i : ℕ) (e : ℤ), d.dom.valueList[i]? = some e → ∃ l, d.dom.labels[i]? = some l ∧
      d.dom.value2label (.atom e) = .ok (.atom l) := by
    intro i e h
    have hi : i < d.dom.labels.length := by
      have := (List.getElem?_eq_some_iff.1 h).1
      simpa [Dom.valueList] using this
    simp only [Dom.valueList, List.getElem?_map, List.getElem?_range hi, Option.map_some, Option.some.injEq] at h
    subst h
    refine ⟨d.dom.labels[i], by simp [hi], ?_⟩
    simp only [Dom.value2label, convert, Dom.labelOf]
    rw [if_pos (by omega), Int.toNat_natCast, List.getElem?_eq_getElem hi]
  refine ⟨?_, ?_, fun i l hil => ?_⟩
  · obtain ⟨vs, _, h2, -, h3, -, h4⟩ := C112_wsample d.dom.valueList d.params hlen hp hs n u hu
    have h5 : ∀ j : Fin n.toNat, ∃ i l, Drawn d.params i (u j) ∧ d.dom.labels[i]? = some l ∧
        ∃ e, vs[(j : ℕ)]? = some e ∧ d.dom.value2label (.atom e) = .ok (.atom l) := by
      intro j
      obtain ⟨i, e, a, b, c, -⟩ := h4 j j.2
      obtain ⟨l, hl1, hl2⟩ := hval i e b
      exact ⟨i, l, a, hl1, e, c, hl2⟩
    choose I A hD hA E hE hv using h5
    refine ⟨List.ofFn A, ?_, by simp, fun j hj => ⟨I ⟨j, hj⟩, A ⟨j, hj⟩, hD ⟨j, hj⟩, hA ⟨j, hj⟩, by simp [hj]⟩⟩
    simp only [Dist.sampleN, h2, bind, Except.bind]
    rw [mapM_ok_iff, List.forall₂_iff_get]
    refine ⟨by simp [h3], fun j hj1 hj2 => ?_⟩
    have hj : j < n.toNat := by omega
    have := hE ⟨j, hj⟩
    rw [List.getElem?_eq_getElem hj1, Option.some.injEq] at this
    simp only [List.get_eq_getElem, this, List.getElem_map, List.getElem_ofFn]
    exact hv ⟨j, hj⟩
  · obtain ⟨i, e, a, b, c, -⟩ := C112_choice d.dom.valueList d.params hlen hp hs u hu
    obtain ⟨l, hl1, hl2⟩ := hval i e b
    refine ⟨i, l, a, hl1, ?_⟩
    simp only [Dist.sampleOne, c, bind, Except.bind, hl2]
  · have hi := (List.getElem?_eq_some_iff.1 hil).1
    have hpi : d.params[i]? = some (d.params[i]'(by omega)) := by simp [hl, hi]
    rw [(C112_share d.params hp hs).2.1 i _ hpi, h1, div_one, p_eq d hn hl,
      if_pos (by simpa [Arg.elems] using List.mem_of_getElem? hil)]
    refine congrArg _ (mass_atom hn (List.mem_iff_getElem?.2 ⟨i, ?_⟩))
    rw [List.getElem?_zip_eq_some]
    exact ⟨hpi, hil⟩

end

example : exD.sampleN 4 (fun j => (j + 1) / 5) = .ok [.atom 10, .atom 10, .atom 20, .atom 40] ∧
    exD.sampleOne (fun _ => 3 / 5) = .ok (.atom 20) := by decide +kernel

end Verif.Disc
