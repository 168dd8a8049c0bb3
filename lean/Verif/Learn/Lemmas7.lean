import Verif.Learn.Lemmas6

/-!
# The invariant holds throughout
-/

namespace Verif.Learn

open Trees

variable {D : Type}

/-- The other items of the queue after a step. -/
theorem ItemOK.keep {c : Cfg} {data : Data} {total : ℕ} {h h' : Heap D} {idx r : List ℕ}
    {it o : Item} {ni : Option Inner} {nl : Option (Leaf D)}
    (ha : Added h h' it (h.inner.length + h.leaves.length) ni nl) (hf : Fresh h)
    (hlen : idx.length = total) (hseg : it.start < it.stop ∧ it.stop ≤ total)
    (hr : r.length = it.stop - it.start)
    (ho : ItemOK c data total h idx o) (hp : o.parent ≠ none) (hd : DiffSlot it o)
    (hdis : it.stop ≤ o.start ∨ o.stop ≤ it.start) :
    ItemOK c data total h' (replace idx r it.start it.stop) o := by
  have hpath := ha.itemPath_eq hf ho.slot
  refine ⟨ho.seg, ha.slotFree hf ho.slot hp hd, ?_, ?_, ho.limit, ho.enough, ?_, ?_⟩
  · rw [slice_replace_other (by omega) (by omega) hr (by tauto), hpath]
    exact ho.sat
  · rw [hpath]
    exact ho.depth
  · rw [hpath]
    exact ho.regions
  · rw [slice_replace_other (by omega) (by omega) hr (by tauto), hpath]
    exact ho.cut

theorem Added.leaves_path {h h' : Heap D} {it : Item} {id : ℕ} {ni : Option Inner}
    {l : Leaf D} (ha : Added h h' it id ni (some l)) : h'.leaves = h.leaves ++ [(id, l)] := by
  rw [ha.leaves]
  rfl

theorem Added.leaves_same {h h' : Heap D} {it : Item} {id : ℕ} {ni : Option Inner}
    (ha : Added h h' it id ni none) : h'.leaves = h.leaves := by
  rw [ha.leaves]
  simp

/-- A step that makes a leaf. -/
theorem LInv.stepLeaf {c : Cfg} {data : Data} {total : ℕ} {fit : List ℕ → ℕ → D} {h h' : Heap D}
    {idx r : List ℕ} {it : Item} {q : List Item} (hI : LInv c data total fit ⟨h, idx, it :: q⟩)
    (hr : r.Perm (slice idx it.start it.stop))
    (hstop : Respects c → (∀ v ∈ c.features, ∀ t ∈ c.numT ++ c.symT, t ∈ c.deps v) →
      (∃ m, c.maxDepth = some m ∧ m ≤ it.depth) ∨
      ∀ v L R, Division c data v r L R → c.minSamples ≤ (L.length : ℚ) →
        c.minSamples ≤ (R.length : ℚ) → improvement c data v r L R < c.minImp)
    (ha : Added h h' it (h.inner.length + h.leaves.length) none
      (some ⟨it.parent, itemPath h it, (List.range c.vars.length).map (fit r),
        ((it.stop - it.start : ℕ) : ℚ) / (total : ℚ), it.stop - it.start, r⟩)) :
    LInv c data total fit ⟨h', replace idx r it.start it.stop, q⟩ := by
  have hit := hI.item it (by simp)
  have hseg : it.start < it.stop ∧ it.stop ≤ total := hit.seg
  have hlen : idx.length = total := hI.len
  have hrl : r.length = it.stop - it.start := by
    rw [hr.length_eq, slice_length (by rw [hlen]; exact hit.seg.2)]
  have hdis := List.pairwise_cons.1 hI.disj
  have hslot := List.pairwise_cons.1 hI.slots
  have hpn := parent_ne_none hI
  have hf : Fresh h := hI.fresh
  have hlv := ha.leaves_path
  constructor
  · show (replace idx r it.start it.stop).length = total
    rw [replace_length (by omega) (by omega) hrl, hlen]
  · exact ha.fresh hf
  · refine ha.shape hf hit.slot ⟨.inr ⟨_, rfl⟩, ?_, ?_⟩ hI.shape
    · intro n hn
      cases hn
    · intro l hl
      cases hl
      exact ⟨rfl, rfl⟩
  · intro e he
    rw [hlv] at he
    rcases List.mem_append.1 he with he | he
    · exact hI.leaf e he
    · rw [List.mem_singleton.1 he]
      refine ⟨hrl.symm, by rw [hrl], rfl, ?_, ?_, ?_, ?_, hit.regions,
        hit.cut.mono (fun x hx => hr.mem_iff.1 hx), ?_⟩
      · intro hnil
        simp only at hnil
        rw [hnil] at hrl
        simp at hrl
        omega
      · intro x hx
        exact hit.sat x (hr.mem_iff.1 hx)
      · intro m hm
        rw [← hit.depth]
        exact hit.limit m hm
      · intro hresp
        simp only [hrl]
        exact hit.enough hresp
      · simp only [← hit.depth]
        exact hstop
  · intro o ho
    exact (hI.item o (by simp [ho])).keep ha hf hlen hit.seg hrl (hpn o ho) (hslot.1 o ho)
      (hdis.1 o ho)
  · exact hdis.2
  · exact hslot.2
  · have hrows := hI.rows
    simp only [List.flatMap_cons] at hrows
    simp only [hlv, List.flatMap_append, List.flatMap_cons, List.flatMap_nil, List.append_nil]
    rw [slices_eq (by omega) (by omega) hrl (fun o ho => hdis.1 o ho)]
    exact perm_step hrows hr
  · intro x hx
    have hc := hI.cover x hx
    simp only [List.map_cons, List.countP_append, List.countP_cons] at hc
    simp only [hlv, List.map_append, List.map_cons, List.map_nil, List.countP_append,
      List.countP_cons, List.countP_nil]
    have : q.map (itemPath h') = q.map (itemPath h) :=
      List.map_congr_left (fun o ho => ha.itemPath_eq hf (hI.item o (by simp [ho])).slot)
    rw [this]
    omega
  · intro k n hk
    simp only at hk
    rw [ha.inner_lookup] at hk
    by_cases he : k = h.inner.length + h.leaves.length
    · rw [if_pos he] at hk
      cases hk
    · rw [if_neg he] at hk
      by_cases hp : it.parent = some k
      · rw [if_pos hp] at hk
        obtain ⟨m, hm, rfl⟩ := Option.map_eq_some_iff.1 hk
        exact hI.regions k m hm
      · rw [if_neg hp] at hk
        exact hI.regions k n hk
  · intro k n i hk hc
    simp only at hk
    rw [ha.inner_lookup] at hk
    by_cases he : k = h.inner.length + h.leaves.length
    · rw [if_pos he] at hk
      cases hk
    · rw [if_neg he] at hk
      by_cases hp : it.parent = some k
      · rw [if_pos hp] at hk
        obtain ⟨m, hm, rfl⟩ := Option.map_eq_some_iff.1 hk
        have hi : it.child ≠ i := by
          rintro rfl
          unfold Inner.setChild at hc
          simp only at hc
          rw [List.getElem?_set] at hc
          simp at hc
        simp only [Inner.setChild, List.getElem?_set_ne hi] at hc
        obtain ⟨o, ho, h1, h2⟩ := hI.complete k m i hm hc
        rcases List.mem_cons.1 ho with rfl | ho
        · exact absurd h2 hi
        · exact ⟨o, ho, h1, h2⟩
      · rw [if_neg hp] at hk
        obtain ⟨o, ho, h1, h2⟩ := hI.complete k n i hk hc
        rcases List.mem_cons.1 ho with rfl | ho
        · exact absurd h1 hp
        · exact ⟨o, ho, h1, h2⟩
  · intro o ho hp
    exact absurd hp (hpn o ho)
  · intro k n hk
    simp only at hk
    rw [ha.inner_lookup] at hk
    by_cases he : k = h.inner.length + h.leaves.length
    · rw [if_pos he] at hk
      cases hk
    · rw [if_neg he] at hk
      by_cases hp : it.parent = some k
      · rw [if_pos hp] at hk
        obtain ⟨m, hm, rfl⟩ := Option.map_eq_some_iff.1 hk
        simp only [Inner.setChild, List.length_set]
        exact hI.binary k m hm
      · rw [if_neg hp] at hk
        exact hI.binary k n hk

/-- A step that makes a decision node. -/
theorem LInv.stepInner {c : Cfg} {data : Data} {total : ℕ} {fit : List ℕ → ℕ → D} {h h' : Heap D}
    {idx r : List ℕ} {it i1 i2 : Item} {q : List Item} {v p : ℕ} {A B : Region} {ni : Inner}
    (hI : LInv c data total fit ⟨h, idx, it :: q⟩)
    (hF : Found c data (slice idx it.start it.stop) r v p) (hS : SplitOK c data r v p A B)
    (hd : depthOK c it.depth = true)
    (hni : ni = ⟨v, [A, B], [none, none], it.parent, it.stop - it.start, itemPath h it⟩)
    (hi1 : i1 = ⟨it.start, it.start + p + 1, some (h.inner.length + h.leaves.length), 0, it.depth + 1⟩)
    (hi2 : i2 = ⟨it.start + p + 1, it.stop, some (h.inner.length + h.leaves.length), 1, it.depth + 1⟩)
    (ha : Added h h' it (h.inner.length + h.leaves.length) (some ni) none) :
    LInv c data total fit ⟨h', replace idx r it.start it.stop, q ++ [i1, i2]⟩ := by
  have hit := hI.item it (by simp)
  have hseg : it.start < it.stop ∧ it.stop ≤ total := hit.seg
  have hlen : idx.length = total := hI.len
  have hsl : (slice idx it.start it.stop).length = it.stop - it.start :=
    slice_length (by rw [hlen]; exact hit.seg.2)
  have hrl : r.length = it.stop - it.start := by rw [hF.perm.length_eq, hsl]
  have hplt : p + 1 < it.stop - it.start := by
    have := hF.lt
    omega
  have hdis := List.pairwise_cons.1 hI.disj
  have hslot := List.pairwise_cons.1 hI.slots
  have hpn := parent_ne_none hI
  have hf : Fresh h := hI.fresh
  have hlv := ha.leaves_same
  have hnew : h'.inner.lookup (h.inner.length + h.leaves.length) = some ni := by
    rw [ha.inner_lookup, if_pos rfl]
  have hs1 : slice (replace idx r it.start it.stop) i1.start i1.stop = r.take (p + 1) := by
    rw [hi1]
    exact slice_replace_left (k := p + 1) (by omega) (by omega) hrl (by omega)
  have hs2 : slice (replace idx r it.start it.stop) i2.start i2.stop = r.drop (p + 1) := by
    rw [hi2]
    exact slice_replace_right (k := p + 1) (by omega) (by omega) hrl
  have hp1 : itemPath h' i1 = itemPath h it ++ [(v, A)] := by
    unfold itemPath
    simp only [hi1, hnew, hni]
    rfl
  have hp2 : itemPath h' i2 = itemPath h it ++ [(v, B)] := by
    unfold itemPath
    simp only [hi2, hnew, hni]
    rfl
  have hold : ∀ o ∈ q, ∀ p', o.parent = some p' → p' ≠ h.inner.length + h.leaves.length := by
    intro o ho p' hp'
    have := (hI.item o (by simp [ho])).slot
    unfold SlotFree at this
    rw [hp'] at this
    obtain ⟨n, s, h1, -⟩ := this
    have := hf.inner _ _ h1
    omega
  have hlimit : ∀ m, c.maxDepth = some m → it.depth + 1 ≤ m := by
    intro m hm
    unfold depthOK at hd
    rw [hm] at hd
    simp at hd
    omega
  have henough : Respects c → c.minSamples ≤ ((p + 1 : ℕ) : ℚ) ∧
      c.minSamples ≤ ((it.stop - it.start - (p + 1) : ℕ) : ℚ) := by
    intro hresp
    rw [← hsl]
    refine hF.enough ?_
    rcases hresp with h1 | h1
    · exact .inr h1
    · rcases hF.kind with h2 | h2
      · exact .inl h2
      · have : c.symF.contains v = true := symF_iff.2 ⟨hF.feature.1, h2, hF.feature.2⟩
        rw [h1] at this
        simp at this
  constructor
  · show (replace idx r it.start it.stop).length = total
    rw [replace_length (by omega) (by omega) hrl, hlen]
  · exact ha.fresh hf
  · refine ha.shape hf hit.slot ⟨.inl ⟨_, rfl⟩, ?_, ?_⟩ hI.shape
    · intro n hn
      cases hn
      rw [hni]
      refine ⟨rfl, rfl, rfl, ?_⟩
      intro i j hc
      match i with
      | 0 => simp at hc
      | 1 => simp at hc
      | i + 2 => simp at hc
    · intro l hl
      cases hl
  · intro e he
    rw [hlv] at he
    exact hI.leaf e he
  · intro o ho
    rcases List.mem_append.1 ho with ho | ho
    · exact (hI.item o (by simp [ho])).keep ha hf hlen hit.seg hrl (hpn o ho) (hslot.1 o ho)
        (hdis.1 o ho)
    · rcases List.mem_cons.1 ho with rfl | ho
      · constructor
        · simp only [hi1]
          omega
        · unfold SlotFree
          simp only [hi1]
          exact ⟨ni, A, hnew, by rw [hni]; rfl, by rw [hni]; rfl⟩
        · intro x hx
          rw [hs1] at hx
          rw [hp1, sat_append]
          exact ⟨hit.sat x (hF.perm.mem_iff.1 (List.mem_of_mem_take hx)), hS.left x hx⟩
        · rw [hp1, hi1]
          simp [hit.depth]
        · intro m hm
          rw [hi1]
          exact hlimit m hm
        · intro hresp
          right
          have := (henough hresp).1
          rw [hi1]
          have e : it.start + p + 1 - it.start = p + 1 := by omega
          simp only [e]
          exact this
        · rw [hp1]
          intro e he
          rcases List.mem_append.1 he with he | he
          · exact hit.regions e he
          · rw [List.mem_singleton.1 he]
            exact hS.okA
        · rw [hs1, hp1]
          exact hit.cut.snoc (fun x hx => hF.perm.mem_iff.1 (List.mem_of_mem_take hx))
            (fun x hx => mem_slice_lt hI (it := it) (by simp) hx) (fun x => hF.perm.mem_iff)
            (fun I hI => hS.cut I (.inl hI))
      · rw [List.mem_singleton] at ho
        subst ho
        constructor
        · simp only [hi2]
          omega
        · unfold SlotFree
          simp only [hi2]
          exact ⟨ni, B, hnew, by rw [hni]; rfl, by rw [hni]; rfl⟩
        · intro x hx
          rw [hs2] at hx
          rw [hp2, sat_append]
          exact ⟨hit.sat x (hF.perm.mem_iff.1 (List.mem_of_mem_drop hx)), hS.right x hx⟩
        · rw [hp2, hi2]
          simp [hit.depth]
        · intro m hm
          rw [hi2]
          exact hlimit m hm
        · intro hresp
          right
          have := (henough hresp).2
          rw [hi2]
          have e : it.stop - (it.start + p + 1) = it.stop - it.start - (p + 1) := by omega
          simp only [e]
          exact this
        · rw [hp2]
          intro e he
          rcases List.mem_append.1 he with he | he
          · exact hit.regions e he
          · rw [List.mem_singleton.1 he]
            exact hS.okB
        · rw [hs2, hp2]
          exact hit.cut.snoc (fun x hx => hF.perm.mem_iff.1 (List.mem_of_mem_drop hx))
            (fun x hx => mem_slice_lt hI (it := it) (by simp) hx) (fun x => hF.perm.mem_iff)
            (fun I hI => hS.cut I (.inr hI))
  · rw [List.pairwise_append]
    refine ⟨hdis.2, ?_, ?_⟩
    · rw [List.pairwise_cons]
      refine ⟨?_, by simp⟩
      intro b hb
      rw [List.mem_singleton.1 hb, hi1, hi2]
      exact .inl (le_refl _)
    · intro o ho b hb
      have := hdis.1 o ho
      rcases List.mem_cons.1 hb with rfl | hb
      · simp only [hi1]
        omega
      · rw [List.mem_singleton.1 hb]
        simp only [hi2]
        omega
  · rw [List.pairwise_append]
    refine ⟨hslot.2, ?_, ?_⟩
    · rw [List.pairwise_cons]
      refine ⟨?_, by simp⟩
      intro b hb
      rw [List.mem_singleton.1 hb, hi1, hi2]
      right
      simp
    · intro o ho b hb
      left
      have hb' : b.parent = some (h.inner.length + h.leaves.length) := by
        rcases List.mem_cons.1 hb with rfl | hb
        · rw [hi1]
        · rw [List.mem_singleton.1 hb, hi2]
      rw [hb']
      intro hoe
      exact hold o ho _ hoe rfl
  · have hrows := hI.rows
    simp only [List.flatMap_cons] at hrows
    simp only [hlv, List.flatMap_append, List.flatMap_cons, List.flatMap_nil, List.append_nil, hs1,
      hs2, List.take_append_drop]
    rw [slices_eq (by omega) (by omega) hrl (fun o ho => hdis.1 o ho)]
    refine List.Perm.trans ?_ hrows
    exact (List.perm_append_comm.trans (hF.perm.append_right _)).append_left _
  · intro x hx
    have hc := hI.cover x hx
    have hsp := countP_split (p := itemPath h it) (hS.part x hx)
    simp only [List.map_cons, List.countP_append, List.countP_cons] at hc
    simp only [List.countP_cons, List.countP_nil] at hsp
    simp only [hlv, List.map_append, List.map_cons, List.map_nil, List.countP_append,
      List.countP_cons, List.countP_nil, hp1, hp2]
    have : q.map (itemPath h') = q.map (itemPath h) :=
      List.map_congr_left (fun o ho => ha.itemPath_eq hf (hI.item o (by simp [ho])).slot)
    rw [this]
    omega
  · intro k n hk
    simp only at hk
    rw [ha.inner_lookup] at hk
    by_cases he : k = h.inner.length + h.leaves.length
    · rw [if_pos he] at hk
      cases hk
      rw [hni]
      intro s hs
      rcases List.mem_cons.1 hs with rfl | hs
      · exact hS.okA
      · rw [List.mem_singleton.1 hs]
        exact hS.okB
    · rw [if_neg he] at hk
      by_cases hp : it.parent = some k
      · rw [if_pos hp] at hk
        obtain ⟨m, hm, rfl⟩ := Option.map_eq_some_iff.1 hk
        exact hI.regions k m hm
      · rw [if_neg hp] at hk
        exact hI.regions k n hk
  · intro k n i hk hc
    simp only at hk
    rw [ha.inner_lookup] at hk
    by_cases he : k = h.inner.length + h.leaves.length
    · rw [if_pos he] at hk
      cases hk
      rw [hni] at hc
      match i with
      | 0 => exact ⟨i1, by simp, by rw [hi1, he], by rw [hi1]⟩
      | 1 => exact ⟨i2, by simp, by rw [hi2, he], by rw [hi2]⟩
      | i + 2 => simp at hc
    · rw [if_neg he] at hk
      by_cases hp : it.parent = some k
      · rw [if_pos hp] at hk
        obtain ⟨m, hm, rfl⟩ := Option.map_eq_some_iff.1 hk
        have hi : it.child ≠ i := by
          rintro rfl
          unfold Inner.setChild at hc
          simp only at hc
          rw [List.getElem?_set] at hc
          simp at hc
        simp only [Inner.setChild, List.getElem?_set_ne hi] at hc
        obtain ⟨o, ho, h1, h2⟩ := hI.complete k m i hm hc
        rcases List.mem_cons.1 ho with rfl | ho
        · exact absurd h2 hi
        · exact ⟨o, by simp [ho], h1, h2⟩
      · rw [if_neg hp] at hk
        obtain ⟨o, ho, h1, h2⟩ := hI.complete k n i hk hc
        rcases List.mem_cons.1 ho with rfl | ho
        · exact absurd h1 hp
        · exact ⟨o, by simp [ho], h1, h2⟩
  · intro o ho hp
    rcases List.mem_append.1 ho with ho | ho
    · exact absurd hp (hpn o ho)
    · rcases List.mem_cons.1 ho with rfl | ho
      · rw [hi1] at hp
        cases hp
      · rw [List.mem_singleton.1 ho, hi2] at hp
        cases hp
  · intro k n hk
    simp only at hk
    rw [ha.inner_lookup] at hk
    by_cases he : k = h.inner.length + h.leaves.length
    · rw [if_pos he] at hk
      cases hk
      rw [hni]
      rfl
    · rw [if_neg he] at hk
      by_cases hp : it.parent = some k
      · rw [if_pos hp] at hk
        obtain ⟨m, hm, rfl⟩ := Option.map_eq_some_iff.1 hk
        simp only [Inner.setChild, List.length_set]
        exact hI.binary k m hm
      · rw [if_neg hp] at hk
        exact hI.binary k n hk

/-- One call of `c45`. -/
theorem c45_step {c : Cfg} {data : Data} {total : ℕ} {fit : List ℕ → ℕ → D} {h : Heap D}
    {idx : List ℕ} {it : Item} {q : List Item} (hdata : DataOK c data total)
    (hI : LInv c data total fit ⟨h, idx, it :: q⟩) :
    ∃ st', c45 c data total fit ⟨h, idx, q⟩ it = .ok st' ∧ LInv c data total fit st' ∧
      rounds st'.queue < rounds (it :: q) := by
  have hit := hI.item it (by simp)
  have hseg : it.start < it.stop ∧ it.stop ≤ total := hit.seg
  have hval : ∀ r ∈ slice idx it.start it.stop, Valid c (data r) := fun r hr =>
    hdata r (mem_slice_lt hI (it := it) (by simp) hr)
  have hsym : ∀ v, c.isSym v = true → ∀ r ∈ slice idx it.start it.stop, 0 ≤ data r v := by
    intro v hv r hr
    unfold Cfg.isSym at hv
    cases hk : c.vars[v]? with
    | none => simp [hk] at hv
    | some k =>
      cases k with
      | numeric => simp [hk] at hv
      | integer n => simp [hk] at hv
      | symbolic n =>
        obtain ⟨i, -, he⟩ := hval r hr v n (.inr hk)
        rw [he]
        positivity
  obtain ⟨hb, hb'⟩ := bestSplit_spec c data (slice idx it.start it.stop) hsym
  obtain ⟨h1, hatt, hA⟩ := attach_ok hit.slot (h.inner.length + h.leaves.length)
  have hlen : idx.length = total := hI.len
  have hsl : (slice idx it.start it.stop).length = it.stop - it.start :=
    slice_length (by rw [hlen]; exact hit.seg.2)
  have hrl : (bestSplit c data (slice idx it.start it.stop)).rows.length = it.stop - it.start := by
    rw [hb.length_eq, hsl]
  have hsr := slice_replace (l := idx) (a := it.start) (b := it.stop) (by omega) (by omega) hrl
  unfold c45
  simp only [hatt, bind, Except.bind, pure, Except.pure]
  generalize hbdef : bestSplit c data (slice idx it.start it.stop) = b at *
  have hrepl : idx.take it.start ++ b.rows ++ idx.drop it.stop = replace idx b.rows it.start it.stop :=
    rfl
  rw [hrepl]
  cases hc : gainOK c b && depthOK c it.depth
  · simp only [Bool.false_eq_true, if_false]
    refine ⟨_, rfl, ?_, ?_⟩
    · rw [hsr]
      refine hI.stepLeaf hb ?_ ?_
      · intro hresp hdeps
        rw [Bool.and_eq_false_iff] at hc
        rcases hc with hc | hc
        · right
          intro v L R hD hl hr
          have hD' : Division c data v (slice idx it.start it.stop) L R :=
            ⟨hD.1, hD.2.1, hb.symm.trans hD.2.2.1, hD.2.2.2⟩
          have := bestSplit_best hresp hdeps hD' hl hr
          rw [hbdef, ← perm_improvement hb] at this
          unfold gainOK at hc
          cases hg : b.gain with
          | bot =>
            rw [hg] at this
            simp at this
          | coe g =>
            have hc' : ¬ c.minImp ≤ g := by
              rw [hg] at hc
              exact of_decide_eq_false hc
            rw [hg] at this
            have := WithBot.coe_le_coe.1 this
            linarith
        · left
          unfold depthOK at hc
          cases hm : c.maxDepth with
          | none =>
            rw [hm] at hc
            simp at hc
          | some m =>
            rw [hm] at hc
            simp at hc
            exact ⟨m, rfl, hc⟩
      exact hA.addLeaf hI.fresh _ _ (by rw [hA.root])
    · simp only [rounds, List.map_cons, List.sum_cons]
      omega
  · simp only [if_true]
    rw [Bool.and_eq_true] at hc
    rcases hb' with hbot | ⟨v, p, hv, hp, hF, -⟩
    · unfold gainOK at hc
      rw [hbot] at hc
      exact absurd hc.1 (by simp)
    · obtain ⟨A, B, hsp, hS⟩ := splitsOf_spec hF hval
      simp only [hv, hp, hsp]
      have := hF.lt
      rw [hsl] at this
      refine ⟨_, rfl, ?_, ?_⟩
      · refine hI.stepInner hF hS hc.2 rfl rfl rfl ?_
        exact hA.addInner hI.fresh _ _ (by rw [hA.root])
      · simp only [rounds, List.map_cons, List.sum_cons, List.map_append, List.sum_append,
          List.map_nil, List.sum_nil]
        omega

/-- The loop of `learn` ends, and the invariant holds at the end. -/
theorem grow_ok {c : Cfg} {data : Data} {total : ℕ} {fit : List ℕ → ℕ → D}
    (hdata : DataOK c data total) : ∀ (fuel : ℕ) (st : LSt D), LInv c data total fit st →
      rounds st.queue ≤ fuel →
      ∃ st', grow c data total fit fuel st = .ok st' ∧ LInv c data total fit st' ∧ st'.queue = []
  | 0, ⟨h, idx, q⟩, hI, hr => by
    cases q with
    | nil => exact ⟨_, rfl, hI, rfl⟩
    | cons it q =>
      exfalso
      have := (hI.item it (by simp)).seg
      simp only [rounds, List.map_cons, List.sum_cons] at hr
      omega
  | k + 1, ⟨h, idx, q⟩, hI, hr => by
    cases q with
    | nil => exact ⟨_, rfl, hI, rfl⟩
    | cons it q =>
      obtain ⟨st', h1, h2, h3⟩ := c45_step hdata hI
      simp only at hr
      obtain ⟨st'', h4, h5, h6⟩ := grow_ok hdata k st' h2 (by omega)
      refine ⟨st'', ?_, h5, h6⟩
      unfold grow
      simp only [bind, Except.bind]
      rw [h1]
      exact h4

theorem LInv.init {c : Cfg} {data : Data} {total : ℕ} {fit : List ℕ → ℕ → D} (ht : 0 < total) :
    LInv c data total fit ⟨Heap.empty, List.range total, [⟨0, total, none, 0, 0⟩]⟩ := by
  have hsl : slice (List.range total) 0 total = List.range total := by
    unfold slice
    rw [List.drop_zero, List.take_of_length_le (by simp)]
  have hpath : itemPath (D := D) Heap.empty ⟨0, total, none, 0, 0⟩ = [] := rfl
  have hin : (Heap.empty : Heap D).inner = [] := rfl
  have hlv : (Heap.empty : Heap D).leaves = [] := rfl
  have hnode : ∀ j par path, ¬ NodeAt (Heap.empty : Heap D) j par path := by
    rintro j par path (⟨n, h1, -⟩ | ⟨n, h1, -⟩) <;> simp [hin, hlv] at h1
  constructor
  · simp
  · constructor <;> simp [hin, hlv]
  · constructor
    · simp [hin, hlv]
    · simp [hin]
    · simp [hin]
    · exact fun j path h => absurd h (hnode _ _ _)
    · exact fun j k path h => absurd h (hnode _ _ _)
    · simp [hin]
    · simp [Heap.empty]
  · simp [hlv]
  · intro it hit
    rw [List.mem_singleton.1 hit]
    refine ⟨⟨ht, le_refl _⟩, ⟨hin, hlv, rfl⟩, ?_, rfl, fun m _ => Nat.zero_le _, fun _ => .inl rfl, ?_, ?_⟩
    · intro r hr
      rw [hpath]
      intro e he
      simp at he
    · intro e he
      rw [hpath] at he
      simp at he
    · intro e he
      rw [hpath] at he
      simp at he
  · simp
  · simp
  · simp [hlv, hsl]
  · intro x hx
    simp only [hlv, List.map_nil, List.nil_append, List.map_cons, hpath]
    simp [Sat]
  · simp [hin]
  · simp [hin]
  · simp
  · simp [hin]

/-- Learning from valid data succeeds, and everything below holds of the tree. -/
theorem learn_ok {c : Cfg} {data : Data} {total : ℕ} (fit : List ℕ → ℕ → D)
    (hdata : DataOK c data total) (ht : 0 < total) :
    ∃ h idx, learn c data total fit = .ok h ∧ LInv c data total fit ⟨h, idx, []⟩ := by
  obtain ⟨⟨h, idx, q⟩, h1, h2, h3⟩ := grow_ok hdata (2 * total) _ (LInv.init (fit := fit) ht)
    (by simp [rounds])
  simp only at h3
  subst h3
  refine ⟨h, idx, ?_, h2⟩
  unfold learn
  rw [if_neg (by omega), h1]
  rfl

end Verif.Learn
