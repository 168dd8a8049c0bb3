import Verif.Trees.EqualLemmas2
import Verif.Trees.Props23

/-!
# C110: when comparing two trees raises no exception
-/

namespace Verif.Trees

open Learn (Cfg Data DataOK fullOf learn exists_ok)

variable {L : Type} [DecidableEq L]

/-- For all trees learned over the same numeric, symbolic and integer variables: if no two inner nodes with the same number
split on a numeric variable in one tree and on another one in the other tree, comparing the trees returns `True` or `False`. -/
theorem C110_total_partial {val : ℤ → ℚ} (hval : StrictMono val) {idx : ℚ → ℤ} (hidx : ∀ n, idx (val n) = n)
    (eps eps' : ℚ) (c c' : Cfg) (kind : ℕ → MK L) (data data' : Data) (total total' : ℕ) (hk : Kinds c kind)
    (hk' : Kinds c' kind) (hn : c.vars.length = c'.vars.length) (hdata : DataOK c data total)
    (hdata' : DataOK c' data' total') (hfl : Floats val c data total) (hfl' : Floats val c' data' total')
    (h h' : Heap (MD L)) (hl : learn c data total (fitMix val idx eps kind data) = .ok h)
    (hl' : learn c' data' total' (fitMix val idx eps' kind data') = .ok h')
    (hsplit : ∀ k n n', h.inner.lookup k = some n → h'.inner.lookup k = some n' →
      (kind n.var).isLeft = (kind n'.var).isLeft) :
    ∃ b, treeEq idx mixEq h h' (learnedPriors c.vars.length total (fitMix val idx eps kind data))
      (learnedPriors c'.vars.length total' (fitMix val idx eps' kind data')) = .ok b := by
  obtain ⟨_, hI⟩ := Learn.learn_inv hdata hl
  obtain ⟨_, hI'⟩ := Learn.learn_inv hdata' hl'
  have hT := learned_mix_on hval hidx hk hdata hfl hl
  have hT' := learned_mix_on hval hidx hk' hdata' hfl' hl'
  have pos : ∀ {c : Cfg} {data : Data} {total : ℕ} {fit : List ℕ → ℕ → MD L} {h : Heap (MD L)},
      learn c data total fit = .ok h → List.range total ≠ [] := by
    intro c data total fit h hl h0
    unfold learn at hl
    rw [if_pos (by simpa using h0)] at hl
    cases hl
  have rows : ∀ {c : Cfg} {data : Data} {total : ℕ} {fit : List ℕ → ℕ → MD L} {h : Heap (MD L)} {ix : List ℕ},
      Learn.LInv c data total fit ⟨h, ix, []⟩ → ∀ l ∈ h.leaves, ∀ r ∈ l.2.rows, r < total := by
    intro c data total fit h ix hI l hle r hr
    have := hI.rows.mem_iff (a := r)
    simp only [List.flatMap_nil, List.append_nil, List.mem_flatMap, List.mem_range] at this
    exact this.1 ⟨l, hle, hr⟩
  have e1 : ∃ t, itemsEq (innerEq idx) h.inner h'.inner = .ok t := by
    apply itemsEq_total
    rintro ⟨k, n⟩ hp n' hn'
    have hl1 := Dict.mem_lookup (List.nodup_append.1 hT.shape.nodup).1 hp
    obtain ⟨x, hx, -⟩ := kids_ok (hT.noNone k n hl1)
    obtain ⟨y, hy, -⟩ := kids_ok (hT'.noNone k n' hn')
    obtain ⟨t, ht⟩ : ∃ t, listEq (regionEq idx) n.splits n'.splits = .ok t :=
      listEq_total fun i r s hr hs => region_total hk hk' (hsplit k n n' hl1 hn')
        (hI.regions k n hl1 r (List.mem_of_getElem? hr)) (hI'.regions k n' hn' s (List.mem_of_getElem? hs))
    simp only [innerEq, hx, hy, ht, bind, Except.bind, pure, Except.pure]
    split
    · split
      · cases t <;> exact ⟨_, rfl⟩
      · exact ⟨_, rfl⟩
    · exact ⟨_, rfl⟩
  have e2 : ∃ t, itemsEq (leafEq idx mixEq) h.leaves h'.leaves = .ok t := by
    apply itemsEq_total
    rintro ⟨k, l⟩ hp l' hl2
    have hp' := Dict.lookup_mem hl2
    obtain ⟨s, hs⟩ : ∃ s, listEq (stepEq idx) l.path l'.path = .ok s := by
      apply listEq_total
      intro i a b ha hb
      unfold stepEq
      split
      · rename_i hab
        exact region_total hk hk' (by rw [hab]) ((hI.leaf _ hp).regions a (List.mem_of_getElem? ha))
          ((hI'.leaf _ hp').regions b (List.mem_of_getElem? hb))
      · exact ⟨_, rfl⟩
    obtain ⟨t, ht⟩ : ∃ t, listEq mixEq l.dists l'.dists = .ok t := by
      apply listEq_total
      intro v d e hd he
      have d1 := (hI.leaf _ hp).dists
      have d2 := (hI'.leaf _ hp').dists
      simp only at d1 d2
      rw [d1] at hd
      rw [d2] at he
      have hv : v < c.vars.length := by simpa using (List.getElem?_eq_some_iff.1 hd).1
      have hv' : v < c'.vars.length := by omega
      rw [List.getElem?_map, List.getElem?_range hv] at hd
      rw [List.getElem?_map, List.getElem?_range hv'] at he
      simp only [Option.map_some, Option.some.injEq] at hd he
      subst hd he
      exact fitMix_total hval hidx hk hk' hdata hdata' hfl hfl' hv hv' (hI.leaf _ hp).nonempty (hI'.leaf _ hp').nonempty
        (rows hI _ hp) (rows hI' _ hp')
    simp only [leafEq, hs, ht, bind, Except.bind, pure, Except.pure]
    cases s
    · exact ⟨_, rfl⟩
    · simp only [if_true]
      split
      · cases t <;> exact ⟨_, rfl⟩
      · exact ⟨_, rfl⟩
  have e3 : ∃ t, itemsEq mixEq (learnedPriors c.vars.length total (fitMix val idx eps kind data))
      (learnedPriors c'.vars.length total' (fitMix val idx eps' kind data')) = .ok t := by
    apply itemsEq_total
    intro p hp e he
    obtain ⟨v, hv, rfl⟩ := List.mem_map.1 hp
    obtain ⟨w, hw, h2⟩ := List.mem_map.1 (Dict.lookup_mem he)
    simp only [Prod.mk.injEq] at h2
    obtain ⟨rfl, rfl⟩ := h2
    exact fitMix_total hval hidx hk hk' hdata hdata' hfl hfl' (List.mem_range.1 hv) (List.mem_range.1 hw) (pos hl) (pos hl')
      (fun r hr => List.mem_range.1 hr) (fun r hr => List.mem_range.1 hr)
  obtain ⟨a, ha⟩ := e1
  obtain ⟨b, hb⟩ := e2
  obtain ⟨d, hd⟩ := e3
  exact ⟨a && b && d, by simp only [treeEq, ha, hb, hd, bind, Except.bind, pure, Except.pure]⟩

/-- Two tables with different splits. -/
def exERows'' : List ℚ := [0, 0, 0, 0, 0, 100, 200, 300, 400, 500]

example : ∃ h h', learn (exE.cfg 10) (exEData exERows) 10 (exEFit exERows) = .ok h ∧
    learn (exE.cfg 10) (exEData exERows'') 10 (exEFit exERows'') = .ok h' ∧ h.inner ≠ [] ∧ h'.inner ≠ [] ∧
    (∃ b, treeEq Rat.floor mixEq h h' (learnedPriors 1 10 (exEFit exERows)) (learnedPriors 1 10 (exEFit exERows'')) = .ok b) ∧
    treeEq Rat.floor mixEq h h' (learnedPriors 1 10 (exEFit exERows)) (learnedPriors 1 10 (exEFit exERows'')) = .ok false := by
  obtain ⟨h, h', h1, h2, h3, h4, h5⟩ : ∃ h h', learn (exE.cfg 10) (exEData exERows) 10 (exEFit exERows) = .ok h ∧
    learn (exE.cfg 10) (exEData exERows'') 10 (exEFit exERows'') = .ok h' ∧ h.inner ≠ [] ∧ h'.inner ≠ [] ∧
    treeEq Rat.floor mixEq h h' (learnedPriors 1 10 (exEFit exERows)) (learnedPriors 1 10 (exEFit exERows'')) = .ok false :=
    exists_ok₂ (by decide +kernel)
  have hev : ∀ r < 10, ∃ k : ℤ, exERows''.getD r 0 = 2 * k := by
    have key : ∀ r < 10, exERows''.getD r 0 = 2 * ((Rat.floor (exERows''.getD r 0 / 2) : ℤ) : ℚ) := by decide +kernel
    exact fun r hr => ⟨_, key r hr⟩
  exact ⟨h, h', h1, h2, h3, h4, C110_total_partial Fun.ival_strictMono (fun n => by simp [Fun.ival]) _ _ _ _ exEKind _ _ _ _
    exE_kind exE_kind rfl (exE_data _) (exE_data _) (exE_floats exE_even.1) (exE_floats hev) h h' h1 h2
    (fun _ _ _ _ _ => rfl), h5⟩

end Verif.Trees
