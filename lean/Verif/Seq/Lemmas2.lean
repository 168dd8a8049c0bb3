import Verif.Seq.Lemmas

/-!
# `fit` succeeds, and every sample has a leaf
-/

namespace Verif.Seq

open Trees Learn

variable {D : Type}

theorem expanded_vars (a : Args) (w : ℕ) :
    (expanded a w).vars = (dataIndices a w).map (fun c => a.vars.getD (c % a.vars.length) .numeric) := by
  rw [dataIndices_map a w (fun v _ => a.vars.getD v .numeric)]
  unfold expanded
  simp only
  rw [range'_one, List.flatMap_map]
  congr 1
  apply List.ext_getElem
  · simp
  · intro i h1 h2
    rw [List.getElem_map, List.getElem_range, List.getD_eq_getElem?_getD, List.getElem?_eq_getElem h1]
    rfl

theorem expanded_length (a : Args) (w : ℕ) :
    (expanded a w).vars.length = a.vars.length + (w - 1) * (targetIndices a).length := by
  unfold expanded
  simp only [List.length_append, List.length_flatMap, List.length_map]
  congr 1
  rw [List.map_const', List.sum_replicate, List.length_range']
  rfl

theorem expanded_var {a : Args} {w v : ℕ} (h : v < a.vars.length) : (expanded a w).vars[v]? = a.vars[v]? := by
  unfold expanded
  exact List.getElem?_append_left h

/-- The expanded tree splits on the variables of the first step only. -/
theorem expanded_features {a : Args} {w v total : ℕ} (h1 : v < (expanded a w).vars.length)
    (h2 : v ∈ ((expanded a w).cfg total).features) : v < a.vars.length := by
  have h3 : v ∈ (expanded a w).allFeatures := h2
  unfold Args.allFeatures at h3
  rw [if_pos (show (expanded a w).features = [] from rfl)] at h3
  rw [expanded_length] at h1
  by_cases ht : (expanded a w).targets = []
  · have : (w - 1) * (targetIndices a).length = 0 := by
      have h4 : (expanded a w).targets.length = (w - 1) * (targetIndices a).length := by
        unfold expanded
        simp
      rw [← h4, ht]
      rfl
    omega
  · rw [if_neg ht, List.mem_filter] at h3
    by_contra hc
    have : v ∈ (expanded a w).targets := by
      unfold expanded
      simp only [List.mem_range'_1]
      omega
    simp [this] at h3

theorem dataIndices_div {a : Args} {w d : ℕ} (hw : 1 ≤ w) (h : d ∈ dataIndices a w) :
    d / a.vars.length < w := by
  unfold dataIndices at h
  rcases List.mem_append.1 h with h | h
  · rw [List.mem_range] at h
    rw [Nat.div_eq_of_lt h]
    omega
  · obtain ⟨t, ht, h⟩ := List.mem_flatMap.1 h
    obtain ⟨v, hv, rfl⟩ := List.mem_map.1 h
    have hv := targetIndices_lt hv
    rw [List.mem_range'_1] at ht
    rw [Nat.add_mul_div_right _ _ (by omega), Nat.div_eq_of_lt hv]
    omega

theorem windowRow_eq (a : Args) (w : ℕ) (s : Sequence) (i : ℕ) :
    windowRow a.vars.length (targetIndices a) w s i
      = (dataIndices a w).map (fun d => rowAt s (i + d / a.vars.length) (d % a.vars.length)) := by
  rw [dataIndices_map a w (fun v k => rowAt s (i + k) v)]
  rfl

/-- The training rows of the joint tree. -/
def rowsOf (a : Args) (w : ℕ) (ss : List Sequence) : List (List ℚ) :=
  ss.flatMap (fun s => (List.range (s.length + 1 - w)).map (windowRow a.vars.length (targetIndices a) w s))

theorem rowsOf_ne {a : Args} {w : ℕ} {ss : List Sequence} (h0 : ss ≠ []) (h : ∀ s ∈ ss, w ≤ s.length) :
    0 < (rowsOf a w ss).length := by
  obtain ⟨s, hs⟩ := List.exists_mem_of_ne_nil _ h0
  have h1 := h s hs
  apply List.length_pos_of_mem (a := windowRow a.vars.length (targetIndices a) w s 0)
  refine List.mem_flatMap.2 ⟨s, hs, List.mem_map.2 ⟨0, ?_, rfl⟩⟩
  rw [List.mem_range]
  omega

theorem rowAt_mem {s : Sequence} {t : ℕ} (h : t < s.length) : rowAt s t ∈ s := by
  unfold rowAt
  rw [List.getD_eq_getElem?_getD, List.getElem?_eq_getElem h]
  exact List.getElem_mem h

theorem rowsOf_ok {a : Args} {w : ℕ} {ss : List Sequence} (hw : 1 ≤ w)
    (h : ∀ s ∈ ss, ∀ x ∈ s, Fits a.vars x) (total : ℕ) :
    DataOK ((expanded a w).cfg total) (tableData (rowsOf a w ss)) (rowsOf a w ss).length := by
  intro r hr v n hv
  have hrow := List.getElem_mem hr
  have htab : tableData (rowsOf a w ss) r v = (rowsOf a w ss)[r].getD v 0 := by
    unfold tableData
    rw [List.getD_eq_getElem?_getD (l := rowsOf a w ss), List.getElem?_eq_getElem hr]
    rfl
  rw [htab]
  obtain ⟨s, hs, hrow'⟩ := List.mem_flatMap.1 hrow
  obtain ⟨i, hi, hri⟩ := List.mem_map.1 hrow'
  rw [← hri, windowRow_eq]
  rw [List.mem_range] at hi
  have hvars : ((expanded a w).cfg total).vars
      = (dataIndices a w).map (fun c => a.vars.getD (c % a.vars.length) .numeric) := expanded_vars a w
  rw [hvars] at hv
  rw [List.getElem?_map] at hv
  rw [List.getD_eq_getElem?_getD, List.getElem?_map]
  cases hd : (dataIndices a w)[v]? with
  | none => rw [hd] at hv; simp at hv
  | some d =>
    rw [hd] at hv
    simp only [Option.map_some, Option.some.injEq, Option.getD_some] at hv ⊢
    have hdiv := dataIndices_div hw (List.mem_of_getElem? hd)
    refine h s hs _ (rowAt_mem (by omega)) _ n ?_
    rw [List.getD_eq_getElem?_getD] at hv
    cases hk : a.vars[d % a.vars.length]? with
    | none => rw [hk] at hv; simp at hv
    | some k =>
      rw [hk] at hv
      simpa using hv

/-- Adding dictionaries without common keys. -/
theorem update_disjoint {d e : List (ℕ × Leaf D)} (he : Dict.WF e)
    (h : ∀ k ∈ e.map Prod.fst, k ∉ d.map Prod.fst) : Dict.update d e = d ++ e := by
  unfold Dict.update
  induction e generalizing d with
  | nil => simp
  | cons p e ih =>
    unfold Dict.WF at he ih
    rw [List.map_cons, List.nodup_cons] at he
    rw [List.foldl_cons]
    have h1 : Dict.set d p.1 p.2 = d ++ [p] := by
      unfold Dict.set
      rw [if_neg (h p.1 (by simp))]
    rw [h1, ih he.2]
    · simp
    · intro k hk
      rw [List.map_append, List.mem_append]
      rintro (hk' | hk')
      · exact h k (by simp [hk]) hk'
      · simp only [List.map_cons, List.map_nil, List.mem_singleton] at hk'
        exact he.1 (hk' ▸ hk)

theorem keepLeaf_wf {n : ℕ} {ls : List (ℕ × Leaf D)} (h : (ls.map Prod.fst).Nodup) :
    Dict.WF (ls.map (fun e => (e.1, keepLeaf n e.2))) := by
  unfold Dict.WF
  rw [List.map_map]
  exact h

/-- What `fit` does if it has proper sequences: the joint tree is learned from the windows, every sample
lies in one of its leaves, and the result is put together from both. -/
theorem fit_eq {a : Args} {w : ℕ} {ss : List Sequence} (fitD : Data → List ℕ → ℕ → D) (old : Heap D)
    (hw : 1 ≤ w) (h0 : ss ≠ []) (hlen : ∀ s ∈ ss, w ≤ s.length ∧ 2 ≤ s.length)
    (hfit : ∀ s ∈ ss, ∀ x ∈ s, Fits a.vars x) (hold : Dict.WF old.leaves) :
    ∃ new : Heap D, learn ((expanded a w).cfg (rowsOf a w ss).length) (tableData (rowsOf a w ss))
        (rowsOf a w ss).length (fitD (tableData (rowsOf a w ss))) = .ok new ∧
      Dict.WF (adopt a.vars.length old new).leaves ∧
      (∀ x, Fits a.vars x → encode (fullOf (a.cfg 0)) (adopt a.vars.length old new) x
        ∈ (adopt a.vars.length old new).leaves.map Prod.fst) ∧
      (new.leaves.map Prod.fst).Nodup ∧
      ∃ m, transitionModel ((adopt a.vars.length old new).leaves.map Prod.fst)
          (ss.map (fun s => s.map (encode (fullOf (a.cfg 0)) (adopt a.vars.length old new)))) = .ok m ∧
        fit a (fullOf (a.cfg 0)) fitD old w ss = .ok (adopt a.vars.length old new, m) := by
  have hdata := rowsOf_ok hw hfit (rowsOf a w ss).length
  have hpos := rowsOf_ne (a := a) h0 (fun s hs => (hlen s hs).1)
  obtain ⟨new, idx, hl, hI⟩ := learn_ok (fitD (tableData (rowsOf a w ss))) hdata hpos
  have hnd : (new.leaves.map Prod.fst).Nodup := (List.nodup_append.1 hI.shape.nodup).2.1
  have hwf : Dict.WF (adopt a.vars.length old new).leaves := Dict.wf_update hold
  have henc : ∀ x, Fits a.vars x → encode (fullOf (a.cfg 0)) (adopt a.vars.length old new) x
        ∈ (adopt a.vars.length old new).leaves.map Prod.fst := by
    intro x hx
    apply encode_mem
    let x' : ℕ → ℚ := fun v => if v < a.vars.length then x v else tableData (rowsOf a w ss) 0 v
    have hx' : Valid ((expanded a w).cfg (rowsOf a w ss).length) x' := by
      intro v n hv
      by_cases hvl : v < a.vars.length
      · have h1 : x' v = x v := if_pos hvl
        rw [h1]
        refine hx v n ?_
        have h2 : ((expanded a w).cfg (rowsOf a w ss).length).vars[v]? = a.vars[v]? := expanded_var hvl
        rw [h2] at hv
        exact hv
      · have h1 : x' v = tableData (rowsOf a w ss) 0 v := if_neg hvl
        rw [h1]
        exact hdata 0 hpos v n hv
    obtain ⟨l, h1, h2, -⟩ := C42_encode_total _ _ _ _ hdata hl x' hx'
    have hpath := (C69_only_features _ _ _ _ hl).2 _ l h1
    have hlt : ∀ s ∈ l.path, s.1 < a.vars.length := fun s hs =>
      expanded_features (hpath s hs).1 (hpath s hs).2
    refine ⟨(encode (fullOf ((expanded a w).cfg (rowsOf a w ss).length)) new x', keepLeaf a.vars.length l),
      ?_, ?_⟩
    · apply Dict.lookup_mem
      show (Dict.update _ _).lookup _ = _
      rw [Dict.lookup_update (keepLeaf_wf hnd)]
      have : (new.leaves.map (fun e => (e.1, keepLeaf a.vars.length e.2))).lookup
          (encode (fullOf ((expanded a w).cfg (rowsOf a w ss).length)) new x') = some (keepLeaf a.vars.length l) := by
        apply Dict.mem_lookup (keepLeaf_wf hnd)
        exact List.mem_map.2 ⟨_, Dict.lookup_mem h1, rfl⟩
      rw [this]
      rfl
    · rw [← h2]
      apply contains_congr
      · intro s hs
        unfold fullOf
        have h3 : ((expanded a w).cfg (rowsOf a w ss).length).vars[s.1]? = a.vars[s.1]? :=
          expanded_var (hlt s hs)
        have h4 : (a.cfg 0).vars[s.1]? = a.vars[s.1]? := rfl
        rw [h3, h4]
      · intro s hs
        exact (if_pos (hlt s hs)).symm
  refine ⟨new, hl, hwf, henc, hnd, ?_⟩
  have htd : transitionData (ss.map (fun s => s.map (encode (fullOf (a.cfg 0)) (adopt a.vars.length old new))))
      = .ok (neighbours (ss.map (fun s => s.map (encode (fullOf (a.cfg 0)) (adopt a.vars.length old new))))) := by
    apply transitionData_eq
    · simpa using h0
    · intro e he
      obtain ⟨s, hs, rfl⟩ := List.mem_map.1 he
      rw [List.length_map]
      exact (hlen s hs).2
  refine ⟨_, by unfold transitionModel; rw [htd]; rfl, ?_⟩
  unfold fit
  rw [unfoldAll_eq h0 (fun s hs => (hlen s hs).1)]
  simp only [bind, Except.bind, pure, Except.pure]
  rw [show (ss.flatMap fun s => (List.range (s.length + 1 - w)).map
    (windowRow a.vars.length (targetIndices a) w s)) = rowsOf a w ss from rfl, hl]
  simp only
  unfold transitionModel
  rw [htd]
  rfl

end Verif.Seq
