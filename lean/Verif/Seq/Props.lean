import Verif.Seq.Lemmas3
import Verif.Seq.Spec

/-!
# Properties of fitting a sequential tree: C57, C70, C71
-/

namespace Verif.Seq

open Trees Learn

variable {D : Type}

/-- A sequential tree over one symbolic variable with three values. -/
def exS : Args := ⟨[.symbolic 3], [], [], .int 1, none, none, none, fun _ => false⟩

/-- A sequence of values of it. -/
def exSeq (l : List ℕ) : Sequence := l.map (fun (x _ : ℕ) => (x : ℚ))

theorem exSeq_fits (l : List ℕ) (h : ∀ x ∈ l, x < 3) : ∀ x ∈ exSeq l, Fits exS.vars x := by
  intro x hx v n hv
  obtain ⟨i, hi, rfl⟩ := List.mem_map.1 hx
  refine ⟨i, ?_, rfl⟩
  match v, hv with
  | 0, hv =>
    have : n = 3 := by
      rcases hv with hv | hv
      · exact absurd hv (by simp [exS])
      · injection hv with hv; injection hv with hv; exact hv.symm
    subst this
    exact h i hi
  | v + 1, hv => exact absurd hv (by simp [exS])

/-- Fitting it, without looking at the distributions. -/
def exFit (old : Heap Unit) (ls : List (List ℕ)) : Except Err (Heap Unit × List (List ℚ)) :=
  fit exS (fullOf (exS.cfg 0)) (fun _ _ _ => ()) old 2 (ls.map exSeq)

/-! ## C57: the transition model -/

/-- For sequences of at least two leaves each: the transition model has a row and a column for each leaf,
its entries are the relative frequencies of the pairs of neighbours, they are not negative and sum
to one. -/
theorem C57_transition_model (keys : List ℕ) (encs : List (List ℕ)) (hk : keys.Nodup) (h0 : encs ≠ [])
    (h2 : ∀ e ∈ encs, 2 ≤ e.length) (hin : ∀ e ∈ encs, ∀ k ∈ e, k ∈ keys) :
    ∃ m, transitionModel keys encs = .ok m ∧ m.length = keys.length ∧
      (∀ r ∈ m, r.length = keys.length ∧ ∀ x ∈ r, 0 ≤ x) ∧
      (∀ (i j : ℕ) (hi : i < keys.length) (hj : j < keys.length),
        entryOf m i j = frequency (neighbours encs) (keys[i], keys[j])) ∧
      (m.map List.sum).sum = 1 := by
  refine ⟨keys.map (fun i => keys.map (fun j => frequency (neighbours encs) (i, j))), ?_, ?_, ?_, ?_, ?_⟩
  · unfold transitionModel
    rw [transitionData_eq h0 h2]
    simp only [bind, Except.bind, pure, Except.pure, entry_eq]
  · simp
  · intro r hr
    obtain ⟨i, -, rfl⟩ := List.mem_map.1 hr
    refine ⟨by simp, ?_⟩
    intro x hx
    obtain ⟨j, -, rfl⟩ := List.mem_map.1 hx
    unfold frequency
    positivity
  · intro i j hi hj
    unfold entryOf
    simp [hi, hj]
  · exact sum_frequency hk (neighbours_ne h0 h2) (fun p hp => mem_neighbours hin hp)

example : transitionModel [4, 2] [[4, 2, 2], [2, 4]] = .ok [[0, 1 / 3], [1 / 3, 1 / 3]] := by decide +kernel

/-- What `fit` stores: the frequencies of the transitions between the leaves of the samples. -/
theorem C57_fit (a : Args) (w : ℕ) (ss : List Sequence) (fitD : Data → List ℕ → ℕ → D) (old : Heap D)
    (hw : 1 ≤ w) (h0 : ss ≠ []) (hlen : ∀ s ∈ ss, w ≤ s.length ∧ 2 ≤ s.length)
    (hfit : ∀ s ∈ ss, ∀ x ∈ s, Fits a.vars x) (hold : Dict.WF old.leaves) :
    ∃ h m, fit a (fullOf (a.cfg 0)) fitD old w ss = .ok (h, m) ∧
      (∀ s ∈ ss, ∀ x ∈ s, encode (fullOf (a.cfg 0)) h x ∈ h.leaves.map Prod.fst) ∧
      m.length = h.leaves.length ∧ (∀ r ∈ m, r.length = h.leaves.length ∧ ∀ x ∈ r, 0 ≤ x) ∧
      (∀ (i j : ℕ) (hi : i < h.leaves.length) (hj : j < h.leaves.length),
        entryOf m i j = frequency
          (neighbours (ss.map (fun s => s.map (encode (fullOf (a.cfg 0)) h))))
          (h.leaves[i].1, h.leaves[j].1)) ∧
      (m.map List.sum).sum = 1 := by
  obtain ⟨new, -, hwf, henc, -, m, hm, hf⟩ := fit_eq fitD old hw h0 hlen hfit hold
  refine ⟨_, m, hf, fun s hs x hx => henc x (hfit s hs x hx), ?_⟩
  obtain ⟨m', h1, h2, h3, h4, h5⟩ := C57_transition_model
    ((adopt a.vars.length old new).leaves.map Prod.fst)
    (ss.map (fun s => s.map (encode (fullOf (a.cfg 0)) (adopt a.vars.length old new)))) hwf (by simpa using h0)
    (by
      intro e he
      obtain ⟨s, hs, rfl⟩ := List.mem_map.1 he
      rw [List.length_map]
      exact (hlen s hs).2)
    (by
      intro e he k hk
      obtain ⟨s, hs, rfl⟩ := List.mem_map.1 he
      obtain ⟨x, hx, rfl⟩ := List.mem_map.1 hk
      exact henc x (hfit s hs x hx))
  rw [hm] at h1
  cases h1
  rw [List.length_map] at h2
  refine ⟨h2, fun r hr => ⟨by rw [(h3 r hr).1, List.length_map], (h3 r hr).2⟩, ?_, h5⟩
  intro i j hi hj
  rw [h4 i j (by rw [List.length_map]; exact hi) (by rw [List.length_map]; exact hj)]
  simp

example : (exFit Heap.empty [[0, 1, 2, 0, 1, 2, 0, 1], [0, 1]]).toOption.map (fun r =>
    (r.1.leaves.map Prod.fst, r.2)) =
      some ([1, 3, 4], [[0, 1 / 2, 0], [0, 0, 1 / 4], [1 / 4, 0, 0]]) := by decide +kernel

/-- There are no transitions without a sequence, and none in a sequence of one sample. -/
theorem C57_errors (keys : List ℕ) :
    transitionModel keys [] = .error .typeError ∧
    ∀ (encs rest : List (List ℕ)) (e : List ℕ), (∀ e ∈ encs, 2 ≤ e.length) → e.length < 2 →
      transitionModel keys (encs ++ e :: rest) = .error .valueError := by
  refine ⟨rfl, ?_⟩
  intro encs rest e h1 h2
  have h3 : (encs ++ e :: rest).mapM transitionsOf = .error .valueError := by
    rw [List.mapM_append, mapM_ok (g := fun e : List ℕ => e.zip e.tail) (fun e he => transitionsOf_eq (h1 e he)),
      List.mapM_cons]
    have : transitionsOf e = .error .valueError := by
      unfold transitionsOf windowCount
      rw [if_pos h2]
      rfl
    rw [this]
    rfl
  unfold transitionModel transitionData
  rw [h3]
  rfl

example : transitionModel [0] [[0, 0], [0]] = .error .valueError := by decide +kernel

/-! ## C70: the training rows -/

/-- The rows the joint tree is learned from: for each sequence and each position at which a window of `w`
steps fits, all variables at that step followed by the targets at the `w - 1` steps after it.  The targets
are all variables if none are given. -/
theorem C70_windows (a : Args) (w : ℕ) (ss : List Sequence) (h0 : ss ≠ []) (h : ∀ s ∈ ss, w ≤ s.length) :
    ∃ ts : List ℕ, ts.Pairwise (· < ·) ∧
      (∀ v, v ∈ ts ↔ v < a.vars.length ∧ (a.targets = [] ∨ v ∈ a.targets)) ∧
      unfoldAll a w ss = .ok (ss.flatMap (fun s =>
        (List.range (s.length + 1 - w)).map (windowRow a.vars.length ts w s))) := by
  refine ⟨targetIndices a, ?_, ?_, unfoldAll_eq h0 h⟩
  · exact List.pairwise_lt_range.filter _
  · intro v
    unfold targetIndices Args.allTargets
    rw [List.mem_filter, List.mem_range]
    by_cases ht : a.targets = []
    · simp [ht]
    · simp [ht]

/-- The table of the example, with the first of two variables as target and windows of three steps. -/
example : unfoldAll ⟨[.numeric, .numeric], [0], [], .int 1, none, none, none, fun _ => false⟩ 3
    [[1, 2, 3, 4].map (fun x v => x + 10 * (v : ℚ)), [5, 6, 7].map (fun x v => x + 10 * (v : ℚ))] =
      .ok [[1, 11, 2, 3], [2, 12, 3, 4], [5, 15, 6, 7]] := by decide +kernel

/-- `fit` fails without a sequence, and if a sequence is shorter than the window. -/
theorem C70_errors (a : Args) (full : ℕ → Region) (fitD : Data → List ℕ → ℕ → D) (old : Heap D) (w : ℕ) :
    fit a full fitD old w [] = .error .valueError ∧
    ∀ ss s, s ∈ ss → s.length < w → fit a full fitD old w ss = .error .valueError := by
  refine ⟨rfl, ?_⟩
  intro ss s hs hlt
  have h1 : ∀ s : Sequence, s.length < w → unfoldSeq a w s = .error .valueError := by
    intro s hs
    unfold unfoldSeq windowCount
    rw [if_pos hs]
    rfl
  have h2 : ss.mapM (unfoldSeq a w) = .error .valueError := by
    induction ss with
    | nil => cases hs
    | cons t ss ih =>
      rw [List.mapM_cons]
      by_cases ht : t.length < w
      · rw [h1 t ht]
        rfl
      · rw [unfoldSeq_eq (by omega)]
        rcases List.mem_cons.1 hs with rfl | hs
        · exact absurd hlt ht
        · simp only [bind, Except.bind]
          rw [ih hs]
  unfold fit unfoldAll
  rw [h2]
  rfl

example : (exFit Heap.empty [[0, 1, 2], [1]]).toOption = none := by decide +kernel

/-! ## C71: the fitted template -/

/-- After `fit` on a new template, the template is the joint tree learned from the windows, with the
variables of the first step only: the rows of its leaves are together all windows, each leaf has the
fraction of its windows as prior and the distributions fitted to the first step of its windows, and the
priors sum to one. -/
theorem C71_fresh_partial (a : Args) (w : ℕ) (ss : List Sequence) (fitD : Data → List ℕ → ℕ → D) (old : Heap D)
    (hw : 1 ≤ w) (h0 : ss ≠ []) (hlen : ∀ s ∈ ss, w ≤ s.length ∧ 2 ≤ s.length)
    (hfit : ∀ s ∈ ss, ∀ x ∈ s, Fits a.vars x) (hold : old.leaves = []) :
    ∃ rows new h m, unfoldAll a w ss = .ok rows ∧
      learn ((expanded a w).cfg rows.length) (tableData rows) rows.length (fitD (tableData rows)) = .ok new ∧
      fit a (fullOf (a.cfg 0)) fitD old w ss = .ok (h, m) ∧
      h.inner = new.inner ∧ h.root = new.root ∧
      h.leaves.map Prod.fst = new.leaves.map Prod.fst ∧
      (h.leaves.flatMap (fun e => e.2.rows)).Perm (List.range rows.length) ∧
      (∀ e ∈ h.leaves, e.2.prior = (e.2.rows.length : ℚ) / (rows.length : ℚ) ∧
        e.2.dists = (List.range a.vars.length).map (fitD (tableData rows) e.2.rows)) ∧
      (h.leaves.map (fun e => e.2.prior)).sum = 1 := by
  obtain ⟨new, h1, -, -, hnd, m, -, hf⟩ := fit_eq fitD old hw h0 hlen hfit (by rw [hold]; exact List.nodup_nil)
  have hadopt : adopt a.vars.length old new
      = ⟨new.inner, new.leaves.map (fun e => (e.1, keepLeaf a.vars.length e.2)), new.root⟩ := by
    unfold adopt
    rw [hold, update_disjoint (keepLeaf_wf hnd) (by simp), List.nil_append]
  rw [hadopt] at hf
  have hpos := rowsOf_ne (a := a) h0 (fun s hs => (hlen s hs).1)
  obtain ⟨new', h2, h3, h4, -, h6⟩ := C40_partition ((expanded a w).cfg (rowsOf a w ss).length)
    (tableData (rowsOf a w ss)) (rowsOf a w ss).length (fitD (tableData (rowsOf a w ss)))
    (rowsOf_ok hw hfit _) hpos
  rw [h1] at h2
  cases h2
  refine ⟨rowsOf a w ss, new, _, m, unfoldAll_eq h0 (fun s hs => (hlen s hs).1), h1, hf, rfl, rfl, ?_, ?_, ?_, ?_⟩
  · simp [Function.comp_def]
  · simpa [List.flatMap_map, keepLeaf] using h3
  · intro e he
    obtain ⟨e', he', rfl⟩ := List.mem_map.1 he
    obtain ⟨-, -, h7, h8⟩ := h4 e' he'
    refine ⟨h7, ?_⟩
    show (e'.2.dists).take _ = _
    rw [h8, ← List.map_take]
    congr 1
    have : ((expanded a w).cfg (rowsOf a w ss).length).vars.length
        = a.vars.length + (w - 1) * (targetIndices a).length := expanded_length a w
    rw [this, List.take_range]
    congr 1
    omega
  · rw [← h6, List.map_map]
    rfl

example : (exFit Heap.empty [[0, 1, 2, 0, 1, 2, 0, 1], [0, 1]]).toOption.map (fun r =>
    (r.1.leaves.map (fun e => (e.1, e.2.prior, e.2.dists.length)), r.1.inner.map Prod.fst)) =
      some ([(1, 1 / 2, 1), (3, 1 / 4, 1), (4, 1 / 4, 1)], [0, 2]) := by decide +kernel

/-- Fitting again keeps the leaves of the first fit whose numbers the new tree does not use; the priors
then do not sum to one. -/
theorem C71_violated_refit : ∃ (a : Args) (w : ℕ) (ss ss' : List Sequence) (h h' : Heap Unit)
    (m m' : List (List ℚ)),
    (∀ s ∈ ss ++ ss', ∀ x ∈ s, Fits a.vars x) ∧
    fit a (fullOf (a.cfg 0)) (fun _ _ _ => ()) Heap.empty w ss = .ok (h, m) ∧
    fit a (fullOf (a.cfg 0)) (fun _ _ _ => ()) h w ss' = .ok (h', m') ∧
    h'.inner = [] ∧ h'.root = some 0 ∧
    h'.leaves.map (fun e => (e.1, e.2.prior)) = [(1, 1 / 2), (3, 1 / 4), (4, 1 / 4), (0, 1)] ∧
    (h'.leaves.map (fun e => e.2.prior)).sum = 2 := by
  obtain ⟨r, h1, r', h2, h3⟩ : ∃ r, exFit Heap.empty [[0, 1, 2, 0, 1, 2, 0, 1], [0, 1]] = .ok r ∧
      ∃ r', exFit r.1 [[0, 0, 0, 2]] = .ok r' ∧ (r'.1.inner.length = 0 ∧ r'.1.root = some 0 ∧
        r'.1.leaves.map (fun e => (e.1, e.2.prior)) = [(1, 1 / 2), (3, 1 / 4), (4, 1 / 4), (0, 1)] ∧
        (r'.1.leaves.map (fun e => e.2.prior)).sum = 2) := by
    obtain ⟨r, h1, h2⟩ : ∃ r, exFit Heap.empty [[0, 1, 2, 0, 1, 2, 0, 1], [0, 1]] = .ok r ∧
      okAnd (exFit r.1 [[0, 0, 0, 2]]) (fun r' => decide (r'.1.inner.length = 0 ∧ r'.1.root = some 0 ∧
        r'.1.leaves.map (fun e => (e.1, e.2.prior)) = [(1, 1 / 2), (3, 1 / 4), (4, 1 / 4), (0, 1)] ∧
        (r'.1.leaves.map (fun e => e.2.prior)).sum = 2)) = true := exists_ok (by decide +kernel)
    obtain ⟨r', h3, h4⟩ := okAnd_true h2
    exact ⟨r, h1, r', h3, of_decide_eq_true h4⟩
  refine ⟨exS, 2, _, _, r.1, r'.1, r.2, r'.2, ?_, h1, h2, List.length_eq_zero_iff.1 h3.1, h3.2.1, h3.2.2.1, h3.2.2.2⟩
  intro s hs
  simp only [List.map_cons, List.map_nil, List.mem_append, List.mem_cons, List.not_mem_nil, or_false] at hs
  rcases hs with (rfl | rfl) | rfl <;> exact exSeq_fits _ (by decide)

end Verif.Seq
