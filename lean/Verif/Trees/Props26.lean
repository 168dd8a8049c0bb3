import Verif.Trees.Reasons
import Verif.Trees.Props25

/-!
# C118: the reasons for unsatisfiable evidence
-/

namespace Verif.Trees

open Vars

variable {D E : Type}

/-! ## Specification -/

/-- The likelihood of each item of the evidence in each leaf. -/
def Likelihoods (o : DistOps D E) (full : ℕ → Region) (e : Query) (ls : List (Leaf D)) (f : Leaf D → ℕ × Region → ℚ) : Prop :=
  ∀ l ∈ ls, ∀ i ∈ e, ∃ d, l.dist i.1 = .ok d ∧ lik o d (l.restrict full i.1 i.2) = .ok (f l i)

/-- The items of the evidence that are impossible in a leaf, within the path of the leaf. -/
def impossible (full : ℕ → Region) (e : Query) (f : Leaf D → ℕ × Region → ℚ) (l : Leaf D) : Query :=
  (e.filter fun i => decide (f l i = 0)).map fun i => (i.1, l.restrict full i.1 i.2)

/-- The likelihood of the other items. -/
def restLikelihood (e : Query) (f : Leaf D → ℕ × Region → ℚ) (l : Leaf D) : ℚ :=
  ((e.filter fun i => decide (f l i ≠ 0)).map (f l)).prod

/-- The likelihood of the items before the first impossible one. -/
def firstLikelihood (e : Query) (f : Leaf D → ℕ × Region → ℚ) (l : Leaf D) : ℚ :=
  ((e.takeWhile fun i => decide (f l i ≠ 0)).map (f l)).prod

/-- The leaves with a certain conflict. -/
def withConflict (conflict : Leaf D → Query) (ls : List (Leaf D)) (K : Query) : List (Leaf D) :=
  ls.filter fun l => decide (conflict l = K)

/-! ## Lemmas -/

theorem conflicts_all {o : DistOps D E} {full : ℕ → Region} {l : Leaf D} {f : Leaf D → ℕ × Region → ℚ} (e : Query)
    (h : ∀ i ∈ e, ∃ d, l.dist i.1 = .ok d ∧ lik o d (l.restrict full i.1 i.2) = .ok (f l i)) (c : Query) (p : ℚ) :
    l.conflicts o full true e (c, p) = .ok (c ++ impossible full e f l, p * restLikelihood e f l) := by
  induction e generalizing c p with
  | nil => simp [Leaf.conflicts, impossible, restLikelihood]
  | cons i e ih =>
    obtain ⟨d, h1, h2⟩ := h i (by simp)
    have ih := ih (fun j hj => h j (List.mem_cons_of_mem _ hj))
    simp only [Leaf.conflicts, h1, h2, bind, Except.bind, if_true]
    by_cases hx : f l i = 0
    · rw [if_pos hx, ih]
      simp [impossible, restLikelihood, hx]
    · rw [if_neg hx, ih]
      simp [impossible, restLikelihood, hx, mul_assoc]

theorem conflicts_first {o : DistOps D E} {full : ℕ → Region} {l : Leaf D} {f : Leaf D → ℕ × Region → ℚ} (e : Query)
    (h : ∀ i ∈ e, ∃ d, l.dist i.1 = .ok d ∧ lik o d (l.restrict full i.1 i.2) = .ok (f l i)) (c : Query) (p : ℚ) :
    l.conflicts o full false e (c, p) = .ok (c ++ (impossible full e f l).take 1, p * firstLikelihood e f l) := by
  induction e generalizing c p with
  | nil => simp [Leaf.conflicts, impossible, firstLikelihood]
  | cons i e ih =>
    obtain ⟨d, h1, h2⟩ := h i (by simp)
    have ih := ih (fun j hj => h j (List.mem_cons_of_mem _ hj))
    simp only [Leaf.conflicts, h1, h2, bind, Except.bind, Bool.false_eq_true, if_false]
    by_cases hx : f l i = 0
    · rw [if_pos hx]
      simp [impossible, firstLikelihood, hx]
    · rw [if_neg hx, ih]
      simp [impossible, firstLikelihood, hx, mul_assoc]

/-- Adding up conflicts. -/
theorem addReasons {Q : Type} [DecidableEq Q] (z : Q) (cs rs : List (Q × ℚ)) (hw : Dict.WF rs) (hne : ∀ r ∈ rs, r.1 ≠ z) :
    Dict.WF (cs.foldl (addReason z) rs) ∧ (∀ r ∈ cs.foldl (addReason z) rs, r.1 ≠ z) ∧
    ∀ K, (cs.foldl (addReason z) rs).lookup K =
      if K ≠ z ∧ (K ∈ rs.map Prod.fst ∨ K ∈ cs.map Prod.fst) then
        some ((rs.lookup K).getD 0 + ((cs.filter fun c => decide (c.1 = K)).map Prod.snd).sum)
      else none := by
  induction cs generalizing rs with
  | nil =>
    refine ⟨hw, hne, ?_⟩
    intro K
    simp only [List.foldl_nil, List.map_nil, List.not_mem_nil, or_false, List.filter_nil, List.sum_nil, add_zero]
    split_ifs with h
    · obtain ⟨b, hb⟩ := Dict.lookup_isSome.2 h.2
      rw [hb]; rfl
    · cases hK : rs.lookup K with
      | none => rfl
      | some b =>
        exact absurd ⟨hne _ (Dict.lookup_mem hK), Dict.lookup_isSome.1 ⟨b, hK⟩⟩ h
  | cons c cs ih =>
    rw [List.foldl_cons]
    by_cases hc : c.1 = z
    · have : addReason z rs c = rs := if_pos hc
      rw [this]
      obtain ⟨h1, h2, h3⟩ := ih rs hw hne
      refine ⟨h1, h2, fun K => ?_⟩
      rw [h3 K]
      by_cases hK : K = z
      · simp [hK]
      · have : c.1 ≠ K := by rw [hc]; exact Ne.symm hK
        simp only [List.map_cons, List.mem_cons, Ne.symm this, false_or, List.filter_cons, this, decide_false,
          Bool.false_eq_true, if_false]
    · have : addReason z rs c = Dict.set rs c.1 ((rs.lookup c.1).getD 0 + c.2) := if_neg hc
      rw [this]
      obtain ⟨h1, h2, h3⟩ := ih (Dict.set rs c.1 ((rs.lookup c.1).getD 0 + c.2)) (Dict.wf_set hw _ _) (by
        intro r hr
        have hk : r.1 ∈ (Dict.set rs c.1 ((rs.lookup c.1).getD 0 + c.2)).map Prod.fst := List.mem_map.2 ⟨r, hr, rfl⟩
        rw [Dict.keys_set] at hk
        split_ifs at hk with h
        · obtain ⟨r', hr', e⟩ := List.mem_map.1 hk
          rw [← e]; exact hne r' hr'
        · rcases List.mem_append.1 hk with hk | hk
          · obtain ⟨r', hr', e⟩ := List.mem_map.1 hk
            rw [← e]; exact hne r' hr'
          · rw [List.mem_singleton.1 hk]; exact hc)
      refine ⟨h1, h2, fun K => ?_⟩
      rw [h3 K, Dict.lookup_set]
      have hkey : (K ∈ (Dict.set rs c.1 ((rs.lookup c.1).getD 0 + c.2)).map Prod.fst ∨ K ∈ cs.map Prod.fst) ↔
          (K ∈ rs.map Prod.fst ∨ K ∈ (c :: cs).map Prod.fst) := by
        rw [Dict.keys_set]
        split_ifs with h
        · simp only [List.map_cons, List.mem_cons]
          constructor
          · rintro (h' | h')
            · exact Or.inl h'
            · exact Or.inr (Or.inr h')
          · rintro (h' | rfl | h')
            · exact Or.inl h'
            · exact Or.inl h
            · exact Or.inr h'
        · simp only [List.map_cons, List.mem_cons, List.mem_append, List.not_mem_nil, or_false, or_assoc]
      simp only [hkey]
      congr 2
      by_cases hK : K = c.1
      · subst hK
        simp [add_assoc]
      · simp [hK, Ne.symm hK]

theorem swapped_mem {Q : Type} [DecidableEq Q] (rs : List (Q × ℚ)) (hw : Dict.WF rs) (p : ℚ) (K : Q) :
    (p, K) ∈ (rs.map fun r => (r.2, r.1)) ↔ rs.lookup K = some p := by
  rw [List.mem_map]
  constructor
  · rintro ⟨r, hr, e⟩
    cases e
    exact Dict.mem_lookup hw hr
  · intro h
    exact ⟨_, Dict.lookup_mem h, rfl⟩

theorem inconsistencies_of {o : DistOps D E} {n : ℕ} {full : ℕ → Region} {h : Heap D} {e : Query} {report : Bool}
    {ls : List (ℕ × Leaf D)} (hn : ∀ i ∈ e, i.1 < n) (hls : apply n h e = .ok ls) (conflict : Leaf D → Query)
    (p : Leaf D → ℚ)
    (hc : ∀ l ∈ ls.map Prod.snd, l.conflicts o full report e ([], 1) = .ok (conflict l, p l)) :
    ∃ rs, inconsistencies o n full h e report = .ok rs ∧ ((reasons rs).map Prod.snd).Nodup ∧
      (reasons rs).Pairwise (fun a b => b.1 ≤ a.1) ∧
      ∀ x K, (x, K) ∈ reasons rs ↔ K ≠ [] ∧ withConflict conflict (ls.map Prod.snd) K ≠ [] ∧
        x = ((withConflict conflict (ls.map Prod.snd) K).map p).sum := by
  have hm : ls.mapM (fun l => l.2.conflicts o full report e ([], 1)) = .ok (ls.map fun l => (conflict l.2, p l.2)) := by
    clear hls
    induction ls with
    | nil => rfl
    | cons l ls ih =>
      simp only [List.mapM_cons, hc l.2 (by simp), bind, Except.bind, pure, Except.pure,
        ih (fun l' hl' => hc l' (List.mem_cons_of_mem _ hl')), List.map_cons]
  obtain ⟨h1, -, h3⟩ := addReasons ([] : Query) (ls.map fun l => (conflict l.2, p l.2)) [] (by simp [Dict.WF]) (by simp)
  refine ⟨(ls.map fun l => (conflict l.2, p l.2)).foldl (addReason []) [], ?_, ?_, ?_, ?_⟩
  · unfold inconsistencies
    simp only [checkQuery, if_pos hn, hls, hm, bind, Except.bind, pure, Except.pure]
  · refine ((List.perm_insertionSort _ _).map Prod.snd).nodup_iff.2 ?_
    rw [List.map_map]
    exact h1
  · exact List.pairwise_insertionSort _ _
  · intro x K
    unfold reasons
    rw [List.mem_insertionSort, swapped_mem _ h1, h3 K]
    have hkey : K ∈ (ls.map fun l => (conflict l.2, p l.2)).map Prod.fst ↔
        withConflict conflict (ls.map Prod.snd) K ≠ [] := by
      unfold withConflict
      rw [ne_eq, List.filter_eq_nil_iff]
      push Not
      simp only [List.map_map, List.mem_map, Function.comp, decide_eq_true_eq]
      constructor
      · rintro ⟨l, hl, e⟩
        exact ⟨l.2, ⟨l, hl, rfl⟩, e⟩
      · rintro ⟨_, ⟨l, hl, rfl⟩, e⟩
        exact ⟨l, hl, e⟩
    have hsum : (((ls.map fun l => (conflict l.2, p l.2)).filter fun c => decide (c.1 = K)).map Prod.snd).sum =
        ((withConflict conflict (ls.map Prod.snd) K).map p).sum := by
      unfold withConflict
      rw [List.filter_map, List.filter_map, List.map_map, List.map_map]
      rfl
    simp only [List.map_nil, List.not_mem_nil, false_or, List.lookup_nil, Option.getD_none, zero_add, hsum, hkey]
    split_ifs with hK
    · simp [hK.1, hK.2, eq_comm]
    · simp only [false_iff]
      rintro ⟨a, b, -⟩
      exact hK ⟨a, b⟩

theorem evidence_none {o : DistOps D E} {full : ℕ → Region} {l : Leaf D} (e : Query) :
    e.foldlM (l.evidenceStep o full) none = .ok none := by
  induction e with
  | nil => rfl
  | cons i e ih => rw [List.foldlM_cons]; exact ih

theorem evidence_some {o : DistOps D E} {full : ℕ → Region} {l : Leaf D} {f : Leaf D → ℕ × Region → ℚ} (e : Query)
    (h : ∀ i ∈ e, ∃ d, l.dist i.1 = .ok d ∧ lik o d (l.restrict full i.1 i.2) = .ok (f l i)) (p : ℚ) :
    e.foldlM (l.evidenceStep o full) (some p) =
      .ok (if impossible full e f l = [] then some (p * restLikelihood e f l) else none) := by
  induction e generalizing p with
  | nil => simp [impossible, restLikelihood]; rfl
  | cons i e ih =>
    have h' := fun j hj => h j (List.mem_cons_of_mem i hj)
    obtain ⟨d, h1, h2⟩ := h i (by simp)
    rw [List.foldlM_cons]
    simp only [Leaf.evidenceStep, h1, h2, bind, Except.bind, pure, Except.pure]
    by_cases hx : f l i = 0
    · have := evidence_none (o := o) (full := full) (l := l) e
      rw [if_pos hx, this]
      simp [impossible, hx]
    · rw [if_neg hx, ih h']
      have h3 : impossible full (i :: e) f l = impossible full e f l := by simp [impossible, hx]
      have h4 : restLikelihood (i :: e) f l = f l i * restLikelihood e f l := by simp [restLikelihood, hx]
      simp only [h3, h4, mul_assoc]

/-! ## Theorems -/

/-- C118: with `report_inconsistencies`, the reasons are the different impossible parts of the evidence in the leaves the
evidence leads to, each once, with the sum over those leaves of the likelihood of the rest of the evidence, in descending
order. -/
theorem C118_reasons (o : DistOps D E) (n : ℕ) (full : ℕ → Region) (h : Heap D) (e : Query) (ls : List (ℕ × Leaf D))
    (f : Leaf D → ℕ × Region → ℚ) (hn : ∀ i ∈ e, i.1 < n) (hls : apply n h e = .ok ls)
    (hf : Likelihoods o full e (ls.map Prod.snd) f) :
    ∃ rs, inconsistencies o n full h e true = .ok rs ∧ ((reasons rs).map Prod.snd).Nodup ∧
      (reasons rs).Pairwise (fun a b => b.1 ≤ a.1) ∧
      ∀ x K, (x, K) ∈ reasons rs ↔ K ≠ [] ∧ withConflict (impossible full e f) (ls.map Prod.snd) K ≠ [] ∧
        x = ((withConflict (impossible full e f) (ls.map Prod.snd) K).map (restLikelihood e f)).sum :=
  inconsistencies_of hn hls _ _ (fun l hl => by
    have := conflicts_all (o := o) (full := full) (f := f) e (hf l hl) [] 1
    simpa using this)

/-- C118: without `report_inconsistencies`, each reason is the first impossible item of the evidence in a leaf. -/
theorem C118_first (o : DistOps D E) (n : ℕ) (full : ℕ → Region) (h : Heap D) (e : Query) (ls : List (ℕ × Leaf D))
    (f : Leaf D → ℕ × Region → ℚ) (hn : ∀ i ∈ e, i.1 < n) (hls : apply n h e = .ok ls)
    (hf : Likelihoods o full e (ls.map Prod.snd) f) :
    ∃ rs, inconsistencies o n full h e false = .ok rs ∧ ((reasons rs).map Prod.snd).Nodup ∧
      (reasons rs).Pairwise (fun a b => b.1 ≤ a.1) ∧
      ∀ x K, (x, K) ∈ reasons rs ↔ K ≠ [] ∧
        withConflict (fun l => (impossible full e f l).take 1) (ls.map Prod.snd) K ≠ [] ∧
        x = ((withConflict (fun l => (impossible full e f l).take 1) (ls.map Prod.snd) K).map (firstLikelihood e f)).sum :=
  inconsistencies_of hn hls _ _ (fun l hl => by
    have := conflicts_first (o := o) (full := full) (f := f) e (hf l hl) [] 1
    simpa using this)

/-- C118: if the leaves have positive priors, the evidence is reported as unsatisfiable just if something is impossible in each
leaf the evidence leads to, i.e. if each of these leaves counts for a reason. -/
theorem C118_unsatisfiable (o : DistOps D E) (n : ℕ) (full : ℕ → Region) (h : Heap D) (vs : List ℕ) (e : Query)
    (ls : List (ℕ × Leaf D)) (f : Leaf D → ℕ × Region → ℚ) (hn : ∀ i ∈ e, i.1 < n) (hls : apply n h e = .ok ls)
    (hf : Likelihoods o full e (ls.map Prod.snd) f) (hpos : ∀ l ∈ ls.map Prod.snd, ∀ i ∈ e, 0 ≤ f l i)
    (hprior : ∀ l ∈ ls.map Prod.snd, 0 < l.prior)
    (hd : ∀ l ∈ ls.map Prod.snd, ∀ v ∈ vs, ∃ d, l.posterior o full e v = .ok d)
    (hm : ∀ ds ws, o.merge ds ws ≠ .error .unsatisfiable) :
    posterior o n full h vs e = .error .unsatisfiable ↔ ∀ l ∈ ls.map Prod.snd, impossible full e f l ≠ [] := by
  have hcon : ∀ l ∈ ls.map Prod.snd, ∃ ds, l.contribution o full vs e =
      .ok (if impossible full e f l = [] then some (restLikelihood e f l * l.prior, ds) else none) := by
    intro l hl
    have h1 : l.evidence o full e = .ok (if impossible full e f l = [] then some (1 * restLikelihood e f l) else none) :=
      evidence_some e (hf l hl) 1
    obtain ⟨ds, hds⟩ : ∃ ds, vs.mapM (l.posterior o full e) = .ok ds := by
      cases hv : vs.mapM (l.posterior o full e) with
      | ok ds => exact ⟨ds, rfl⟩
      | error x =>
        obtain ⟨v, hv1, hv2⟩ := mapM_error _ _ _ hv
        obtain ⟨d, hd'⟩ := hd l hl v hv1
        rw [hd'] at hv2; cases hv2
    refine ⟨ds, ?_⟩
    unfold Leaf.contribution
    rw [h1]
    by_cases hi : impossible full e f l = []
    · simp only [if_pos hi, bind, Except.bind, hds, pure, Except.pure, one_mul]
    · simp only [if_neg hi, bind, Except.bind, pure, Except.pure]
  have hrest : ∀ l ∈ ls.map Prod.snd, 0 < restLikelihood e f l := by
    intro l hl
    unfold restLikelihood
    apply List.prod_pos
    intro x hx
    obtain ⟨i, hi, rfl⟩ := List.mem_map.1 hx
    obtain ⟨hi, hne⟩ := List.mem_filter.1 hi
    exact lt_of_le_of_ne (hpos l hl i hi) (Ne.symm (by simpa using hne))
  obtain ⟨cs, hcs, hnil, hw⟩ : ∃ cs, ls.mapM (fun l => l.2.contribution o full vs e) = .ok cs ∧
      (cs.filterMap id = [] ↔ ∀ l ∈ ls.map Prod.snd, impossible full e f l ≠ []) ∧
      ∀ c ∈ cs.filterMap id, 0 < c.1 := by
    clear hls hf hpos hd
    induction ls with
    | nil => exact ⟨[], rfl, by simp, by simp⟩
    | cons l ls ih =>
      obtain ⟨cs, h1, h2, h3⟩ := ih (fun l' hl' => hprior l' (List.mem_cons_of_mem _ hl'))
        (fun l' hl' => hcon l' (List.mem_cons_of_mem _ hl')) (fun l' hl' => hrest l' (List.mem_cons_of_mem _ hl'))
      obtain ⟨ds, hds⟩ := hcon l.2 (by simp)
      refine ⟨(if impossible full e f l.2 = [] then some (restLikelihood e f l.2 * l.2.prior, ds) else none) :: cs,
        ?_, ?_, ?_⟩
      · simp only [List.mapM_cons, hds, h1, bind, Except.bind, pure, Except.pure]
      · by_cases hi : impossible full e f l.2 = []
        · simp [hi]
        · rw [if_neg hi, List.filterMap_cons_none rfl, h2, List.map_cons, List.forall_mem_cons]
          exact ⟨fun x => ⟨hi, x⟩, fun x => x.2⟩
      · by_cases hi : impossible full e f l.2 = []
        · have hs : (some (restLikelihood e f l.2 * l.2.prior, ds) :: cs).filterMap id =
              (restLikelihood e f l.2 * l.2.prior, ds) :: cs.filterMap id := List.filterMap_cons_some rfl
          rw [if_pos hi, hs, List.forall_mem_cons]
          exact ⟨mul_pos (hrest l.2 (by simp)) (hprior l.2 (by simp)), h3⟩
        · rw [if_neg hi, List.filterMap_cons_none rfl]
          exact h3
  rw [← hnil]
  unfold posterior
  simp only [checkQuery, if_pos hn, hls, hcs, bind, Except.bind]
  have hnn : ∀ v ∈ (cs.filterMap id).map Prod.fst, 0 ≤ v := by
    intro v hv
    obtain ⟨c, hc, rfl⟩ := List.mem_map.1 hv
    exact (hw c hc).le
  unfold weightsOf
  rw [Disc.normValues_nonneg _ hnn]
  by_cases hz : cs.filterMap id = []
  · rw [hz]
    exact ⟨fun _ => rfl, fun _ => rfl⟩
  · have hs : ((cs.filterMap id).map Prod.fst).sum ≠ 0 := by
      rw [ne_eq, Ut.sum_eq_zero_iff hnn]
      intro hall
      obtain ⟨c, hc⟩ := List.exists_mem_of_ne_nil _ hz
      exact (hw c hc).ne' (hall _ (List.mem_map.2 ⟨c, hc, rfl⟩))
    rw [if_neg hs]
    simp only [hz, iff_false]
    intro hu
    obtain ⟨v, -, hv⟩ := mapM_error _ _ _ hu
    split at hv
    · next x hmm => cases hv; exact hm _ _ hmm
    · cases hv

/-! ## Example -/

/-- A tree over two symbolic variables that splits on the first; the second always has its first value. -/
def exConflict : Heap (DD Atom) :=
  let y : DD Atom := (false, ⟨⟨"Y", [.str "a", .str "b"]⟩, [1, 0]⟩)
  let x (p q : ℚ) : DD Atom := (false, ⟨⟨"X", [.str "t", .str "f"]⟩, [p, q]⟩)
  ⟨[(0, ⟨0, [.set [0], .set [1]], [some 1, some 2], none, 4, []⟩)],
   [(1, ⟨some 0, [(0, .set [0])], [x 1 0, y], 1 / 2, 2, []⟩),
    (2, ⟨some 0, [(0, .set [1])], [x 0 1, y], 1 / 2, 2, []⟩)], some 0⟩

/-- Both leaves count for the same reason, so that its likelihood is 2. -/
example : (inconsistencies (discOps Atom) 2 (fun _ => .set [0, 1]) exConflict [(0, .set [0, 1]), (1, .set [1])] true).map reasons =
      .ok [(2, [(1, .set [1])])] ∧
    posterior (discOps Atom) 2 (fun _ => .set [0, 1]) exConflict [0] [(0, .set [0, 1]), (1, .set [1])] =
      .error .unsatisfiable := by
  decide +kernel

/-- The hypotheses of the theorems are met by the example. -/
example : ∃ ls, apply 2 exConflict [(0, .set [0, 1]), (1, .set [1])] = .ok ls ∧ ls.length = 2 ∧
    Likelihoods (discOps Atom) (fun _ => .set [0, 1]) [(0, .set [0, 1]), (1, .set [1])] (ls.map Prod.snd)
      (fun _ i => if i.1 = 0 then 1 else 0) ∧
    (∀ l ∈ ls.map Prod.snd, 0 < l.prior) := by
  refine ⟨exConflict.leaves.reverse, by decide +kernel, by decide +kernel, ?_, by decide +kernel⟩
  intro l hl i hi
  simp only [exConflict, List.reverse_cons, List.reverse_nil, List.nil_append, List.cons_append, List.map_cons, List.map_nil, List.mem_cons, List.not_mem_nil, or_false] at hl hi
  rcases hl with rfl | rfl <;> rcases hi with rfl | rfl <;> exact ⟨_, rfl, by decide +kernel⟩

end Verif.Trees
