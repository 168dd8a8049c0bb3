import Verif.Seq.Spec
import Verif.Learn.Props2
import Verif.ListAux
import Verif.Trees.Lemmas2
import Mathlib.Algebra.Order.BigOperators.Group.List
import Mathlib.Tactic.FieldSimp

/-!
# Lemmas on the training table and the transition model
-/

namespace Verif.Seq

open Trees Learn

variable {D : Type}

theorem reshapeF_eq {n V : ℕ} (a : ℕ → ℕ → ℕ → ℚ) {i c : ℕ} (hi : i < n) :
    reshapeF n V a i c = a i (c % V) (c / V) := by
  have hn : 0 < n := by omega
  unfold reshapeF
  simp only
  rw [Nat.add_mul_mod_self_left, Nat.mod_eq_of_lt hi, Nat.add_mul_div_left _ _ hn, Nat.div_eq_of_lt hi,
    Nat.zero_add]

theorem targetIndices_lt {a : Args} {v : ℕ} (h : v ∈ targetIndices a) : v < a.vars.length := by
  unfold targetIndices at h
  rw [List.mem_filter, List.mem_range] at h
  exact h.1

theorem range'_one (k : ℕ) : List.range' 1 k = (List.range k).map (· + 1) := by
  apply List.ext_getElem
  · simp
  · intro i h1 h2
    simp
    omega

theorem dataIndices_map {β : Type} (a : Args) (w : ℕ) (f : ℕ → ℕ → β) :
    (dataIndices a w).map (fun c => f (c % a.vars.length) (c / a.vars.length))
      = (List.range a.vars.length).map (fun v => f v 0)
        ++ (List.range (w - 1)).flatMap (fun k => (targetIndices a).map (fun v => f v (k + 1))) := by
  unfold dataIndices
  rw [List.map_append, List.map_flatMap, range'_one, List.flatMap_map]
  congr 1
  · apply List.map_congr_left
    intro v hv
    rw [List.mem_range] at hv
    rw [Nat.mod_eq_of_lt hv, Nat.div_eq_of_lt hv]
  · congr 1
    funext k
    rw [List.map_map]
    apply List.map_congr_left
    intro v hv
    have hv := targetIndices_lt hv
    have h0 : 0 < a.vars.length := by omega
    simp only [Function.comp]
    rw [Nat.add_mul_mod_self_right, Nat.mod_eq_of_lt hv, Nat.add_mul_div_right _ _ h0,
      Nat.div_eq_of_lt hv, Nat.zero_add]

theorem unfoldSeq_eq {a : Args} {w : ℕ} {s : Sequence} (h : w ≤ s.length) :
    unfoldSeq a w s = .ok ((List.range (s.length + 1 - w)).map
      (windowRow a.vars.length (targetIndices a) w s)) := by
  unfold unfoldSeq windowCount
  rw [if_neg (by omega)]
  simp only [bind, Except.bind, pure, Except.pure]
  rw [show s.length - w + 1 = s.length + 1 - w by omega]
  congr 1
  apply List.map_congr_left
  intro i hi
  rw [List.mem_range] at hi
  have : (dataIndices a w).map (fun c => reshapeF (s.length + 1 - w) a.vars.length (windowAt s) i c)
      = (dataIndices a w).map (fun c =>
        (fun v k => windowAt s i v k) (c % a.vars.length) (c / a.vars.length)) := by
    apply List.map_congr_left
    intro c _
    exact reshapeF_eq _ hi
  rw [this, dataIndices_map]
  rfl

theorem flatten_map {β γ : Type} (f : β → List γ) (l : List β) : (l.map f).flatten = l.flatMap f := by
  rw [List.flatMap_def]

theorem unfoldAll_eq {a : Args} {w : ℕ} {ss : List Sequence} (h0 : ss ≠ []) (h : ∀ s ∈ ss, w ≤ s.length) :
    unfoldAll a w ss = .ok (ss.flatMap (fun s => (List.range (s.length + 1 - w)).map
      (windowRow a.vars.length (targetIndices a) w s))) := by
  unfold unfoldAll
  rw [mapM_ok (g := fun s : Sequence => (List.range (s.length + 1 - w)).map
      (windowRow a.vars.length (targetIndices a) w s)) (fun s hs => unfoldSeq_eq (h s hs))]
  simp only [bind, Except.bind, pure, Except.pure]
  cases ss with
  | nil => exact absurd rfl h0
  | cons s ss =>
    simp only [List.map_cons]
    rw [← List.map_cons (f := fun s : Sequence => (List.range (s.length + 1 - w)).map
      (windowRow a.vars.length (targetIndices a) w s)), flatten_map]

/-! ## The transition model -/

theorem transitionsOf_eq {e : List ℕ} (h : 2 ≤ e.length) : transitionsOf e = .ok (e.zip e.tail) := by
  unfold transitionsOf windowCount
  rw [if_neg (by omega)]
  simp only [bind, Except.bind, pure, Except.pure]
  congr 1
  apply List.ext_getElem
  · simp
    omega
  · intro i h1 h2
    simp only [List.length_map, List.length_range] at h1
    simp only [List.getElem_map, List.getElem_range, List.getElem_zip, List.getElem_tail]
    rw [List.getD_eq_getElem?_getD, List.getD_eq_getElem?_getD, List.getElem?_eq_getElem (by omega),
      List.getElem?_eq_getElem (by omega)]
    rfl

theorem transitionData_eq {encs : List (List ℕ)} (h0 : encs ≠ []) (h : ∀ e ∈ encs, 2 ≤ e.length) :
    transitionData encs = .ok (neighbours encs) := by
  unfold transitionData
  rw [mapM_ok (g := fun e : List ℕ => e.zip e.tail) (fun e he => transitionsOf_eq (h e he))]
  simp only [bind, Except.bind, pure, Except.pure]
  cases encs with
  | nil => exact absurd rfl h0
  | cons e encs =>
    simp only [List.map_cons]
    rw [← List.map_cons (f := fun e : List ℕ => e.zip e.tail), flatten_map]
    rfl

theorem entry_eq (ps : List (ℕ × ℕ)) (i j : ℕ) : entry ps i j = frequency ps (i, j) := by
  unfold entry frequency
  congr 2

theorem neighbours_ne {encs : List (List ℕ)} (h0 : encs ≠ []) (h : ∀ e ∈ encs, 2 ≤ e.length) :
    neighbours encs ≠ [] := by
  obtain ⟨e, he⟩ := List.exists_mem_of_ne_nil _ h0
  have h2 := h e he
  match e, h2, he with
  | x :: y :: r, _, he =>
    intro hn
    have : (x, y) ∈ neighbours encs := List.mem_flatMap.2 ⟨_, he, by simp⟩
    rw [hn] at this
    cases this

theorem mem_neighbours {encs : List (List ℕ)} {keys : List ℕ} (h : ∀ e ∈ encs, ∀ k ∈ e, k ∈ keys)
    {p : ℕ × ℕ} (hp : p ∈ neighbours encs) : p.1 ∈ keys ∧ p.2 ∈ keys := by
  obtain ⟨e, he, hp⟩ := List.mem_flatMap.1 hp
  have := List.of_mem_zip (show (p.1, p.2) ∈ e.zip e.tail from hp)
  exact ⟨h e he _ this.1, h e he _ (List.mem_of_mem_tail this.2)⟩

/-- Counting each key once. -/
theorem sum_indicator {keys : List ℕ} (hk : keys.Nodup) {k : ℕ} (h : k ∈ keys) (c : ℚ) :
    (keys.map (fun i => if k = i then c else 0)).sum = c := by
  induction keys with
  | nil => cases h
  | cons a l ih =>
    rw [List.map_cons, List.sum_cons]
    obtain ⟨ha, hl⟩ := List.nodup_cons.1 hk
    rcases List.mem_cons.1 h with rfl | hm
    · have : l.map (fun i => if k = i then c else 0) = l.map (fun _ => (0 : ℚ)) := by
        apply List.map_congr_left
        intro i hi
        rw [if_neg]
        rintro rfl
        exact ha hi
      rw [if_pos rfl, this]
      simp
    · rw [if_neg (by rintro rfl; exact ha hm), zero_add, ih hl hm]

theorem list_sum_add {β : Type} (l : List β) (f g : β → ℚ) :
    (l.map (fun i => f i + g i)).sum = (l.map f).sum + (l.map g).sum := by
  induction l with
  | nil => simp
  | cons a l ih =>
    simp only [List.map_cons, List.sum_cons, ih]
    ring

theorem sum_count {keys : List ℕ} (hk : keys.Nodup) (ps : List (ℕ × ℕ))
    (h : ∀ p ∈ ps, p.1 ∈ keys ∧ p.2 ∈ keys) :
    (keys.map (fun i => (keys.map (fun j => (ps.count (i, j) : ℚ))).sum)).sum = (ps.length : ℚ) := by
  induction ps with
  | nil => simp
  | cons p ps ih =>
    obtain ⟨h1, h2⟩ := h p (by simp)
    have ih := ih (fun q hq => h q (by simp [hq]))
    have step : ∀ i j : ℕ, (((p :: ps).count (i, j) : ℕ) : ℚ)
        = (ps.count (i, j) : ℚ) + (if p.1 = i then (if p.2 = j then 1 else 0) else 0) := by
      intro i j
      rw [List.count_cons]
      push_cast
      congr 1
      by_cases h3 : p.1 = i <;> by_cases h4 : p.2 = j <;> simp [Prod.ext_iff, h3, h4]
    simp only [step, list_sum_add]
    rw [ih]
    have inner : ∀ i : ℕ, (keys.map (fun j => if p.1 = i then (if p.2 = j then (1 : ℚ) else 0) else 0)).sum
        = if p.1 = i then 1 else 0 := by
      intro i
      by_cases h3 : p.1 = i
      · simp only [h3, if_true]
        exact sum_indicator hk h2 1
      · simp [h3]
    simp only [inner]
    rw [sum_indicator hk h1 1, List.length_cons]
    push_cast
    ring

theorem sum_frequency {keys : List ℕ} (hk : keys.Nodup) {ps : List (ℕ × ℕ)} (hne : ps ≠ [])
    (h : ∀ p ∈ ps, p.1 ∈ keys ∧ p.2 ∈ keys) :
    ((keys.map (fun i => keys.map (fun j => frequency ps (i, j)))).map List.sum).sum = 1 := by
  have hpos : (ps.length : ℚ) ≠ 0 := by
    have := List.length_pos_iff.2 hne
    positivity
  have h1 : ((keys.map (fun i => keys.map (fun j => frequency ps (i, j)))).map List.sum).sum
      = (keys.map (fun i => (keys.map (fun j => (ps.count (i, j) : ℚ))).sum)).sum / (ps.length : ℚ) := by
    rw [List.map_map]
    have : ∀ (l : List ℕ) (f : ℕ → ℚ) (z : ℚ), (l.map (fun i => f i / z)).sum = (l.map f).sum / z := by
      intro l f z
      induction l with
      | nil => simp
      | cons a l ih =>
        simp only [List.map_cons, List.sum_cons, ih]
        ring
    rw [← this]
    congr 1
    apply List.map_congr_left
    intro i _
    exact this _ _ _
  rw [h1, sum_count hk ps h, div_self hpos]

/-! ## `encode` returns a leaf -/

theorem encode_mem {full : ℕ → Region} {h : Heap D} {x : ℕ → ℚ}
    (hc : ∃ e ∈ h.leaves, contains full e.2.path x = true) : encode full h x ∈ h.leaves.map Prod.fst := by
  unfold encode
  have key : ∀ (ls : List (ℕ × Leaf D)) (r : ℕ),
      (r ∈ h.leaves.map Prod.fst ∨ ∃ e ∈ ls, contains full e.2.path x = true) →
      (∀ e ∈ ls, e ∈ h.leaves) →
      ls.foldl (fun r e => if contains full e.2.path x then e.1 else r) r ∈ h.leaves.map Prod.fst := by
    intro ls
    induction ls with
    | nil =>
      intro r hr _
      rcases hr with hr | ⟨e, he, -⟩
      · exact hr
      · cases he
    | cons a ls ih =>
      intro r hr hs
      rw [List.foldl_cons]
      refine ih _ ?_ (fun e he => hs e (by simp [he]))
      by_cases ha : contains full a.2.path x = true
      · rw [if_pos ha]
        exact .inl (List.mem_map.2 ⟨a, hs a (by simp), rfl⟩)
      · rw [if_neg ha]
        rcases hr with hr | ⟨e, he, hc⟩
        · exact .inl hr
        · rcases List.mem_cons.1 he with rfl | he
          · exact absurd hc ha
          · exact .inr ⟨e, he, hc⟩
  exact key _ _ (.inr hc) (fun _ he => he)

/-- Only what is said about the variables of a path matters. -/
theorem contains_congr {full full' : ℕ → Region} {path : Path} {x x' : ℕ → ℚ}
    (hf : ∀ s ∈ path, full s.1 = full' s.1) (hx : ∀ s ∈ path, x s.1 = x' s.1) :
    contains full path x = contains full' path x' := by
  have h1 : pathMap full path = pathMap full' path := by
    clear hx
    induction path using List.reverseRecOn with
    | nil => rfl
    | append_singleton l r ih =>
      rw [pathMap_snoc, pathMap_snoc, ih (fun s hs => hf s (by simp [hs])), hf r (by simp)]
  unfold contains
  rw [h1, Bool.eq_iff_iff, List.all_eq_true, List.all_eq_true]
  refine forall_congr' fun e => forall_congr' fun he => ?_
  have hk := (pathMap_keys full' path e.1).1 (List.mem_map.2 ⟨e, he, rfl⟩)
  obtain ⟨s, hs, hs1⟩ := List.mem_map.1 hk
  rw [← hs1, hx s hs]

end Verif.Seq
