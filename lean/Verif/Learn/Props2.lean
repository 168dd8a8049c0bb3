import Verif.Learn.Props
import Verif.Learn.Lemmas10

/-!
# `encode` on all samples, and the variables that are split on
-/

namespace Verif.Learn

open Trees
open Vars (RI)

variable {D : Type}

/-- The sample meets every restriction on a path, if an interval is read as "above the lower and not
above the upper bound", whatever its flags say. -/
def SatUpper (path : Path) (x : ℕ → ℚ) : Prop :=
  ∀ e ∈ path, match e.2 with
    | .num i => i.lower < .fin (x e.1) ∧ .fin (x e.1) ≤ i.upper
    | .set l => ∃ z ∈ l, x e.1 = (z : ℚ)

/-- No bound of an interval lies from `y` up to just below `x`. -/
def Gap (x y : ℚ) : Region → Prop
  | .num i => ∀ q, i.lower = .fin q ∨ i.upper = .fin q → ¬ (y ≤ q ∧ q < x)
  | .set _ => x = y

theorem gap_iff {c : RI} {x y : ℚ} (hxy : y ≤ x) (h : Gap x y (.num c)) :
    (c.lower < .fin x ↔ c.lower < .fin y) ∧ (XQ.fin x ≤ c.upper ↔ XQ.fin y ≤ c.upper) := by
  constructor
  · cases hl : c.lower with
    | ninf => simp
    | pinf =>
      constructor <;> intro h' <;> exact absurd (lt_of_lt_of_le h' (XQ.le_pinf _)) (lt_irrefl _)
    | fin q =>
      have := h q (.inl hl)
      rw [XQ.fin_lt, XQ.fin_lt]
      constructor
      · intro h1
        by_contra h2
        exact this ⟨not_lt.1 h2, h1⟩
      · intro h1
        exact lt_of_lt_of_le h1 hxy
  · cases hu : c.upper with
    | pinf => simp
    | ninf =>
      constructor <;> intro h' <;> exact absurd (lt_of_lt_of_le (XQ.ninf_lt_fin _) h') (lt_irrefl _)
    | fin q =>
      have := h q (.inr hu)
      rw [XQ.fin_le, XQ.fin_le]
      constructor
      · intro h1
        exact hxy.trans h1
      · intro h1
        by_contra h2
        exact this ⟨h1, not_le.1 h2⟩

theorem gap_meets {R : Region} {x y : ℚ} (hxy : y ≤ x) (h : Gap x y R) : meets x R = meets y R := by
  cases R with
  | num c =>
    obtain ⟨h1, h2⟩ := gap_iff hxy h
    unfold meets
    simp only [h1, h2]
  | set l => rw [show x = y from h]

/-- Finitely many bounds leave a gap below a number. -/
theorem exists_gap (l : List (ℚ × ℚ)) : ∃ e : ℚ, 0 < e ∧ ∀ p ∈ l, ¬ (p.1 - e ≤ p.2 ∧ p.2 < p.1) := by
  induction l with
  | nil => exact ⟨1, one_pos, by simp⟩
  | cons a l ih =>
    obtain ⟨e, he, hl⟩ := ih
    by_cases ha : a.2 < a.1
    · refine ⟨min e ((a.1 - a.2) / 2), lt_min he (by linarith), ?_⟩
      intro p hp
      rcases List.mem_cons.1 hp with rfl | hp
      · rintro ⟨h1, -⟩
        have := min_le_right e ((p.1 - p.2) / 2)
        linarith
      · rintro ⟨h1, h2⟩
        have := min_le_left e ((a.1 - a.2) / 2)
        exact hl p hp ⟨by linarith, h2⟩
    · refine ⟨e, he, ?_⟩
      intro p hp
      rcases List.mem_cons.1 hp with rfl | hp
      · exact fun h => ha h.2
      · exact hl p hp

/-- The finite bounds of a region. -/
def boundsOf : Region → List ℚ
  | .num i => (match i.lower with | .fin q => [q] | _ => []) ++ (match i.upper with | .fin q => [q] | _ => [])
  | .set _ => []

theorem mem_boundsOf {i : RI} {q : ℚ} (h : i.lower = .fin q ∨ i.upper = .fin q) :
    q ∈ boundsOf (.num i) := by
  unfold boundsOf
  rcases h with h | h <;> simp [h]

/-- Intervals stay intervals when restrictions are collected. -/
theorem pathMap_kind (full : ℕ → Region) (path : Path) (v : ℕ) (hf : ∃ i, full v = .num i)
    (hp : ∀ e ∈ path, e.1 = v → ∃ i, e.2 = .num i) :
    ∀ R, (pathMap full path).lookup v = some R → ∃ i, R = .num i := by
  induction path using List.reverseRecOn with
  | nil => simp [pathMap]
  | append_singleton l r ih =>
    have ih := ih (fun e he => hp e (by simp [he]))
    intro R hR
    rw [pathMap_snoc, Dict.lookup_set] at hR
    by_cases hv : v = r.1
    · rw [if_pos hv] at hR
      cases hR
      obtain ⟨j, hj⟩ := hp r (by simp) hv.symm
      rw [hj, ← hv]
      cases hl : (pathMap full l).lookup v with
      | none =>
        obtain ⟨i, hi⟩ := hf
        exact ⟨_, by rw [Option.getD_none, hi]; rfl⟩
      | some R' =>
        obtain ⟨i, hi⟩ := ih _ hl
        exact ⟨_, by rw [Option.getD_some, hi]; rfl⟩
    · rw [if_neg hv] at hR
      exact ih R hR

theorem fullOf_mem {c : Cfg} {x : ℕ → ℚ} (hx : Valid c x) (v : ℕ) : (fullOf c v).Mem (.fin (x v)) := by
  unfold fullOf
  have hdom : ∀ n, (∃ i : ℕ, i < n ∧ x v = (i : ℚ)) → (Region.set (domainOf n)).Mem (.fin (x v)) := by
    rintro n ⟨i, hi, hxi⟩
    exact ⟨(i : ℤ), List.mem_map.2 ⟨i, List.mem_range.2 hi, rfl⟩, by rw [hxi]; rfl⟩
  have hnum : (Region.num ⟨.ninf, .pinf, .exc, .exc⟩).Mem (.fin (x v)) :=
    ⟨.inl (by exact XQ.ninf_lt_fin _), .inl (by exact XQ.fin_lt_pinf _)⟩
  cases hv : c.vars[v]? with
  | none => exact hnum
  | some k =>
    cases k with
    | numeric => exact hnum
    | integer n => exact hdom n (hx v n (.inl hv))
    | symbolic n => exact hdom n (hx v n (.inr hv))

theorem fullOf_clear (c : Cfg) (x : ℕ → ℚ) (v : ℕ) : RClear (x v) (fullOf c v) := by
  unfold fullOf
  have hnum : RClear (x v) (.num ⟨.ninf, .pinf, .exc, .exc⟩) := .inl ⟨by simp, by simp⟩
  cases hv : c.vars[v]? with
  | none => exact hnum
  | some k => cases k <;> first | exact hnum | trivial

/-- For every valid sample, thresholds included, `encode` returns an existing leaf, and one
whose splits the sample meets when a threshold itself counts as lying to its left. -/
theorem C42_encode_total (c : Cfg) (data : Data) (total : ℕ) (fit : List ℕ → ℕ → D)
    (hdata : DataOK c data total) {h : Heap D} (hl : learn c data total fit = .ok h)
    (x : ℕ → ℚ) (hx : Valid c x) :
    ∃ l, h.leaves.lookup (encode (fullOf c) h x) = some l ∧ contains (fullOf c) l.path x = true ∧
      SatUpper l.path x := by
  obtain ⟨idx, hI⟩ := learn_inv hdata hl
  have hreg : ∀ e ∈ h.leaves, ∀ s ∈ e.2.path, RegOK c s.1 s.2 := fun e he => (hI.leaf e he).regions
  obtain ⟨ε, hε, hgap⟩ := exists_gap (h.leaves.flatMap (fun e =>
    (e.2.path ++ pathMap (fullOf c) e.2.path).flatMap (fun s => (boundsOf s.2).map (fun q => (x s.1, q)))))
  have hgap' : ∀ e ∈ h.leaves, ∀ s ∈ e.2.path ++ pathMap (fullOf c) e.2.path, ∀ i, s.2 = .num i →
      Gap (x s.1) (x s.1 - ε) (.num i) := by
    intro e he s hs i hi q hq
    refine hgap (x s.1, q) ?_
    refine List.mem_flatMap.2 ⟨e, he, List.mem_flatMap.2 ⟨s, hs, List.mem_map.2 ⟨q, ?_, rfl⟩⟩⟩
    rw [hi]
    exact mem_boundsOf hq
  let y : ℕ → ℚ := fun v => if c.vars[v]? = some .numeric then x v - ε else x v
  have hyx : ∀ v, y v ≤ x v := by
    intro v
    show (if _ then _ else _) ≤ _
    split_ifs
    · linarith
    · exact le_refl _
  have hy : Valid c y := by
    intro v n hv
    have : y v = x v := by
      apply if_neg
      rcases hv with hv | hv <;> rw [hv] <;> simp
    rw [this]
    exact hx v n hv
  have hpgap : ∀ e ∈ h.leaves, ∀ s ∈ e.2.path, Gap (x s.1) (y s.1) s.2 := by
    intro e he s hs
    have h1 := (hreg e he s hs).2
    cases hv : c.vars[s.1]? with
    | none => rw [hv] at h1; exact absurd h1 (by simp)
    | some k =>
      rw [hv] at h1
      cases k with
      | numeric =>
        obtain ⟨i, hi⟩ := h1
        have hy1 : y s.1 = x s.1 - ε := if_pos hv
        rw [hi, hy1]
        exact hgap' e he s (List.mem_append_left _ hs) i hi
      | integer n =>
        obtain ⟨l, hl', -⟩ := h1
        have hy1 : y s.1 = x s.1 := if_neg (by rw [hv]; simp)
        rw [hl', hy1]
        exact rfl
      | symbolic n =>
        obtain ⟨l, hl', -⟩ := h1
        have hy1 : y s.1 = x s.1 := if_neg (by rw [hv]; simp)
        rw [hl', hy1]
        exact rfl
  have hmgap : ∀ e ∈ h.leaves, ∀ s ∈ pathMap (fullOf c) e.2.path, Gap (x s.1) (y s.1) s.2 := by
    intro e he s hs
    by_cases hv : c.vars[s.1]? = some .numeric
    · have hk : ∃ i, s.2 = .num i := by
        refine pathMap_kind (fullOf c) e.2.path s.1 ⟨⟨.ninf, .pinf, .exc, .exc⟩, ?_⟩ ?_ s.2
          (Dict.mem_lookup (pathMap_wf _ _) hs)
        · unfold fullOf
          rw [hv]
        · intro r hr hr1
          have := (hreg e he r hr).2
          rw [hr1, hv] at this
          exact this
      obtain ⟨i, hi⟩ := hk
      have hy1 : y s.1 = x s.1 - ε := if_pos hv
      rw [hi, hy1]
      exact hgap' e he s (List.mem_append_right _ hs) i hi
    · have hy1 : y s.1 = x s.1 := if_neg hv
      rw [hy1]
      cases s.2 with
      | num i => intro q _ hq; linarith [hq.1, hq.2]
      | set l => exact rfl
  have hcon : ∀ e ∈ h.leaves, contains (fullOf c) e.2.path x = contains (fullOf c) e.2.path y := by
    intro e he
    unfold contains
    rw [Bool.eq_iff_iff, List.all_eq_true, List.all_eq_true]
    refine forall_congr' fun s => forall_congr' fun hs => ?_
    rw [gap_meets (hyx s.1) (hmgap e he s hs)]
  have henc : encode (fullOf c) h x = encode (fullOf c) h y := by
    have : ∀ (ls : List (ℕ × Leaf D)) (r : ℕ), (∀ e ∈ ls, e ∈ h.leaves) →
        ls.foldl (fun r e => if contains (fullOf c) e.2.path x then e.1 else r) r
          = ls.foldl (fun r e => if contains (fullOf c) e.2.path y then e.1 else r) r := by
      intro ls
      induction ls with
      | nil => intros; rfl
      | cons a ls ih =>
        intro r hm
        rw [List.foldl_cons, List.foldl_cons, hcon a (hm a (by simp))]
        exact ih _ (fun e he => hm e (by simp [he]))
    exact this _ _ (fun _ he => he)
  have hclear : ∀ e ∈ h.leaves, ∀ s ∈ e.2.path, ∀ i, s.2 = .num i →
      i.lower ≠ .fin (y s.1) ∧ i.upper ≠ .fin (y s.1) := by
    intro e he s hs i hi
    have h1 := (hreg e he s hs).2
    have hv : c.vars[s.1]? = some .numeric := by
      cases hv : c.vars[s.1]? with
      | none => rw [hv] at h1; exact absurd h1 (by simp)
      | some k =>
        rw [hv, hi] at h1
        cases k with
        | numeric => rfl
        | integer n => obtain ⟨l, hl', -⟩ := h1; cases hl'
        | symbolic n => obtain ⟨l, hl', -⟩ := h1; cases hl'
    have hy1 : y s.1 = x s.1 - ε := if_pos hv
    have hg := hgap' e he s (List.mem_append_left _ hs) i hi
    rw [hy1]
    exact ⟨fun h3 => hg _ (.inl h3) ⟨le_refl _, by linarith⟩,
      fun h3 => hg _ (.inr h3) ⟨le_refl _, by linarith⟩⟩
  obtain ⟨l, h1, h2⟩ := C42_encode_partial c data total fit hdata hl y hy hclear
  have hmem := Dict.lookup_mem h1
  refine ⟨l, by rw [henc]; exact h1, ?_, ?_⟩
  · rw [hcon _ hmem]
    refine (contains_iff (fullOf c) l.path y (fullOf_mem hy) (fullOf_clear c y) ?_).2 h2
    intro s hs
    cases hr : s.2 with
    | num i => exact .inl (hclear _ hmem s hs i hr)
    | set l => trivial
  intro s hs
  have hg := hpgap _ hmem s hs
  have h3 := h2 s hs
  cases hs2 : s.2 with
  | num i =>
    rw [hs2] at hg h3
    obtain ⟨g1, g2⟩ := gap_iff (hyx s.1) hg
    have hclear : i.lower ≠ .fin (y s.1) ∨ y s.1 = x s.1 := by
      by_cases he : y s.1 = x s.1
      · exact .inr he
      · left
        intro hc
        exact hg _ (.inl hc) ⟨le_refl _, lt_of_le_of_ne (hyx _) he⟩
    obtain ⟨h4, h5⟩ := h3
    have hv : y s.1 ≠ x s.1 := by
      have h1 := (hreg _ hmem s hs).2
      have hv : c.vars[s.1]? = some .numeric := by
        cases hv : c.vars[s.1]? with
        | none => rw [hv] at h1; exact absurd h1 (by simp)
        | some k =>
          rw [hv, hs2] at h1
          cases k with
          | numeric => rfl
          | integer n => obtain ⟨l, hl', -⟩ := h1; cases hl'
          | symbolic n => obtain ⟨l, hl', -⟩ := h1; cases hl'
      have hy1 : y s.1 = x s.1 - ε := if_pos hv
      rw [hy1]
      intro he
      linarith
    refine ⟨g1.2 ?_, g2.2 ?_⟩
    · rcases h4 with h4 | h4
      · exact h4
      · rcases hclear with h6 | h6
        · exact absurd h4.1 h6
        · exact absurd h6 hv
    · rcases h5 with h5 | h5
      · exact h5.le
      · exact h5.1.le
  | set z =>
    rw [hs2] at hg h3
    obtain ⟨z', hz', hz''⟩ := h3
    refine ⟨z', hz', ?_⟩
    rw [show x s.1 = y s.1 from hg]
    exact XQ.fin.inj hz''

/-- The sample 1 lies on the threshold of the tree learned from 0 and 2. -/
example : ∃ h : Heap Unit, learn (exNum.cfg 2) exNumData 2 (fun _ _ => ()) = .ok h ∧
    (∃ e ∈ h.leaves, ∃ s ∈ e.2.path, s.2 = .num ⟨.ninf, .fin 1, .exc, .exc⟩) ∧
    encode (fullOf (exNum.cfg 2)) h (fun _ => 1) = 1 ∧ Valid (exNum.cfg 2) (fun _ => 1) := by
  obtain ⟨h, h1, h2⟩ : ∃ h : Heap Unit, learn (exNum.cfg 2) exNumData 2 (fun _ _ => ()) = .ok h ∧
      ((∃ e ∈ h.leaves, ∃ s ∈ e.2.path, s.2 = .num ⟨.ninf, .fin 1, .exc, .exc⟩) ∧
      encode (fullOf (exNum.cfg 2)) h (fun _ => 1) = 1) := exists_ok (by decide +kernel)
  refine ⟨h, h1, h2.1, h2.2, ?_⟩
  intro v n hv
  match v, hv with
  | 0, hv => exact absurd hv (by simp [exNum, Args.cfg])
  | v + 1, hv => exact absurd hv (by simp [exNum, Args.cfg])

/-! ## C69: only features are split on -/

/-- Every split of a learned tree, in its decision nodes and on the paths of its leaves, is on one of the
features. -/
theorem C69_only_features (c : Cfg) (data : Data) (total : ℕ) (fit : List ℕ → ℕ → D) {h : Heap D}
    (hl : learn c data total fit = .ok h) :
    (∀ k n, h.inner.lookup k = some n → n.var < c.vars.length ∧ n.var ∈ c.features) ∧
    (∀ k l, h.leaves.lookup k = some l → ∀ s ∈ l.path, s.1 < c.vars.length ∧ s.1 ∈ c.features) :=
  ⟨fun k n hk => ((learn_only hl).var k n hk).1, (learn_only hl).leaf⟩

/-- If targets are given and features are not, no target is split on. -/
theorem C69_no_target (a : Args) (data : Data) (total : ℕ) (fit : List ℕ → ℕ → D) {h : Heap D}
    (ht : a.targets ≠ []) (hf : a.features = []) (hl : learn (a.cfg total) data total fit = .ok h) :
    (∀ k n, h.inner.lookup k = some n → n.var ∉ a.targets) ∧
    (∀ k l, h.leaves.lookup k = some l → ∀ s ∈ l.path, s.1 ∉ a.targets) := by
  have hno : ∀ v, v ∈ (a.cfg total).features → v ∉ a.targets := by
    intro v hv
    have : v ∈ a.allFeatures := hv
    unfold Args.allFeatures at this
    rw [if_pos hf, if_neg ht, List.mem_filter] at this
    simpa using this.2
  obtain ⟨h1, h2⟩ := C69_only_features _ data total fit hl
  exact ⟨fun k n hk => hno _ (h1 k n hk).2, fun k l hk s hs => hno _ (h2 k l hk s hs).2⟩

example : ∃ h : Heap Unit, learn (exSym.cfg 5) exSymData 5 (fun _ _ => ()) = .ok h ∧
    exSym.targets ≠ [] ∧ exSym.features = [] ∧ (h.inner.map (fun n => n.2.var)) = [0, 0] := by
  obtain ⟨h, h1, h2⟩ : ∃ h : Heap Unit, learn (exSym.cfg 5) exSymData 5 (fun _ _ => ()) = .ok h ∧
      (h.inner.map (fun n => n.2.var)) = [0, 0] := exists_ok (by decide +kernel)
  exact ⟨h, h1, by decide, rfl, h2⟩

end Verif.Learn
