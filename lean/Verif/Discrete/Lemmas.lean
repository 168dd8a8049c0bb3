import Verif.Discrete.Spec
import Verif.ListAux
import Verif.Utils.Props
import Mathlib.Tactic.Ring
import Mathlib.Tactic.Linarith
import Mathlib.Tactic.FieldSimp

/-! # Lemmas on masses of finite distributions -/

namespace Verif.Disc

/-! ## Masses -/

section mass
variable {L M : Type}

theorem mass_cons (l : L) (ls : List L) (p : ℚ) (ps : List ℚ) (S : L → Prop) [DecidablePred S] :
    mass (l :: ls) (p :: ps) S = (if S l then p else 0) + mass ls ps S := by
  simp [mass]

theorem mass_nil (ps : List ℚ) (S : L → Prop) [DecidablePred S] : mass [] ps S = 0 := by
  simp [mass]

theorem mass_nil' (ls : List L) (S : L → Prop) [DecidablePred S] : mass ls [] S = 0 := by
  simp [mass]

/-- Two domains with the same weights, and sets that agree position by position. -/
theorem mass_congr : ∀ (ls : List L) (ms : List M) (ps : List ℚ) (S : L → Prop) (T : M → Prop)
    [DecidablePred S] [DecidablePred T], ls.length = ms.length →
    (∀ (i : ℕ) l m, ls[i]? = some l → ms[i]? = some m → (S l ↔ T m)) → mass ls ps S = mass ms ps T
  | [], [], ps, S, T, _, _, _, _ => by rw [mass_nil, mass_nil]
  | [], _ :: _, _, _, _, _, _, h, _ => by simp at h
  | _ :: _, [], _, _, _, _, _, h, _ => by simp at h
  | l :: ls, m :: ms, [], S, T, _, _, h, hi => by rw [mass_nil', mass_nil']
  | l :: ls, m :: ms, p :: ps, S, T, _, _, h, hi => by
    rw [mass_cons, mass_cons, mass_congr ls ms ps S T (by simpa using h)
      (fun i l' m' h1 h2 => hi (i + 1) l' m' (by simpa using h1) (by simpa using h2))]
    have := hi 0 l m rfl rfl
    by_cases hs : S l
    · rw [if_pos hs, if_pos (this.1 hs)]
    · rw [if_neg hs, if_neg (fun h => hs (this.2 h))]

theorem mass_congr_set (ls : List L) (ps : List ℚ) (S T : L → Prop) [DecidablePred S]
    [DecidablePred T] (h : ∀ l ∈ ls, (S l ↔ T l)) : mass ls ps S = mass ls ps T :=
  mass_congr ls ls ps S T rfl (fun i l m h1 h2 => by
    rw [h1] at h2; cases h2
    exact h l (List.mem_of_getElem? h1))

theorem mass_nonneg : ∀ (ls : List L) (ps : List ℚ) (S : L → Prop) [DecidablePred S],
    (∀ p ∈ ps, 0 ≤ p) → 0 ≤ mass ls ps S
  | [], ps, S, _, _ => by rw [mass_nil]
  | l :: ls, [], S, _, _ => by rw [mass_nil']
  | l :: ls, p :: ps, S, _, h => by
    rw [mass_cons]
    have h1 := mass_nonneg ls ps S (fun q hq => h q (List.mem_cons_of_mem _ hq))
    have h2 := h p List.mem_cons_self
    split_ifs <;> linarith

/-- Disjoint union. -/
theorem mass_add : ∀ (ls : List L) (ps : List ℚ) (S T : L → Prop) [DecidablePred S]
    [DecidablePred T], (∀ l ∈ ls, ¬ (S l ∧ T l)) →
    mass ls ps (fun l => S l ∨ T l) = mass ls ps S + mass ls ps T
  | [], ps, S, T, _, _, _ => by simp [mass_nil]
  | l :: ls, [], S, T, _, _, _ => by simp [mass_nil']
  | l :: ls, p :: ps, S, T, _, _, h => by
    rw [mass_cons, mass_cons, mass_cons, mass_add ls ps S T (fun m hm => h m (List.mem_cons_of_mem _ hm))]
    have := h l List.mem_cons_self
    by_cases hs : S l <;> by_cases ht : T l <;> simp [hs, ht]
    · exact absurd ⟨hs, ht⟩ this
    · ring
    · ring

theorem mass_univ : ∀ (ls : List L) (ps : List ℚ) (S : L → Prop) [DecidablePred S],
    ps.length = ls.length → (∀ l ∈ ls, S l) → mass ls ps S = ps.sum
  | [], [], S, _, _, _ => by simp [mass_nil]
  | [], _ :: _, _, _, h, _ => by simp at h
  | _ :: _, [], _, _, h, _ => by simp at h
  | l :: ls, p :: ps, S, _, h, hs => by
    rw [mass_cons, mass_univ ls ps S (by simpa using h) (fun m hm => hs m (List.mem_cons_of_mem _ hm)),
      if_pos (hs l List.mem_cons_self), List.sum_cons]

theorem mass_empty : ∀ (ls : List L) (ps : List ℚ) (S : L → Prop) [DecidablePred S],
    (∀ l ∈ ls, ¬ S l) → mass ls ps S = 0
  | [], ps, S, _, _ => by simp [mass_nil]
  | l :: ls, [], S, _, _ => by simp [mass_nil']
  | l :: ls, p :: ps, S, _, hs => by
    rw [mass_cons, mass_empty ls ps S (fun m hm => hs m (List.mem_cons_of_mem _ hm)),
      if_neg (hs l List.mem_cons_self), add_zero]

/-- The mass of one label. -/
theorem mass_single [DecidableEq L] : ∀ (ls : List L) (ps : List ℚ) (i : ℕ) (l : L) (p : ℚ),
    ls.Nodup → ls[i]? = some l → ps[i]? = some p → mass ls ps (fun m => m = l) = p
  | [], ps, i, l, p, _, h, _ => by simp at h
  | m :: ls, [], i, l, p, _, _, h => by simp at h
  | m :: ls, q :: ps, 0, l, p, hn, h1, h2 => by
    simp at h1 h2
    subst h1; subst h2
    rw [mass_cons, if_pos rfl, mass_empty, add_zero]
    intro k hk he
    subst he
    exact (List.nodup_cons.1 hn).1 hk
  | m :: ls, q :: ps, i + 1, l, p, hn, h1, h2 => by
    simp at h1 h2
    rw [mass_cons, if_neg, zero_add]
    · exact mass_single ls ps i l p (List.nodup_cons.1 hn).2 h1 h2
    · rintro rfl
      exact (List.nodup_cons.1 hn).1 (List.mem_of_getElem? h1)

/-- The mass of a list of distinct indices. -/
theorem mass_range (ps : List ℚ) : ∀ (vs : List ℕ), vs.Nodup → (∀ v ∈ vs, v < ps.length) →
    mass (List.range ps.length) ps (fun i => i ∈ vs) = (vs.map fun v => ps.getD v 0).sum
  | [], _, _ => by rw [mass_empty _ _ _ (by simp)]; simp
  | v :: vs, hn, hv => by
    have h1 : mass (List.range ps.length) ps (fun i => i ∈ v :: vs)
        = mass (List.range ps.length) ps (fun i => i = v ∨ i ∈ vs) :=
      mass_congr_set _ _ _ _ (fun i _ => List.mem_cons)
    rw [h1, mass_add, mass_range ps vs (List.nodup_cons.1 hn).2
      (fun u hu => hv u (List.mem_cons_of_mem _ hu)), List.map_cons, List.sum_cons]
    · congr 1
      have hlt := hv v List.mem_cons_self
      apply mass_single _ _ v _ _ List.nodup_range
      · rw [List.getElem?_range hlt]
      · simp [hlt]
    · rintro i _ ⟨rfl, h⟩
      exact (List.nodup_cons.1 hn).1 h

/-- Scaling the weights scales the mass. -/
theorem mass_map_mul (c : ℚ) : ∀ (ls : List L) (ps : List ℚ) (S : L → Prop) [DecidablePred S],
    mass ls (ps.map (fun p => p * c)) S = mass ls ps S * c
  | [], ps, S, _ => by simp [mass_nil]
  | l :: ls, [], S, _ => by simp [mass_nil']
  | l :: ls, p :: ps, S, _ => by
    rw [List.map_cons, mass_cons, mass_cons, mass_map_mul c ls ps S]
    split_ifs <;> ring

theorem mass_map_div (c : ℚ) (ls : List L) (ps : List ℚ) (S : L → Prop) [DecidablePred S] :
    mass ls (ps.map (· / c)) S = mass ls ps S / c := by
  have : ps.map (· / c) = ps.map (fun p => p * c⁻¹) := by
    apply List.map_congr_left; intro p _; exact div_eq_mul_inv p c
  rw [this, mass_map_mul, div_eq_mul_inv]

/-- The weights of the labels outside `T` set to zero. -/
def zeroOutside (ls : List L) (ps : List ℚ) (T : L → Prop) [DecidablePred T] : List ℚ :=
  List.zipWith (fun l p => if T l then p else 0) ls ps

theorem mass_zeroOutside : ∀ (ls : List L) (ps : List ℚ) (S T : L → Prop) [DecidablePred S]
    [DecidablePred T], mass ls (zeroOutside ls ps T) S = mass ls ps (fun l => S l ∧ T l)
  | [], ps, S, T, _, _ => by simp [mass_nil]
  | l :: ls, [], S, T, _, _ => by simp [zeroOutside, mass_nil']
  | l :: ls, p :: ps, S, T, _, _ => by
    have := mass_zeroOutside ls ps S T
    unfold zeroOutside at this ⊢
    rw [List.zipWith_cons_cons, mass_cons, mass_cons, this]
    by_cases hs : S l <;> by_cases ht : T l <;> simp [hs, ht]

theorem zeroOutside_sum (ls : List L) (ps : List ℚ) (T : L → Prop) [DecidablePred T] :
    (zeroOutside ls ps T).sum = mass ls ps T := rfl

theorem zeroOutside_length (ls : List L) (ps : List ℚ) (T : L → Prop) [DecidablePred T]
    (h : ps.length = ls.length) : (zeroOutside ls ps T).length = ls.length := by
  simp [zeroOutside, h]

theorem zeroOutside_nonneg (ls : List L) (ps : List ℚ) (T : L → Prop) [DecidablePred T]
    (h : ∀ p ∈ ps, 0 ≤ p) : ∀ q ∈ zeroOutside ls ps T, 0 ≤ q := by
  intro q hq
  unfold zeroOutside at hq
  obtain ⟨i, hi, rfl⟩ := List.getElem_of_mem hq
  rw [List.getElem_zipWith]
  split_ifs
  · exact h _ (List.getElem_mem _)
  · exact le_refl _

/-- Adding scaled weights. -/
theorem mass_zipWith_add (w : ℚ) : ∀ (ls : List L) (as ps : List ℚ) (S : L → Prop) [DecidablePred S],
    as.length = ls.length → ps.length = ls.length →
    mass ls (List.zipWith (fun a p => a + p * w) as ps) S = mass ls as S + mass ls ps S * w
  | [], as, ps, S, _, _, _ => by simp [mass_nil]
  | l :: ls, [], ps, S, _, h, _ => by simp at h
  | l :: ls, a :: as, [], S, _, _, h => by simp at h
  | l :: ls, a :: as, p :: ps, S, _, h1, h2 => by
    rw [List.zipWith_cons_cons, mass_cons, mass_cons, mass_cons,
      mass_zipWith_add w ls as ps S (by simpa using h1) (by simpa using h2)]
    split_ifs <;> ring

end mass

/-! ## Label and value maps -/

section maps
variable {L : Type} [DecidableEq L]

theorem valueOf_some {d : Dom L} {l : L} {v : ℤ} (h : d.valueOf l = some v) :
    ∃ i : ℕ, v = i ∧ d.labels[i]? = some l := by
  unfold Dom.valueOf at h
  obtain ⟨i, hi, rfl⟩ := Option.map_eq_some_iff.1 h
  refine ⟨i, rfl, ?_⟩
  have := List.idxOf?_eq_some_iff.1 hi
  obtain ⟨h1, h2, _⟩ := this
  rw [List.getElem?_eq_getElem h1, h2]

theorem valueOf_of_get {d : Dom L} (hn : d.labels.Nodup) {l : L} {i : ℕ}
    (h : d.labels[i]? = some l) : d.valueOf l = some (i : ℤ) := by
  unfold Dom.valueOf
  obtain ⟨hi, rfl⟩ := List.getElem?_eq_some_iff.1 h
  have : d.labels.idxOf? d.labels[i] = some i := by
    rw [List.idxOf?_eq_some_iff]
    refine ⟨hi, rfl, fun j hj => ?_⟩
    intro he
    have := (List.Nodup.getElem_inj_iff hn).1 he
    omega
  rw [this]; rfl

theorem valueOf_none {d : Dom L} {l : L} : d.valueOf l = none ↔ l ∉ d.labels := by
  unfold Dom.valueOf
  rw [Option.map_eq_none_iff, List.idxOf?_eq_none_iff]

omit [DecidableEq L] in
theorem labelOf_some {d : Dom L} {v : ℤ} {l : L} :
    d.labelOf v = some l ↔ 0 ≤ v ∧ d.labels[v.toNat]? = some l := by
  unfold Dom.labelOf
  split_ifs with h
  · simp [h]
  · simp [h]

/-- `mapM` into `Option`. -/
theorem mapM_option_some {A B : Type} (f : A → Option B) : ∀ (l : List A) (r : List B),
    l.mapM f = some r ↔ List.Forall₂ (fun a b => f a = some b) l r
  | [], r => by
    simp only [List.mapM_nil]
    constructor
    · intro h; cases h; exact List.Forall₂.nil
    · intro h; cases h; rfl
  | a :: l, r => by
    simp only [List.mapM_cons]
    cases hf : f a with
    | none =>
      simp only [bind, Option.bind]
      constructor
      · intro h; cases h
      · intro h; cases h with | cons h1 _ => rw [hf] at h1; cases h1
    | some b =>
      simp only [bind, Option.bind]
      cases hm : l.mapM f with
      | none =>
        constructor
        · intro h; cases h
        · intro h
          cases h with
          | cons h1 h2 =>
            have := (mapM_option_some f l _).2 h2
            rw [hm] at this; cases this
      | some bs =>
        have := (mapM_option_some f l bs).1 hm
        constructor
        · intro h
          cases h
          exact List.Forall₂.cons hf this
        · intro h
          cases h with
          | cons h1 h2 =>
            rw [hf] at h1; cases h1
            have h3 := (mapM_option_some f l _).2 h2
            rw [hm] at h3; cases h3
            rfl

theorem mapM_option_none {A B : Type} (f : A → Option B) : ∀ (l : List A),
    l.mapM f = none ↔ ∃ a ∈ l, f a = none
  | [] => by simp
  | a :: l => by
    simp only [List.mapM_cons, List.mem_cons, exists_eq_or_imp]
    cases hf : f a with
    | none => simp [bind, Option.bind]
    | some b =>
      simp only [bind, Option.bind, reduceCtorEq, false_or]
      rw [← mapM_option_none f l]
      cases hm : l.mapM f with
      | none => simp
      | some bs => simp

/-- What `convert` returns. -/
theorem convert_ok {A B : Type} [DecidableEq B] (f : A → Option B) (a : Arg A)
    (h : ∀ x ∈ a.elems, f x ≠ none) : ∃ r, convert f a = .ok r ∧
      (∀ y, y ∈ r.elems ↔ ∃ x ∈ a.elems, f x = some y) := by
  have hm : ∀ l : List A, (∀ x ∈ l, f x ≠ none) → ∃ r, l.mapM f = some r ∧
      ∀ y, y ∈ r ↔ ∃ x ∈ l, f x = some y := by
    intro l hl
    cases hml : l.mapM f with
    | none =>
      obtain ⟨x, hx, hx'⟩ := (mapM_option_none f l).1 hml
      exact absurd hx' (hl x hx)
    | some r =>
      have h2 := (mapM_option_some f l r).1 hml
      refine ⟨r, rfl, fun y => ?_⟩
      clear hml hl
      induction h2 with
      | nil => simp
      | cons h1 _ ih =>
        simp only [List.mem_cons, ih]
        constructor
        · rintro (rfl | ⟨x, hx, hx'⟩)
          · exact ⟨_, Or.inl rfl, h1⟩
          · exact ⟨x, Or.inr hx, hx'⟩
        · rintro ⟨x, rfl | hx, hx'⟩
          · rw [h1] at hx'; cases hx'; exact Or.inl rfl
          · exact Or.inr ⟨x, hx, hx'⟩
  cases a with
  | atom x =>
    have := h x (by simp [Arg.elems])
    cases hf : f x with
    | none => exact absurd hf this
    | some y =>
      refine ⟨.atom y, by simp [convert, hf], fun z => ?_⟩
      simp [Arg.elems, hf, eq_comm]
  | list l =>
    obtain ⟨r, h1, h2⟩ := hm l h
    exact ⟨.list r, by simp [convert, h1], h2⟩
  | tuple l =>
    obtain ⟨r, h1, h2⟩ := hm l h
    exact ⟨.tuple r, by simp [convert, h1], h2⟩
  | set l =>
    obtain ⟨r, h1, h2⟩ := hm l h
    refine ⟨.set r.dedup, by simp [convert, h1], fun y => ?_⟩
    simp only [Arg.elems, List.mem_dedup]
    exact h2 y

theorem convert_error {A B : Type} [DecidableEq B] (f : A → Option B) (a : Arg A)
    (h : ∃ x ∈ a.elems, f x = none) : convert f a = .error .valueError := by
  cases a with
  | atom x =>
    simp only [Arg.elems, List.mem_singleton, exists_eq_left] at h
    simp [convert, h]
  | list l => simp [convert, (mapM_option_none f l).2 h]
  | tuple l => simp [convert, (mapM_option_none f l).2 h]
  | set l => simp [convert, (mapM_option_none f l).2 h]

theorem convert_atom {A B : Type} [DecidableEq B] {f : A → Option B} {a : Arg A} {b : B}
    (h : convert f a = .ok (.atom b)) : ∃ x, a = .atom x := by
  cases a with
  | atom x => exact ⟨x, rfl⟩
  | list l => simp only [convert] at h; split at h <;> cases h
  | tuple l => simp only [convert] at h; split at h <;> cases h
  | set l => simp only [convert] at h; split at h <;> cases h

/-- The values of an event of labels. -/
theorem label2value_ok (d : Dom L) (e : Arg L) (h : ∀ l ∈ e.elems, l ∈ d.labels) :
    ∃ r, d.label2value e = .ok r ∧
      (∀ v, v ∈ r.elems ↔ ∃ l ∈ e.elems, d.valueOf l = some v) :=
  convert_ok _ e (fun l hl hc => (valueOf_none.1 hc) (h l hl))

theorem label2value_error (d : Dom L) (e : Arg L) (h : ¬ ∀ l ∈ e.elems, l ∈ d.labels) :
    d.label2value e = .error .valueError := by
  apply convert_error
  by_contra hc
  apply h
  intro l hl
  by_contra hl'
  exact hc ⟨l, hl, valueOf_none.2 hl'⟩

/-- `v` is the value of a label of the event iff the `v`-th label is in the event. -/
theorem mem_values_iff {d : Dom L} (hn : d.labels.Nodup) {e : Arg L} {r : Arg ℤ}
    (h : ∀ v, v ∈ r.elems ↔ ∃ l ∈ e.elems, d.valueOf l = some v) {i : ℕ} {l : L}
    (hi : d.labels[i]? = some l) : (i : ℤ) ∈ r.elems ↔ l ∈ e.elems := by
  rw [h]
  constructor
  · rintro ⟨m, hm, hm'⟩
    obtain ⟨j, hj, hj'⟩ := valueOf_some hm'
    have : i = j := by omega
    subst this
    rw [hi] at hj'; cases hj'
    exact hm
  · intro hl
    exact ⟨l, hl, valueOf_of_get hn hi⟩

theorem values_range {d : Dom L} {e : Arg L} {r : Arg ℤ}
    (h : ∀ v, v ∈ r.elems ↔ ∃ l ∈ e.elems, d.valueOf l = some v) :
    ∀ v ∈ r.elems, ∃ i : ℕ, v = i ∧ i < d.labels.length := by
  intro v hv
  obtain ⟨l, _, hl⟩ := (h v).1 hv
  obtain ⟨i, hi, hi'⟩ := valueOf_some hl
  exact ⟨i, hi, (List.getElem?_eq_some_iff.1 hi').1⟩

/-! ## `p` -/

theorem mapM_pyGet (ps : List ℚ) : ∀ (vs : List ℤ), (∀ v ∈ vs, ∃ i : ℕ, v = i ∧ i < ps.length) →
    vs.mapM (pyGet ps) = .ok (vs.map fun v => ps.getD v.toNat 0)
  | [], _ => rfl
  | v :: vs, h => by
    obtain ⟨i, rfl, hi⟩ := h v List.mem_cons_self
    rw [List.mapM_cons, pyGet_natCast ps i hi,
      mapM_pyGet ps vs (fun u hu => h u (List.mem_cons_of_mem _ hu))]
    simp [bind, Except.bind, pure, Except.pure, hi]

theorem pVal_eq (d : Dist L) (e : Arg ℤ)
    (h : ∀ v ∈ e.elems, ∃ i : ℕ, v = i ∧ i < d.params.length) :
    d.pVal e = .ok (mass (List.range d.params.length) d.params (fun i => (i : ℤ) ∈ e.elems)) := by
  unfold Dist.pVal
  have h' : ∀ v ∈ e.elems.dedup, ∃ i : ℕ, v = i ∧ i < d.params.length :=
    fun v hv => h v (List.mem_dedup.1 hv)
  rw [mapM_pyGet _ _ h']
  simp only [bind, Except.bind, pure, Except.pure]
  congr 1
  have hnd : ((e.elems.dedup).map Int.toNat).Nodup := by
    refine List.Nodup.map_on ?_ (List.nodup_dedup _)
    intro x hx y hy hxy
    obtain ⟨i, rfl, _⟩ := h' x hx
    obtain ⟨j, rfl, _⟩ := h' y hy
    simpa using hxy
  have hr := mass_range d.params ((e.elems.dedup).map Int.toNat) hnd (by
    intro v hv
    obtain ⟨x, hx, rfl⟩ := List.mem_map.1 hv
    obtain ⟨i, rfl, hi⟩ := h' x hx
    simpa using hi)
  rw [List.map_map] at hr
  have : (List.map ((fun v => d.params.getD v 0) ∘ Int.toNat) e.elems.dedup)
      = e.elems.dedup.map fun v => d.params.getD v.toNat 0 := rfl
  rw [this] at hr
  rw [← hr]
  apply mass_congr_set
  intro i _
  simp only [List.mem_map, List.mem_dedup]
  constructor
  · rintro ⟨v, hv, hvi⟩
    obtain ⟨j, rfl, _⟩ := h v hv
    have : j = i := by simpa using hvi
    rw [← this]; exact hv
  · intro hi
    exact ⟨_, hi, by simp⟩

/-- Summing over values is summing over labels. -/
theorem mass_values {d : Dist L} (hn : d.dom.labels.Nodup)
    (hlen : d.params.length = d.dom.labels.length) {e : Arg L} {r : Arg ℤ}
    (h : ∀ v, v ∈ r.elems ↔ ∃ l ∈ e.elems, d.dom.valueOf l = some v) :
    mass (List.range d.params.length) d.params (fun i => (i : ℤ) ∈ r.elems)
      = d.P (fun l => l ∈ e.elems) := by
  unfold Dist.P
  apply mass_congr
  · rw [List.length_range, hlen]
  · intro i j l hi hl
    have hlt := (List.getElem?_eq_some_iff.1 hi).1
    rw [List.getElem?_range (by simpa using hlt)] at hi
    cases hi
    exact mem_values_iff hn h hl

theorem p_eq (d : Dist L) (hn : d.dom.labels.Nodup) (hlen : d.params.length = d.dom.labels.length)
    (e : Arg L) :
    d.p e = if ∀ l ∈ e.elems, l ∈ d.dom.labels then .ok (d.P (fun l => l ∈ e.elems))
      else .error .valueError := by
  unfold Dist.p
  split_ifs with h
  · obtain ⟨r, h1, h2⟩ := label2value_ok d.dom e h
    simp only [h1, bind, Except.bind]
    rw [pVal_eq d r (by rw [hlen]; exact values_range h2), mass_values hn hlen h2]
  · rw [label2value_error d.dom e h]; rfl

theorem intP_eq (d : Dist L)
    (e : Arg L) : d.intP e = d.p e := by
  unfold Dist.intP Dist.p
  by_cases h : ∀ l ∈ e.elems, l ∈ d.dom.labels
  · obtain ⟨r, h1, h2⟩ := label2value_ok d.dom e h
    simp only [h1, bind, Except.bind]
    unfold Dist.intPVal
    rw [if_neg]
    intro hc
    apply hc
    intro v hv
    obtain ⟨i, rfl, hi⟩ := values_range h2 v hv
    omega
  · rw [label2value_error d.dom e h]; rfl

/-! ## `crop` -/

theorem restrict_eq {d : Dist L} (hn : d.dom.labels.Nodup)
    (hlen : d.params.length = d.dom.labels.length) {e : Arg L} {r : List ℤ}
    (h : ∀ v, v ∈ r ↔ ∃ l ∈ e.elems, d.dom.valueOf l = some v) :
    restrict d.params r = zeroOutside d.dom.labels d.params (fun l => l ∈ e.elems) := by
  apply List.ext_getElem
  · simp [restrict, zeroOutside, hlen]
  · intro i h1 h2
    have hi : i < d.dom.labels.length := by
      simp [zeroOutside, hlen] at h2; exact h2
    simp only [restrict, zeroOutside, List.getElem_map, List.getElem_zipIdx, List.getElem_zipWith,
      Nat.zero_add]
    have hm : (i : ℤ) ∈ r ↔ d.dom.labels[i] ∈ e.elems := by
      have := mem_values_iff (d := d.dom) hn (e := e) (r := .list r) h (i := i)
        (l := d.dom.labels[i]) (by simp [hi])
      simpa [Arg.elems] using this
    by_cases hc : d.dom.labels[i] ∈ e.elems
    · rw [if_pos hc, if_pos (hm.2 hc)]
    · rw [if_neg hc, if_neg (fun h' => hc (hm.1 h'))]

end maps

end Verif.Disc
