import Verif.Trees.PdfMix
import Verif.Trees.Props13
import Verif.Trees.Props17

/-! # Likelihoods of partial worlds with numbers: lemmas -/

namespace Verif.Trees

open Iv (FP NS)
open Fun (PF)

/-! ## Products and sums with infinities -/

theorem xmul_fin (a b : ℚ) : xmul (.fin a) (.fin b) = some (.fin (a * b)) := rfl

theorem xmul_pos_pinf {a : ℚ} (h : 0 < a) : xmul (.fin a) .pinf = some .pinf := by
  simp [xmul, xsign, not_lt.2 h.le, h.ne']

theorem xmul_pinf_pos {a : ℚ} (h : 0 < a) : xmul .pinf (.fin a) = some .pinf := by
  simp [xmul, xsign, not_lt.2 h.le, h.ne']

theorem prod_fin : ∀ (qs : List ℚ) (a : ℚ), (qs.map XQ.fin).foldlM xmul (.fin a) = some (.fin (a * qs.prod))
  | [], a => by simp [pure]
  | q :: qs, a => by
    rw [List.map_cons, List.foldlM_cons, xmul_fin]
    simp only [bind, Option.bind]
    rw [prod_fin qs, List.prod_cons, mul_assoc]

theorem prod_pinf : ∀ {fs : List XQ}, (∀ x ∈ fs, x = .pinf ∨ ∃ q, x = .fin q ∧ 0 < q) → fs.foldlM xmul .pinf = some .pinf
  | [], _ => rfl
  | x :: fs, h => by
    have hx : xmul .pinf x = some .pinf := by
      rcases h x (by simp) with rfl | ⟨q, rfl, hq⟩
      · rfl
      · exact xmul_pinf_pos hq
    rw [List.foldlM_cons, hx]
    exact prod_pinf (fun y hy => h y (by simp [hy]))

theorem prod_inf : ∀ {fs : List XQ} {a : ℚ}, 0 < a → (∀ x ∈ fs, x = .pinf ∨ ∃ q, x = .fin q ∧ 0 < q) → .pinf ∈ fs →
    fs.foldlM xmul (.fin a) = some .pinf
  | [], _, _, _, h => by simp at h
  | x :: fs, a, ha, h, hm => by
    have h' : ∀ y ∈ fs, y = .pinf ∨ ∃ q, y = .fin q ∧ 0 < q := fun y hy => h y (by simp [hy])
    rw [List.foldlM_cons]
    rcases h x (by simp) with rfl | ⟨q, rfl, hq⟩
    · rw [xmul_pos_pinf ha]
      exact prod_pinf h'
    · rw [xmul_fin]
      exact prod_inf (mul_pos ha hq) h' ((List.mem_cons.1 hm).resolve_left (by simp))

theorem prod_pinf_nan : ∀ {fs : List XQ}, (∀ x ∈ fs, x = .pinf ∨ ∃ q, x = .fin q ∧ 0 ≤ q) → .fin 0 ∈ fs →
    fs.foldlM xmul .pinf = none
  | [], _, h => by simp at h
  | x :: fs, h, hm => by
    have h' : ∀ y ∈ fs, y = .pinf ∨ ∃ q, y = .fin q ∧ 0 ≤ q := fun y hy => h y (by simp [hy])
    rw [List.foldlM_cons]
    rcases h x (by simp) with rfl | ⟨q, rfl, hq⟩
    · rw [show xmul .pinf .pinf = some .pinf from rfl]
      exact prod_pinf_nan h' ((List.mem_cons.1 hm).resolve_left (by simp))
    · rcases hq.lt_or_eq with hq | rfl
      · rw [xmul_pinf_pos hq]
        exact prod_pinf_nan h' ((List.mem_cons.1 hm).resolve_left (by simp [hq.ne]))
      · rfl

theorem prod_nan : ∀ {fs : List XQ} {a : ℚ}, 0 ≤ a → (∀ x ∈ fs, x = .pinf ∨ ∃ q, x = .fin q ∧ 0 ≤ q) → .pinf ∈ fs →
    (a = 0 ∨ .fin 0 ∈ fs) → fs.foldlM xmul (.fin a) = none
  | [], _, _, _, h, _ => by simp at h
  | x :: fs, a, ha, h, hm, h0 => by
    have h' : ∀ y ∈ fs, y = .pinf ∨ ∃ q, y = .fin q ∧ 0 ≤ q := fun y hy => h y (by simp [hy])
    rw [List.foldlM_cons]
    rcases h x (by simp) with rfl | ⟨q, rfl, hq⟩
    · rcases ha.lt_or_eq with ha | rfl
      · rw [xmul_pos_pinf ha]
        exact prod_pinf_nan h' ((List.mem_cons.1 (h0.resolve_left ha.ne')).resolve_left (by simp))
      · rfl
    · rw [xmul_fin]
      refine prod_nan (mul_nonneg ha hq) h' ((List.mem_cons.1 hm).resolve_left (by simp)) ?_
      rcases h0 with rfl | h0
      · left; rw [zero_mul]
      · rcases List.mem_cons.1 h0 with e | h0
        · left; rw [← XQ.fin.inj e, mul_zero]
        · exact .inr h0

theorem sum_fin : ∀ (qs : List ℚ) (a : ℚ), (qs.map (fun q => some (XQ.fin q))).foldlM
    (fun s (t : Option XQ) => t.bind (xplus s)) (XQ.fin a) = some (.fin (a + qs.sum))
  | [], a => by simp [pure]
  | q :: qs, a => by
    rw [List.map_cons, List.foldlM_cons]
    simp only [bind, Option.bind, xplus]
    have := sum_fin qs (a + q)
    simp only [Option.bind] at this
    rw [this, List.sum_cons, add_assoc]

theorem sum_nan : ∀ {ts : List (Option XQ)} {a : XQ}, none ∈ ts →
    ts.foldlM (fun s (t : Option XQ) => t.bind (xplus s)) a = none
  | [], _, h => by simp at h
  | t :: ts, a, h => by
    rw [List.foldlM_cons]
    cases t with
    | none => rfl
    | some x =>
      have h' : none ∈ ts := (List.mem_cons.1 h).resolve_left (by simp)
      cases hx : xplus a x with
      | none => simp only [bind, Option.bind, hx]
      | some y =>
        simp only [bind, Option.bind, hx]
        exact sum_nan h'

theorem sum_pinf : ∀ {ts : List (Option XQ)}, (∀ t ∈ ts, t = some .pinf ∨ ∃ q, t = some (.fin q)) →
    ts.foldlM (fun s (t : Option XQ) => t.bind (xplus s)) XQ.pinf = some .pinf
  | [], _ => rfl
  | t :: ts, h => by
    have h' : ∀ t ∈ ts, t = some .pinf ∨ ∃ q, t = some (.fin q) := fun y hy => h y (by simp [hy])
    rw [List.foldlM_cons]
    rcases h t (by simp) with rfl | ⟨q, rfl⟩ <;> exact sum_pinf h'

theorem sum_inf : ∀ {ts : List (Option XQ)} {a : ℚ}, (∀ t ∈ ts, t = some .pinf ∨ ∃ q, t = some (.fin q)) →
    some .pinf ∈ ts → ts.foldlM (fun s (t : Option XQ) => t.bind (xplus s)) (XQ.fin a) = some .pinf
  | [], _, _, h => by simp at h
  | t :: ts, a, h, hm => by
    have h' : ∀ t ∈ ts, t = some .pinf ∨ ∃ q, t = some (.fin q) := fun y hy => h y (by simp [hy])
    rw [List.foldlM_cons]
    rcases h t (by simp) with rfl | ⟨q, rfl⟩
    · exact sum_pinf h'
    · exact sum_inf (a := a + q) h' ((List.mem_cons.1 hm).resolve_left (by simp))

/-! ## Single values as queries -/

variable {L : Type} [DecidableEq L] {val : ℤ → ℚ} {idx : ℚ → ℤ}

/-- The set that holds one value: an interval with one number or a set with the position of one label. -/
def cellRegion (k : MK L) (x : Cell L) : Region :=
  match k, x with
  | .inl _, .inl y => .num ⟨.fin y, .fin y, .inc, .inc⟩
  | .inr k, .inr l => .set [((k.2.labels.idxOf l : ℕ) : ℤ)]
  | _, _ => .set []

/-- The assignment of the values of a world to some of the variables. -/
def cellQuery (kind : ℕ → MK L) (vars : List ℕ) (w : ℕ → Cell L) : Query :=
  vars.map (fun v => (v, cellRegion (kind v) (w v)))

theorem cellRegion_ok (k : MK L) (x : Cell L) : (cellRegion k x).OK := by
  cases k <;> cases x <;> simp [cellRegion, Region.OK, RIOK]

theorem cellRegion_mem {k : MK L} {x : Cell L} (h : CellOK val k x) (y : XQ) :
    (cellRegion k x).Mem y ↔ y = .fin (store k x) := by
  cases k with
  | inl u =>
    cases x with
    | inl q =>
      simp only [cellRegion, Region.Mem, RIMem, store]
      constructor
      · rintro ⟨h1 | ⟨h1, -⟩, h2 | ⟨h2, -⟩⟩
        · exact absurd (h1.trans h2) (lt_irrefl _)
        · exact h2
        · exact h1.symm
        · exact h2
      · rintro rfl
        exact ⟨.inr ⟨rfl, by trivial⟩, .inr ⟨rfl, by trivial⟩⟩
    | inr l => exact h.elim
  | inr k =>
    cases x with
    | inl q => exact h.elim
    | inr l =>
      simp only [cellRegion, Region.Mem, store, List.mem_singleton, exists_eq_left]
      norm_cast

theorem cellQuery_lookup {kind : ℕ → MK L} {vars : List ℕ} {w : ℕ → Cell L} (v : ℕ) :
    (cellQuery kind vars w).lookup v = if v ∈ vars then some (cellRegion (kind v) (w v)) else none := by
  unfold cellQuery
  induction vars with
  | nil => simp
  | cons a r ih =>
    rw [List.map_cons, List.lookup_cons, ih]
    by_cases h : v = a
    · subst h; simp
    · have : (v == a) = false := by simpa using h
      simp [this, h]

theorem passes_cell {kind : ℕ → MK L} {vars : List ℕ} {w : ℕ → Cell L} {v : ℕ} {s : Region} (hs : s.OK)
    (hw : v ∈ vars → CellOK val (kind v) (w v)) :
    passes (cellQuery kind vars w) v s = true ↔ (v ∈ vars → s.Mem (.fin (store (kind v) (w v)))) := by
  unfold passes
  rw [cellQuery_lookup]
  by_cases h : v ∈ vars
  · simp only [h, if_true, true_imp_iff]
    have h1 := Region.disjoint_iff (cellRegion_ok (kind v) (w v)) hs
    have h2 : (cellRegion (kind v) (w v)).disjoint s = true ↔ ¬ s.Mem (.fin (store (kind v) (w v))) := by
      rw [h1]
      constructor
      · intro h3 h4
        exact h3 _ ⟨(cellRegion_mem (hw h) _).2 rfl, h4⟩
      · rintro h3 x ⟨h4, h5⟩
        rw [(cellRegion_mem (hw h) x).1 h4] at h5
        exact h3 h5
    rw [Bool.not_eq_true', ← Bool.not_eq_true, h2, not_not]
  · simp [h]

theorem stored_iff {k : MK L} {x : Cell L} (hn : ∀ k', k = .inr k' → k'.2.labels.Nodup) (h : CellOK val k x) {q : ℚ} :
    Stored k x q ↔ q = store k x := by
  cases k with
  | inl u =>
    cases x with
    | inl y => rfl
    | inr l => exact h.elim
  | inr k =>
    cases x with
    | inl y => exact h.elim
    | inr l =>
      simp only [Stored, store]
      constructor
      · rintro ⟨i, hi, rfl⟩
        obtain ⟨h1, rfl⟩ := List.getElem?_eq_some_iff.1 hi
        rw [(hn k rfl).idxOf_getElem]
      · rintro rfl
        exact ⟨k.2.labels.idxOf l, List.getElem?_idxOf h, rfl⟩

/-! ## The factors -/

/-- All rows of a leaf have the number that is asked for. -/
def Hit (kind : ℕ → MK L) (data : Learn.Data) (w : ℕ → Cell L) (l : Leaf (MD L)) (v : ℕ) : Prop :=
  kind v = .inl () ∧ ∀ r ∈ l.rows, w v = .inl (data r v)

open Classical in
theorem num_factor (hval : StrictMono val) (hidx : ∀ n, idx (val n) = n) {eps : ℚ} {s : List ℤ} (hne : s ≠ []) :
    ∃ p, Num.fit val eps s = .ok p ∧ ∀ m, (Num.pdf p).bind (fun g => Num.densAt g (.fin m)) =
      .ok (if ∀ x ∈ s, x = m then .pinf else .fin (cellDens (L := L) idx 1 (.inl p) (.inl (val m)))) := by
  have hload : Num.loadBuffer s none none = .ok s := by simp [Num.loadBuffer]
  obtain ⟨lo, hlo, hmin⟩ := Num.exists_least hne
  obtain ⟨hi, hhi, hmax⟩ := Num.exists_greatest hne
  rcases (hmin hi hhi).lt_or_eq with hlt | heq
  · obtain ⟨p, F, g, h1, h2, h3, h4, -⟩ := Num.fit_dens hval (eps := eps) hload hlo hhi hlt hmin hmax
    refine ⟨p, h1, fun m => ?_⟩
    rw [if_neg (fun h => by have := h lo hlo; have := h hi hhi; omega)]
    simp only [cellDens, h3, Except.bind, hidx, h4]
  · subst heq
    have hall : ∀ y ∈ s, y = lo := fun y hy => le_antisymm (hmax y hy) (hmin y hy)
    have hp := Num.fit_single (val := val) (eps := eps) hload hlo hall
    obtain ⟨d, h1, h2, -⟩ := Num.jump_dens lo
    refine ⟨_, hp, fun m => ?_⟩
    simp only [cellDens, h1, Except.bind, hidx, h2]
    by_cases h : m = lo
    · rw [if_pos h, if_pos (fun x hx => by rw [hall x hx, h])]
    · rw [if_neg h, if_neg (fun hc => h (hc lo hlo).symm)]

end Verif.Trees
