import Verif.Trees.LikelihoodSpec
import Verif.Trees.Props
import Verif.Numeric.DensLemmas
import Verif.Numeric.Props11

/-!
# Lemmas about the likelihood of worlds
-/

namespace Verif.Trees

open Learn (Cfg Data learn Valid Sat DataOK fullOf domainOf)

variable {L : Type} [DecidableEq L] {val : ℤ → ℚ} {idx : ℚ → ℤ} {scaling : ℚ} {dists : List (ℕ × ℚ)} {kind : ℕ → MK L}

theorem mapM_map_ok {α β γ : Type} {f : β → Except Err γ} {e : α → β} {g : α → γ} : ∀ {l : List α},
    (∀ a ∈ l, f (e a) = .ok (g a)) → (l.map e).mapM f = .ok (l.map g)
  | [], _ => rfl
  | a :: l, h => by
    rw [List.map_cons, List.mapM_cons, h a (by simp), mapM_map_ok (g := g) (fun b hb => h b (by simp [hb]))]
    rfl

theorem mapM_ok_map {α γ : Type} {f : α → Except Err γ} {g : α → γ} {l : List α}
    (h : ∀ a ∈ l, f a = .ok (g a)) : l.mapM f = .ok (l.map g) := by
  have := mapM_map_ok (f := f) (e := id) (g := g) h
  simpa using this

omit [DecidableEq L] in
theorem fold_density {row : List ℚ} {g : ℕ → ℚ} : ∀ (ds : List (MD L)) (k : ℕ) (acc : ℚ),
    (∀ (i : ℕ) (d : MD L), ds[i]? = some d →
      ∃ x, row[k + i]? = some x ∧ cellDensity idx scaling dists d (k + i) x = .ok (g (k + i))) →
    (ds.zipIdx k).foldlM (fun acc d =>
      match row[d.2]? with
      | none => .error .indexError
      | some x => do
        let p ← cellDensity idx scaling dists d.1 d.2 x
        return acc * p) acc = (.ok (acc * ((List.range' k ds.length).map g).prod) : Except Err ℚ)
  | [], _, _, _ => by simp [pure, Except.pure]
  | d :: ds, k, acc, h => by
    obtain ⟨x, h1, h2⟩ := h 0 d rfl
    rw [List.zipIdx_cons, List.foldlM_cons]
    simp only [Nat.add_zero] at h1 h2
    simp only [h1, h2, bind, Except.bind, pure, Except.pure]
    have := fold_density ds (k + 1) (acc * g k) (fun i d' hd => by
      have := h (i + 1) d' (by simpa using hd)
      rwa [show k + (i + 1) = k + 1 + i by omega] at this)
    simp only [bind, Except.bind, pure, Except.pure] at this
    rw [this, List.length_cons, List.range'_succ, List.map_cons, List.prod_cons, mul_assoc]

omit [DecidableEq L] in
theorem leaf_likelihood {l : Leaf (MD L)} {n : ℕ} (hn : l.dists.length = n) {x g : ℕ → ℚ}
    (h : ∀ (v : ℕ) (d : MD L), l.dists[v]? = some d → cellDensity idx scaling dists d v (x v) = .ok (g v)) :
    l.likelihood idx scaling dists ((List.range n).map x) = .ok ((List.range n).map g).prod := by
  have := fold_density (idx := idx) (scaling := scaling) (dists := dists) (row := (List.range n).map x) (g := g)
    l.dists 0 1 (fun i d hd => by
      rw [Nat.zero_add]
      refine ⟨x i, ?_, h i d hd⟩
      have hi := (List.getElem?_eq_some_iff.1 hd).1
      rw [List.getElem?_map, List.getElem?_range (by omega)]
      rfl)
  rw [one_mul, ← List.range_eq_range', hn] at this
  exact this

omit [DecidableEq L] in
theorem row_likelihood {h : Heap (MD L)} {n : ℕ} (hn : ∀ l ∈ h.leaves, l.2.dists.length = n) {x : ℕ → ℚ}
    {g : Leaf (MD L) → ℕ → ℚ}
    (hg : ∀ l ∈ h.leaves, ∀ (v : ℕ) (d : MD L), l.2.dists[v]? = some d →
      cellDensity idx scaling dists d v (x v) = .ok (g l.2 v)) :
    rowLikelihood idx scaling dists h ((List.range n).map x) =
      .ok (h.leaves.map (fun l => l.2.prior * ((List.range n).map (g l.2)).prod)).sum := by
  unfold rowLikelihood
  rw [mapM_ok_map (g := fun l => l.2.prior * ((List.range n).map (g l.2)).prod)]
  · rfl
  · intro l hl
    rw [leaf_likelihood (hn l hl) (hg l hl)]
    rfl

theorem cell_stored {k : MK L} {x : Cell L} {q : ℚ} (hd : ∀ k', k = .inr k' → k'.2.labels.Nodup)
    (h : Stored k x q) : cell k x = .ok q := by
  cases k with
  | inl u =>
    cases x with
    | inl y => have : q = y := h
               rw [this]; rfl
    | inr l => exact h.elim
  | inr k =>
    cases x with
    | inl y => exact h.elim
    | inr l =>
      obtain ⟨i, h1, rfl⟩ := h
      simp only [cell, Disc.Dom.valueOrErr, Disc.valueOf_of_get (hd k rfl) h1]
      rfl

omit [DecidableEq L] in
theorem forall₂_left' {α β : Type} {R : α → β → Prop} {a : α} : ∀ {l : List α} {m : List β}, List.Forall₂ R l m → a ∈ l →
    ∃ b ∈ m, R a b
  | _, _, .cons h t, ha => by
    rcases List.mem_cons.1 ha with rfl | ha
    · exact ⟨_, by simp, h⟩
    · obtain ⟨b, hb, h'⟩ := forall₂_left' t ha
      exact ⟨b, by simp [hb], h'⟩

theorem stored_of_cell {k : MK L} {x : Cell L} {q : ℚ} (h : cell k x = .ok q) : Stored k x q := by
  cases k with
  | inl u =>
    cases x with
    | inl y => exact (Except.ok.inj h).symm
    | inr l => cases h
  | inr k =>
    cases x with
    | inl y => cases h
    | inr l =>
      simp only [cell, Disc.Dom.valueOrErr] at h
      cases hv : k.2.valueOf l with
      | none => rw [hv] at h; cases h
      | some z =>
        rw [hv] at h
        obtain ⟨i, rfl, h2⟩ := Disc.valueOf_some hv
        refine ⟨i, h2, ?_⟩
        have := Except.ok.inj h
        rw [← this]; simp

theorem cell_error {k : MK L} {x : Cell L} {e : Err} (h : cell k x = .error e) : e = .valueError := by
  cases k with
  | inl u =>
    cases x with
    | inl y => cases h
    | inr l => exact (Except.error.inj h).symm
  | inr k =>
    cases x with
    | inl y => exact (Except.error.inj h).symm
    | inr l =>
      simp only [cell, Disc.Dom.valueOrErr] at h
      cases hv : k.2.valueOf l with
      | none => rw [hv] at h; exact (Except.error.inj h).symm
      | some z => rw [hv] at h; cases h

/-- The stored form of a value. -/
def store (k : MK L) (x : Cell L) : ℚ :=
  match k, x with
  | .inl _, .inl q => q
  | .inr k, .inr l => (k.2.labels.idxOf l : ℚ)
  | _, _ => 0

theorem store_stored {k : MK L} {x : Cell L} (h : CellOK val k x) : Stored k x (store k x) := by
  cases k with
  | inl u =>
    cases x with
    | inl y => rfl
    | inr l => exact h.elim
  | inr k =>
    cases x with
    | inl y => exact h.elim
    | inr l =>
      refine ⟨k.2.labels.idxOf l, ?_, rfl⟩
      have : l ∈ k.2.labels := h
      rw [List.getElem?_eq_getElem (List.idxOf_lt_length_iff.2 this), List.getElem_idxOf]

theorem preprocess_ok {n : ℕ} (hd : ∀ v, v < n → ∀ k', kind v = .inr k' → k'.2.labels.Nodup)
    {ws : List (ℕ → Cell L)} (hne : ws ≠ []) (hw : ∀ w ∈ ws, ∀ v, v < n → CellOK val (kind v) (w v)) :
    preprocess kind n (ws.map (fun w => (List.range n).map w)) =
      .ok (ws.map (fun w => (List.range n).map (fun v => store (kind v) (w v)))) := by
  unfold preprocess
  rw [if_neg (by simpa using hne)]
  refine mapM_map_ok (fun w hw' => ?_)
  unfold preprocessRow
  refine mapM_ok_map (fun v hv => ?_)
  have hv' := List.mem_range.1 hv
  rw [List.getElem?_map, List.getElem?_range hv']
  exact cell_stored (hd v hv') (store_stored (hw w hw' v hv'))

/-- The likelihood of worlds, if the factors are known. -/
theorem likelihood_ok {h : Heap (MD L)} {n : ℕ} (hn : ∀ l ∈ h.leaves, l.2.dists.length = n)
    (hd : ∀ v, v < n → ∀ k', kind v = .inr k' → k'.2.labels.Nodup)
    {ws : List (ℕ → Cell L)} (hne : ws ≠ []) (hw : ∀ w ∈ ws, ∀ v, v < n → CellOK val (kind v) (w v))
    {g : Leaf (MD L) → ℕ → Cell L → ℚ}
    (hg : ∀ l ∈ h.leaves, ∀ (v : ℕ) (d : MD L), l.2.dists[v]? = some d → ∀ x, CellOK val (kind v) x →
      cellDensity idx scaling dists d v (store (kind v) x) = .ok (g l.2 v x)) :
    likelihood idx scaling dists kind n h (ws.map (fun w => (List.range n).map w)) =
      .ok (ws.map (fun w => (h.leaves.map (fun l =>
        l.2.prior * ((List.range n).map (fun v => g l.2 v (w v))).prod)).sum)) := by
  unfold likelihood
  rw [preprocess_ok hd hne hw]
  simp only [bind, Except.bind]
  refine mapM_map_ok (fun w hw' => ?_)
  refine row_likelihood (g := fun l v => g l v (w v)) hn (fun l hl v d hd' => ?_)
  have hv : v < n := by
    have := (List.getElem?_eq_some_iff.1 hd').1
    rw [hn l hl] at this; exact this
  exact hg l hl v d hd' _ (hw w hw' v hv)

/-- The factor of a value in a leaf, 0 if it cannot be computed. -/
def factorOf (idx : ℚ → ℤ) (scaling : ℚ) (dists : List (ℕ × ℚ)) (kind : ℕ → MK L) (l : Leaf (MD L)) (v : ℕ) (x : Cell L) :
    ℚ :=
  match l.dists[v]? with
  | none => 0
  | some d =>
    match cellDensity idx scaling dists d v (store (kind v) x) with
    | .ok q => q
    | .error _ => 0

theorem factorOf_eq {l : Leaf (MD L)} {v : ℕ} {d : MD L} (hd : l.dists[v]? = some d) {x : Cell L} {q : ℚ}
    (h : cellDensity idx scaling dists d v (store (kind v) x) = .ok q) :
    factorOf idx scaling dists kind l v x = q := by
  unfold factorOf
  rw [hd]
  simp only [h]

/-! ## The factors -/

omit [DecidableEq L] in
theorem disc_density {k : Bool × Disc.Dom L} {d : DD L} (hd : discOk k d) {i : ℕ} (hi : i < k.2.labels.length) (v : ℕ) :
    cellDensity idx scaling dists (.inr d) v (i : ℚ) = .ok (discP d (.set [(i : ℤ)])) := by
  obtain ⟨-, h2, h3⟩ := hd
  have hlen : d.2.params.length = k.2.labels.length := by rw [h3.2.1, h2]
  simp only [cellDensity, Learn.toInt_nat, paramAt]
  rw [if_pos (by omega), Int.toNat_natCast, List.getElem?_eq_getElem (by omega)]
  simp only
  congr 1
  unfold discP
  have := Disc.mass_single (List.range d.2.params.length) d.2.params i i d.2.params[i] List.nodup_range
    (List.getElem?_range (by omega)) (List.getElem?_eq_getElem (by omega))
  rw [← this]
  refine Disc.mass_congr_set _ _ _ _ (fun e _ => ?_)
  rw [mem_set_nat]; simp [eq_comm]

omit [DecidableEq L] in
theorem num_density (hval : StrictMono val) (hidx : ∀ n, idx (val n) = n) {eps : ℚ} {s : List ℤ} (hne : s ≠ [])
    {v : ℕ} {δ : ℚ} (hδ : dists.lookup v = some δ) (h0 : δ ≠ 0) :
    ∃ (p : Fun.PF) (F g : ℤ → ℚ), Num.fit val eps s = .ok p ∧ (∀ n, p.eval val n = .ok (some (F n))) ∧
      NumDensity val (scaling / δ) s F g ∧
      ∀ n, cellDensity (L := L) idx scaling dists (.inl p) v (val n) = .ok (g n) := by
  have hload : Num.loadBuffer s none none = .ok s := by simp [Num.loadBuffer]
  obtain ⟨lo, hlo, hmin⟩ := Num.exists_least hne
  obtain ⟨hi, hhi, hmax⟩ := Num.exists_greatest hne
  have hdist : dists ≠ [] := by
    intro h; rw [h] at hδ; cases hδ
  rcases (hmin hi hhi).lt_or_eq with hlt | heq
  · obtain ⟨p, F, g, h1, h2, h3, h4, h5, h6, h7⟩ := Num.fit_dens hval (eps := eps) hload hlo hhi hlt hmin hmax
    refine ⟨p, F, g, h1, h2, ⟨lo, hi, hlo, hhi, fun x hx => ⟨hmin x hx, hmax x hx⟩, fun h => absurd h (by omega),
      fun _ => ⟨h5, h6, h7⟩⟩, fun n => ?_⟩
    simp only [cellDensity, h3, bind, Except.bind, hidx, h4, replaceInf, if_neg hdist, hδ, if_neg h0]
  · subst heq
    have hp := Num.fit_single (val := val) (eps := eps) hload hlo (fun y hy => le_antisymm (hmax y hy) (hmin y hy))
    obtain ⟨d, h1, h2, -⟩ := Num.jump_dens lo
    refine ⟨Num.jumpCdf lo, fun n => if n < lo then 0 else 1, fun n => if n = lo then scaling / δ else 0, hp, fun n => ?_,
      ⟨lo, lo, hlo, hlo, fun x hx => ⟨hmin x hx, hmax x hx⟩, fun _ n => rfl, fun h => absurd h (by omega)⟩, fun n => ?_⟩
    · have := Num.tile_eval (val := val) (f := .const 0) (l := [(lo, .const 1)]) (n := n)
      rw [show Num.jumpCdf lo = Num.tile .ninf (.const 0) [(lo, .const 1)] .pinf from rfl, this]
      simp only [Num.tileAt]
      split <;> rfl
    · simp only [cellDensity, h1, bind, Except.bind, hidx, h2, replaceInf, if_neg hdist, hδ, if_neg h0]
      by_cases h : n = lo
      · simp only [if_pos h]
      · simp only [if_neg h]

theorem NumDensity.nonneg {top : ℚ} {s : List ℤ} {F g : ℤ → ℚ} (h : NumDensity val top s F g) (ht : 0 ≤ top) (n : ℤ) :
    0 ≤ g n := by
  obtain ⟨lo, hi, hlo, hhi, hs, h1, h2⟩ := h
  rcases (hs hi hhi).1.lt_or_eq with hlt | heq
  · obtain ⟨h3, h4, h5⟩ := h2 hlt
    rcases lt_trichotomy n hi with h | rfl | h
    · by_cases hn : lo ≤ n
      · exact (h3 n hn h).1.le
      · rw [h5 n (by omega)]
    · rw [h4]; exact (h3 _ (by omega) (by omega)).1.le
    · rw [h5 n (by omega)]
  · rw [h1 heq]
    split
    · exact ht
    · exact le_rfl

theorem NumDensity.pos {top : ℚ} {s : List ℤ} {F g : ℤ → ℚ} (h : NumDensity val top s F g) (ht : 0 < top) {n : ℤ}
    (hn : n ∈ s) : 0 < g n := by
  obtain ⟨lo, hi, hlo, hhi, hs, h1, h2⟩ := h
  have hn' := hs n hn
  rcases (hs hi hhi).1.lt_or_eq with hlt | heq
  · obtain ⟨h3, h4, h5⟩ := h2 hlt
    rcases hn'.2.lt_or_eq with h | rfl
    · exact (h3 n hn'.1 h).1
    · rw [h4]; exact (h3 _ (by omega) (by omega)).1
  · rw [h1 heq, if_pos (by omega)]
    exact ht

/-! ## All worlds -/

omit [DecidableEq L] in
theorem worlds_mem : ∀ {labs : List (List L)} {w : List L}, w ∈ worlds labs →
    w.length = labs.length ∧ ∀ (v : ℕ) (ls : List L), labs[v]? = some ls → ∃ x, w[v]? = some x ∧ x ∈ ls
  | [], w, h => by
    simp only [worlds, List.mem_singleton] at h
    subst h
    simp
  | ls :: r, w, h => by
    simp only [worlds, List.mem_flatMap, List.mem_map] at h
    obtain ⟨l, hl, w', hw', rfl⟩ := h
    obtain ⟨h1, h2⟩ := worlds_mem hw'
    refine ⟨by simp [h1], fun v ls' hv => ?_⟩
    cases v with
    | zero => simp only [List.getElem?_cons_zero, Option.some.injEq] at hv; subst hv; exact ⟨l, rfl, hl⟩
    | succ v => exact h2 v ls' (by simpa using hv)

omit [DecidableEq L] in
theorem worlds_ne : ∀ {labs : List (List L)}, (∀ ls ∈ labs, ls ≠ []) → worlds labs ≠ []
  | [], _ => by simp [worlds]
  | ls :: r, h => by
    have h1 := worlds_ne (labs := r) (fun x hx => h x (by simp [hx]))
    have h2 := h ls (by simp)
    obtain ⟨l, ls', rfl⟩ := List.exists_cons_of_ne_nil h2
    obtain ⟨w, ws, hw⟩ := List.exists_cons_of_ne_nil h1
    simp [worlds, hw]

omit [DecidableEq L] in
theorem sum_flatMap {α : Type} {f : α → List ℚ} : ∀ {l : List α},
    (l.flatMap f).sum = (l.map (fun a => (f a).sum)).sum
  | [] => rfl
  | a :: l => by simp [sum_flatMap (l := l)]

omit [DecidableEq L] in
/-- The product over the variables of the factors of a world. -/
theorem worlds_sum : ∀ (labs : List (List L)) (f : ℕ → Cell L → ℚ),
    ((worlds labs).map (fun w => ((List.range labs.length).map (fun v => f v (match w[v]? with
      | some l => .inr l
      | none => .inl 0))).prod)).sum =
    ((List.range labs.length).map (fun v => ((labs.getD v []).map (fun x => f v (.inr x))).sum)).prod
  | [], f => by simp [worlds]
  | ls :: r, f => by
    have ih := worlds_sum r (fun v => f (v + 1))
    simp only [worlds, List.map_flatMap, sum_flatMap, List.map_map, Function.comp_def, List.length_cons,
      List.range_succ_eq_map, List.map_cons, List.prod_cons, List.getElem?_cons_zero, List.getElem?_cons_succ,
      List.getD_cons_zero, List.getD_cons_succ, List.sum_map_mul_left, List.sum_map_mul_right, Nat.succ_eq_add_one] at ih ⊢
    rw [ih]

omit [DecidableEq L] in
theorem discP_single {k : Bool × Disc.Dom L} {d : DD L} (hd : discOk k d) {i : ℕ} (hi : i < d.2.params.length) :
    discP d (.set [(i : ℤ)]) = d.2.params[i] := by
  have := disc_density (idx := fun _ => 0) (scaling := 0) (dists := []) hd (i := i)
    (by rw [← hd.2.1, ← hd.2.2.2.1]; exact hi) 0
  simp only [cellDensity, Learn.toInt_nat, paramAt] at this
  rw [if_pos (by omega), Int.toNat_natCast, List.getElem?_eq_getElem hi] at this
  exact (Except.ok.inj this).symm

theorem discP_sum {k : Bool × Disc.Dom L} {d : DD L} (hd : discOk k d) :
    (k.2.labels.map (fun x => discP d (.set [((k.2.labels.idxOf x : ℕ) : ℤ)]))).sum = 1 := by
  have hd' := hd
  obtain ⟨-, h2, h3, h4, -, h5⟩ := hd'
  rw [← h5]
  congr 1
  rw [h2] at h3 h4
  apply List.ext_getElem
  · simp [h4]
  · intro i h6 h7
    rw [List.getElem_map, List.Nodup.idxOf_getElem h3 i (by omega), discP_single hd h7]

end Verif.Trees
