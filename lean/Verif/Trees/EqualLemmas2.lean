import Verif.Trees.EqualLemmas

/-!
# When comparing trees raises no exception
-/

namespace Verif.Trees

open Iv (FP CS Br NS)
open Iv.FP (fin ninf pinf)
open Fun (PF Fn)
open Num (tile Knots)
open Learn (Cfg Data DataOK learn)

variable {α D L : Type}

theorem allEq_total {f : α → α → Except Err Bool} : ∀ {a b : List α},
    (∀ (i : ℕ) (x y : α), a[i]? = some x → b[i]? = some y → ∃ t, f x y = .ok t) → ∃ t, allEq f a b = .ok t
  | [], [], _ => ⟨true, rfl⟩
  | [], _ :: _, _ => ⟨true, rfl⟩
  | _ :: _, [], _ => ⟨true, rfl⟩
  | x :: a, y :: b, h => by
    obtain ⟨t, ht⟩ := h 0 x y rfl rfl
    obtain ⟨s, hs⟩ := allEq_total (f := f) (a := a) (b := b) (fun i x y hx hy => h (i + 1) x y hx hy)
    rw [allEq, ht]
    cases t
    · exact ⟨false, rfl⟩
    · exact ⟨s, hs⟩

theorem listEq_total {f : α → α → Except Err Bool} {a b : List α}
    (h : ∀ (i : ℕ) (x y : α), a[i]? = some x → b[i]? = some y → ∃ t, f x y = .ok t) : ∃ t, listEq f a b = .ok t := by
  unfold listEq
  split
  · exact allEq_total h
  · exact ⟨false, rfl⟩

theorem lookupEq_total {f : α → α → Except Err Bool} {b : List (ℕ × α)} : ∀ {a : List (ℕ × α)},
    (∀ p ∈ a, ∀ y, b.lookup p.1 = some y → ∃ t, f p.2 y = .ok t) → ∃ t, lookupEq f b a = .ok t
  | [], _ => ⟨true, rfl⟩
  | (k, x) :: a, h => by
    obtain ⟨s, hs⟩ := lookupEq_total (f := f) (b := b) (a := a) (fun p hp => h p (List.mem_cons_of_mem _ hp))
    rw [lookupEq]
    cases hb : b.lookup k with
    | none => exact ⟨false, rfl⟩
    | some y =>
      obtain ⟨t, ht⟩ := h (k, x) List.mem_cons_self y hb
      simp only at ht
      simp only [ht, bind, Except.bind, pure, Except.pure]
      cases t
      · exact ⟨false, rfl⟩
      · exact ⟨s, hs⟩

theorem itemsEq_total {f : α → α → Except Err Bool} {a b : List (ℕ × α)}
    (h : ∀ p ∈ a, ∀ y, b.lookup p.1 = some y → ∃ t, f p.2 y = .ok t) : ∃ t, itemsEq f a b = .ok t := by
  unfold itemsEq
  split
  · exact lookupEq_total h
  · exact ⟨false, rfl⟩

theorem plain_total {f g : Fn} (hf : PlainFn f) (hg : PlainFn g) : ∃ t, f.eq g = .ok t := by
  cases f <;> cases g <;> simp_all [PlainFn, Fn.eq]

theorem pf_total : ∀ {p q : PF}, (∀ s ∈ p, PlainFn s.2) → (∀ s ∈ q, PlainFn s.2) → ∃ t, PF.eq p q = .ok t
  | [], _, _, _ => ⟨true, by simp [PF.eq]⟩
  | _ :: _, [], _, _ => ⟨true, by simp [PF.eq]⟩
  | (i, f) :: p, (j, g) :: q, hp, hq => by
    obtain ⟨t, ht⟩ := plain_total (hp _ List.mem_cons_self) (hq _ List.mem_cons_self)
    obtain ⟨s, hs⟩ := pf_total (p := p) (q := q) (fun s hs => hp s (List.mem_cons_of_mem _ hs))
      (fun s hs => hq s (List.mem_cons_of_mem _ hs))
    simp only at ht
    rw [PF.eq]
    split
    · exact ⟨false, rfl⟩
    · rw [ht]
      cases t
      · exact ⟨false, rfl⟩
      · exact ⟨s, hs⟩

theorem tile_plain : ∀ {l : List (ℤ × Fn)} {lo u : FP} {f : Fn}, PlainFn f → (∀ s ∈ l, PlainFn s.2) →
    ∀ s ∈ tile lo f l u, PlainFn s.2
  | [], _, _, _, hf, _ => by
    intro s hs
    simp only [tile, List.mem_singleton] at hs
    subst hs
    exact hf
  | (k, g) :: l, _, _, _, hf, hl => by
    intro s hs
    rw [tile, List.mem_cons] at hs
    rcases hs with rfl | hs
    · exact hf
    · exact tile_plain (hl _ List.mem_cons_self) (fun s hs => hl s (List.mem_cons_of_mem _ hs)) s hs

variable [DecidableEq L]

/-- Distributions of the same variable can be compared. -/
theorem fitMix_total {val : ℤ → ℚ} (hval : StrictMono val) {idx : ℚ → ℤ} (hidx : ∀ n, idx (val n) = n) {eps eps' : ℚ}
    {c c' : Cfg} {kind : ℕ → MK L} {data data' : Data} {total total' : ℕ} (hk : Kinds c kind) (hk' : Kinds c' kind)
    (hdata : DataOK c data total) (hdata' : DataOK c' data' total') (hfl : Floats val c data total)
    (hfl' : Floats val c' data' total') {v : ℕ} (hv : v < c.vars.length) (hv' : v < c'.vars.length) {rows rows' : List ℕ}
    (hne : rows ≠ []) (hne' : rows' ≠ []) (hr : ∀ r ∈ rows, r < total) (hr' : ∀ r ∈ rows', r < total') :
    ∃ t, mixEq (fitMix val idx eps kind data rows v) (fitMix val idx eps' kind data' rows' v) = .ok t := by
  have plain : ∀ {c : Cfg} {data : Data} {total : ℕ} {eps : ℚ} {rows : List ℕ}, Kinds c kind → Floats val c data total →
      v < c.vars.length → rows ≠ [] → (∀ r ∈ rows, r < total) → kind v = .inl () →
      ∀ s ∈ fitNum val idx eps data rows v, PlainFn s.2 := by
    intro c data total eps rows hk hfl hv hne hr hkd
    have hflr : ∀ r ∈ rows, ∃ n, data r v = val n := by
      intro r h
      obtain ⟨n, hn⟩ := hfl v (hk.numeric hv hkd) r r (hr r h) (hr r h)
      exact ⟨n, by rw [← hn]; ring⟩
    obtain ⟨h1, -⟩ := fitNum_spec (eps := eps) hval hidx hne hflr
    obtain ⟨l, h2, -, h3⟩ := fit_plain hval (by simpa using hne) h1
    rw [h2]
    exact tile_plain trivial h3
  cases hkd : kind v with
  | inl u =>
    simp only [fitMix, hkd, mixEq]
    exact pf_total (plain hk hfl hv hne hr hkd) (plain hk' hfl' hv' hne' hr' hkd)
  | inr k =>
    obtain ⟨d1, e1⟩ := hk.discrete hv hkd
    obtain ⟨d2, -⟩ := hk'.discrete hv' hkd
    have ok1 := (fitDisc_spec d1 (fun r h => hdata r (hr r h)) hne).1
    have ok2 := (fitDisc_spec d2 (fun r h => hdata' r (hr' r h)) hne').1
    simp only [fitMix, hkd, mixEq, discEq]
    rw [if_pos (by rw [ok1.2.2.2.1, ok2.2.2.2.1, ok1.2.1, ok2.2.1])]
    exact ⟨_, rfl⟩

omit [DecidableEq L] in
/-- The sets of values in a node are of the kind of its variable. -/
theorem regOK_kind {c : Cfg} {kind : ℕ → MK L} (hk : Kinds c kind) {v : ℕ} {r : Region} (h : Learn.RegOK c v r) :
    ((kind v).isLeft = true → ∃ i, r = .num i) ∧ ((kind v).isLeft = false → ∃ l, r = .set l) := by
  have hv := regOK_lt h
  have h2 := h.2
  rcases hk v hv with ⟨h3, h4⟩ | ⟨b, dom, h4, -, ⟨h3, -⟩ | ⟨h3, -⟩⟩ <;> rw [h3] at h2 <;> rw [h4]
  · exact ⟨fun _ => h2, fun h => by simp at h⟩
  · obtain ⟨l, h2, -⟩ := h2
    exact ⟨fun h => by simp at h, fun _ => ⟨l, h2⟩⟩
  · obtain ⟨l, h2, -⟩ := h2
    exact ⟨fun h => by simp at h, fun _ => ⟨l, h2⟩⟩

omit [DecidableEq L] in
theorem region_total {idx : ℚ → ℤ} {c c' : Cfg} {kind : ℕ → MK L} (hk : Kinds c kind) (hk' : Kinds c' kind) {v w : ℕ}
    (hvw : (kind v).isLeft = (kind w).isLeft) {r s : Region} (hr : Learn.RegOK c v r) (hs : Learn.RegOK c' w s) :
    ∃ t, regionEq idx r s = .ok t := by
  have h1 := regOK_kind hk hr
  have h2 := regOK_kind hk' hs
  cases hv : (kind v).isLeft with
  | true =>
    obtain ⟨i, rfl⟩ := h1.1 hv
    obtain ⟨j, rfl⟩ := h2.1 (hvw ▸ hv)
    exact ⟨_, rfl⟩
  | false =>
    obtain ⟨i, rfl⟩ := h1.2 hv
    obtain ⟨j, rfl⟩ := h2.2 (hvw ▸ hv)
    exact ⟨_, rfl⟩

end Verif.Trees
