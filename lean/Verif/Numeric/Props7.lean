import Verif.Numeric.MpeLemmas
import Verif.Numeric.Props5

/-!
# Properties of explanations of numeric distributions

C76 (most probable explanations).
-/

namespace Verif.Num

open Iv Iv.FP Fun

/-! ## C76 -/

/-- Whether a piece of a cdf is not constant. -/
def slanted : Fn → Bool
  | .const _ => false
  | _ => true

theorem tile_snd {u : FP} : ∀ {L : List (ℤ × Fn)} {lo : FP} {f : Fn}, (tile lo f L u).map Prod.snd = f :: L.map Prod.snd
  | [], _, _ => rfl
  | (k, g) :: r, _, _ => by simp only [tile, List.map_cons, tile_snd]

/-- The explanations of a distribution whose cdf is 0 before its first knot and constant or linear between two
knots and behind the last one: they are in descending order of their likelihoods; each explanation consists of
exactly the floats with that density; no float that is left out has a greater density than a listed one; and
there are as many as asked for, up to the number of linear pieces. -/
theorem C76_explanations (knots : List (ℤ × Fn)) (hincr : knots.Pairwise (fun s t => s.1 < t.1))
    (hpieces : ∀ s ∈ knots, (∃ c, s.2 = .const c) ∨ ∃ m c, m ≠ 0 ∧ s.2 = .lin m c) (h2 : 2 ≤ knots.length)
    (k : Option ℕ) :
    ∃ d out, pdf (tile ninf (.const 0) knots pinf) = .ok d ∧ kMpe d k = .ok out ∧
      out.Pairwise (fun a b => b.2.le a.2 = true) ∧
      (∀ e ∈ out, ∃ m, e.2 = .fin m ∧ (∃ i c, (i, Fn.lin m c) ∈ tile ninf (.const 0) knots pinf) ∧
        ∀ x, e.1.Mem x ↔ ∃ i c, (i, Fn.lin m c) ∈ tile ninf (.const 0) knots pinf ∧ i.Mem x) ∧
      (∀ i m c, (i, Fn.lin m c) ∈ tile ninf (.const 0) knots pinf →
        (∃ e ∈ out, e.2 = .fin m) ∨ ∀ e ∈ out, (XQ.fin m).le e.2 = true) ∧
      out.length = min (k.getD knots.length) (knots.countP (fun s => slanted s.2)) := by
  set p := tile ninf (.const 0) knots pinf with hp
  have hfn : ∀ s ∈ p, (∃ c, s.2 = .const c) ∨ ∃ m c, m ≠ 0 ∧ s.2 = .lin m c := by
    intro s hs
    have : s.2 ∈ p.map Prod.snd := List.mem_map_of_mem hs
    rw [hp, tile_snd, List.mem_cons, List.mem_map] at this
    rcases this with h | ⟨t, ht, h⟩
    · exact .inl ⟨0, h⟩
    · rw [← h]; exact hpieces t ht
  have hlen : p.length ≠ 2 := by rw [hp, tile_length]; omega
  have hdens : pdf p = .ok (densOf p) := pdf_eq (fun s hs => by
    rcases hfn s hs with ⟨c, h⟩ | ⟨m, c, -, h⟩ <;> rw [h] <;> rfl) hlen
  have hopen : ∀ s ∈ densOf p, s.2 ≠ .fin 0 → s.1.HalfOpenOrEmpty := by
    intro s hs _
    obtain ⟨t, ht, rfl⟩ := List.mem_map.1 hs
    exact .inl (tile_halfOpen hincr (fun s _ => by simp [FP.lt_def, leb]) (by simp) t ht)
  obtain ⟨out, h1, h3, h4⟩ := kMpe_spec hopen k
  have hlik : ∀ v, v ∈ likelihoods (densOf p) ↔ ∃ i m c, (i, Fn.lin m c) ∈ p ∧ v = .fin m := by
    intro v
    simp only [likelihoods, densOf, List.map_map, List.mem_filter, List.mem_map, Function.comp]
    constructor
    · rintro ⟨⟨s, hs, rfl⟩, hv⟩
      rcases hfn s hs with ⟨c, h⟩ | ⟨m, c, -, h⟩
      · rw [h] at hv; simp [sl] at hv
      · exact ⟨s.1, m, c, by rw [← h]; exact hs, by rw [h]; rfl⟩
    · rintro ⟨i, m, c, hs, rfl⟩
      refine ⟨⟨_, hs, rfl⟩, ?_⟩
      rcases hfn _ hs with ⟨c', h⟩ | ⟨m', c', hm, h⟩
      · cases h
      · cases h; simpa using hm
  have hperm := List.perm_insertionSort (fun a b : XQ => b.le a = true) (likelihoods (densOf p))
  have hsort := sorted_likelihoods (densOf p)
  refine ⟨_, out, hdens, h1, ?_, ?_, ?_, ?_⟩
  · have : (out.map Prod.snd).Pairwise (fun a b => b.le a = true) := by
      rw [h3]; exact hsort.sublist (List.take_sublist _ _)
    exact List.pairwise_map.1 this
  · intro e he
    have h5 : e.2 ∈ out.map Prod.snd := List.mem_map_of_mem he
    rw [h3] at h5
    obtain ⟨i, m, c, hi, h6⟩ := (hlik _).1 (hperm.mem_iff.1 (List.mem_of_mem_take h5))
    have hm : m ≠ 0 := by
      have := hperm.mem_iff.1 (List.mem_of_mem_take h5)
      simp only [likelihoods, List.mem_filter] at this
      intro h; rw [h6, h] at this; simp at this
    refine ⟨m, h6, ⟨i, c, hi⟩, fun x => ?_⟩
    rw [h4 e he x]
    constructor
    · rintro ⟨s, hs, hv, hx⟩
      obtain ⟨t, ht, rfl⟩ := List.mem_map.1 hs
      simp only [h6, XQ.fin.injEq] at hv
      rcases hfn t ht with ⟨c', h⟩ | ⟨m', c', -, h⟩
      · rw [h] at hv; simp only [sl] at hv; exact absurd hv.symm hm
      · rw [h] at hv; simp only [sl] at hv; subst hv
        exact ⟨t.1, c', by rw [← h]; exact ht, hx⟩
    · rintro ⟨i', c', hi, hx⟩
      exact ⟨(i', .fin m), List.mem_map.2 ⟨_, hi, rfl⟩, h6.symm, hx⟩
  · intro i m c hi
    have h5 := hperm.mem_iff.2 ((hlik (.fin m)).2 ⟨i, m, c, hi, rfl⟩)
    rw [← List.take_append_drop (k.getD (likelihoods (densOf p)).length)
      ((likelihoods (densOf p)).insertionSort (fun a b => b.le a = true)), ← h3, List.mem_append] at h5
    rcases h5 with h5 | h5
    · obtain ⟨e, he, h6⟩ := List.mem_map.1 h5
      exact .inl ⟨e, he, h6⟩
    · right
      intro e he
      have h6 : e.2 ∈ out.map Prod.snd := List.mem_map_of_mem he
      rw [h3] at h6
      rw [← List.take_append_drop (k.getD (likelihoods (densOf p)).length)
        ((likelihoods (densOf p)).insertionSort (fun a b => b.le a = true)), List.pairwise_append] at hsort
      exact hsort.2.2 _ h6 _ h5
  · have hcount : (likelihoods (densOf p)).length = knots.countP (fun s => slanted s.2) := by
      have e : (densOf p).map Prod.snd = (p.map Prod.snd).map (fun f => XQ.fin (sl f)) := by
        simp [densOf, List.map_map, Function.comp_def]
      rw [likelihoods, e, hp, tile_snd, ← List.countP_eq_length_filter]
      simp only [List.map_cons, List.map_map, List.countP_cons, List.countP_map]
      simp only [sl, bne_self_eq_false, Bool.false_eq_true, if_false, Nat.add_zero]
      refine List.countP_congr (fun s hs => ?_)
      rcases hpieces s hs with ⟨c, h⟩ | ⟨m, c, hm, h⟩
      · simp [h, slanted]
      · simp [h, slanted, hm]
    have h5 := congrArg List.length h3
    rw [List.length_map, List.length_take, List.length_insertionSort] at h5
    rw [h5, hcount]
    cases k with
    | none => simp only [Option.getD_none]; have := List.countP_le_length (p := fun s : ℤ × Fn => slanted s.2) (l := knots); omega
    | some k => rfl

example : ∃ d out, pdf (tile ninf (.const 0) [(0, .lin (1 / 10) 0), (4, .lin (1 / 40) (3 / 10)),
    (12, .lin (1 / 10) (-3 / 5)), (17, .const 1)] pinf) = .ok d ∧ kMpe d (some 2) = .ok out ∧ out.length = 2 := by
  obtain ⟨d, out, h1, h2, -, -, -, h3⟩ := C76_explanations [(0, .lin (1 / 10) 0), (4, .lin (1 / 40) (3 / 10)),
    (12, .lin (1 / 10) (-3 / 5)), (17, .const 1)] (by decide) (by simp) (by decide) (some 2)
  exact ⟨d, out, h1, h2, h3⟩

/-- If the cdf increases somewhere, `mpe` gives the set of all floats with the greatest density. -/
theorem C76_mpe (knots : List (ℤ × Fn)) (hincr : knots.Pairwise (fun s t => s.1 < t.1))
    (hpieces : ∀ s ∈ knots, (∃ c, s.2 = .const c) ∨ ∃ m c, m ≠ 0 ∧ s.2 = .lin m c) (h2 : 2 ≤ knots.length)
    (hsome : ∃ s ∈ knots, slanted s.2 = true) :
    ∃ d S m, pdf (tile ninf (.const 0) knots pinf) = .ok d ∧ mpe d = .ok (S, .fin m) ∧
      (∃ i c, (i, Fn.lin m c) ∈ tile ninf (.const 0) knots pinf) ∧
      (∀ x, S.Mem x ↔ ∃ i c, (i, Fn.lin m c) ∈ tile ninf (.const 0) knots pinf ∧ i.Mem x) ∧
      ∀ i m' c, (i, Fn.lin m' c) ∈ tile ninf (.const 0) knots pinf → m' ≤ m := by
  obtain ⟨d, out, h1, h3, h4, h5, h6, h7⟩ := C76_explanations knots hincr hpieces h2 (some 1)
  have hpos : 0 < knots.countP (fun s => slanted s.2) := List.countP_pos_iff.2 hsome
  obtain ⟨e, rfl⟩ : ∃ e, out = [e] := List.length_eq_one_iff.1 (by rw [h7]; simp only [Option.getD_some]; omega)
  obtain ⟨m, hm, hex, hS⟩ := h5 e (by simp)
  refine ⟨d, e.1, m, h1, ?_, hex, hS, ?_⟩
  · rw [mpe, h3, ← hm]; rfl
  · intro i m' c hi
    rcases h6 i m' c hi with ⟨e', he', h⟩ | h
    · simp only [List.mem_singleton] at he'
      rw [he', hm] at h; cases h; exact le_rfl
    · have := h e (by simp)
      rw [hm] at this; simpa [XQ.le] using this

example : ∃ d S, pdf (tile ninf (.const 0) [(0, .lin (1 / 10) 0), (10, .const 1)] pinf) = .ok d ∧
    mpe d = .ok (S, .fin (1 / 10)) := by
  refine ⟨_, .cs ⟨fin 0, fin 10, .inc, .exc⟩, rfl, ?_⟩
  decide +kernel

/-- The explanation of a distribution of a single value consists of that value. -/
theorem C76_dirac (x : ℤ) :
    ∃ d S, pdf (jumpCdf x) = .ok d ∧ mpe d = .ok (S, .pinf) ∧ ∀ n, S.Mem (fin n) ↔ n = x := by
  have hp : pdf (jumpCdf x) = .ok (impulse [((⟨ninf, fin x, .exc, .exc⟩ : CS), XQ.fin 0),
      ((⟨fin x, pinf, .inc, .exc⟩ : CS), XQ.fin 0)]) := rfl
  set d := impulse [((⟨ninf, fin x, .exc, .exc⟩ : CS), XQ.fin 0), ((⟨fin x, pinf, .inc, .exc⟩ : CS), XQ.fin 0)] with hd
  have hd' : d = [((⟨ninf, fin x, .exc, .exc⟩ : CS), XQ.fin 0), (⟨fin x, fin (x + 1), .inc, .exc⟩, .pinf),
      ((⟨fin (x + 1), pinf, .inc, .exc⟩ : CS), XQ.fin 0)] := by
    simp [hd, impulse, FP.up]
  obtain ⟨out, h1, h2, h3⟩ := kMpe_spec (d := d) (by
    intro s hs h0
    rw [hd'] at hs
    simp only [List.mem_cons, List.not_mem_nil, or_false] at hs
    rcases hs with rfl | rfl | rfl
    · exact absurd rfl h0
    · left; simp [CS.HalfOpen, FP.lt_def, leb]
    · exact absurd rfl h0) (some 1)
  have hl : likelihoods d = [.pinf] := by rw [hd']; rfl
  rw [hl] at h2
  simp only [Option.getD_some, List.insertionSort_cons, List.insertionSort_nil, List.orderedInsert_nil, List.take] at h2
  obtain ⟨e, rfl, he⟩ : ∃ e, out = [e] ∧ e.2 = .pinf := by
    obtain ⟨e, he⟩ := List.length_eq_one_iff.1 (show out.length = 1 by
      have := congrArg List.length h2
      simpa using this)
    exact ⟨e, he, by rw [he] at h2; simpa using h2⟩
  refine ⟨d, e.1, hp, ?_, fun n => ?_⟩
  · rw [mpe, h1, ← he]; rfl
  · rw [h3 e (by simp), he, hd']
    simp [CS.Mem, FP.lt_def, leb]
    omega

/-- Explanations with the same likelihood are listed once per piece: the two best explanations are the same, and
the second best likelihood, 1/40, is not among them. -/
theorem C76_violated_repeated :
    ∃ p d S, fit ival (1 / 100) [0, 2, 4, 12, 14, 16] = .ok p ∧ pdf p = .ok d ∧
      kMpe d (some 2) = .ok [(S, .fin (1 / 10)), (S, .fin (1 / 10))] := by
  refine ⟨[(⟨ninf, fin 0, .exc, .exc⟩, .const 0), (co 0 4, .lin (1 / 10) 0), (co 4 12, .lin (1 / 40) (3 / 10)),
    (co 12 17, .lin (1 / 10) (-3 / 5)), (⟨fin 17, pinf, .inc, .exc⟩, .const 1)], _,
    .rs [co 0 4, co 12 17], ?_, rfl, ?_⟩ <;> decide +kernel

/-- A merge of distributions of single values has no explanation: `mpe` raises an exception. -/
theorem C76_violated_merged_values :
    ∃ p d, merge ival Rat.floor [jumpCdf 2, jumpCdf 7] none = .ok p ∧ pdf p = .ok d ∧ mpe d = .error .typeError := by
  refine ⟨[(⟨ninf, fin 2, .exc, .exc⟩, .const 0), (co 2 7, .const (1 / 2)),
    (⟨fin 7, pinf, .inc, .exc⟩, .const 1)], _, ?_, rfl, ?_⟩ <;> decide +kernel

/-- A single value in a merge is ignored, whatever its weight: here the value 50 has probability 9/10, and the
most probable explanation is the other part, `[0, 11)`. -/
theorem C76_violated_weight :
    ∃ u p d, fit ival (1 / 100) [0, 10] = .ok u ∧
      merge ival Rat.floor [u, jumpCdf 50] (some [some (1 / 10), some (9 / 10)]) = .ok p ∧ pdf p = .ok d ∧
      mpe d = .ok (.cs (co 0 11), .fin (1 / 100)) := by
  refine ⟨[(⟨ninf, fin 0, .exc, .exc⟩, .const 0), (co 0 11, .lin (1 / 10) 0),
    (⟨fin 11, pinf, .inc, .exc⟩, .const 1)], [(⟨ninf, fin 0, .exc, .exc⟩, .const 0), (co 0 11, .lin (1 / 100) 0),
    (co 11 50, .const (11 / 100)), (⟨fin 50, pinf, .inc, .exc⟩, .const 1)], _, ?_, ?_, rfl, ?_⟩ <;> decide +kernel

end Verif.Num
