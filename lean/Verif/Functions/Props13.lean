import Verif.Functions.XSamples
import Verif.Intervals.Props5

/-!
# C130: the points at which a piecewise function is sampled
-/

namespace Verif.Fun.XS

open Iv Iv.Lin

/-! ## Specification -/

/-- The piece `[a, b)`, not empty. -/
def mid (a b : ℚ) : Box × Bool := (⟨.fin a, .fin b, .inc, .exc⟩, false)

/-- The piece `(-∞, b)`. -/
def below (b : ℚ) : Box × Bool := (⟨.ninf, .fin b, .exc, .exc⟩, false)

/-- The piece `[a, ∞)`. -/
def above (a : ℚ) : Box × Bool := (⟨.fin a, .pinf, .inc, .exc⟩, false)

/-- The bounds of bounded pieces are in order, and there is a float between them next to the upper one. -/
def Fine (N : Ops) (m : List (ℚ × ℚ)) : Prop := ∀ p ∈ m, p.1 ≤ N.next p.2 (p.2 - 1) ∧ N.next p.2 (p.2 - 1) < p.2

/-! ## Lemmas -/

theorem linspace_mid {N : Ops} (hN : N.Exact) {a b : ℚ} (hab : a ≤ b) (d : ℚ) :
    linspace N (mid a b).1 (mid a b).2 2 d = .ok [a, N.next b (b - 1)] := by
  obtain ⟨xs, h1, h2, h3, h4, -⟩ := C107_bounded_partial hN hab .inc .exc d (le_refl 2)
  obtain ⟨x, y, rfl⟩ := List.length_eq_two.1 h2
  simp only [List.getElem?_cons_zero, if_true, Option.some.injEq] at h3
  simp at h4
  rw [mid, h1, h3, h4]

theorem linspace_below {N : Ops} (hN : N.Exact) {d : ℚ} (hd : 0 < d) (b : ℚ) :
    linspace N (below b).1 (below b).2 2 d = .ok [b - d, N.next b (b - 1)] := by
  obtain ⟨-, ⟨xs, h1, h2, h3, h4⟩, -⟩ := C107_unbounded_partial hN hd b .exc .exc (le_refl 2)
  obtain ⟨x, y, rfl⟩ := List.length_eq_two.1 h2
  have := h4 1 (by omega) (by omega)
  simp at h3 this
  rw [below, h1, h3, this]

theorem linspace_above {N : Ops} (hN : N.Exact) {d : ℚ} (hd : 0 < d) (a : ℚ) :
    linspace N (above a).1 (above a).2 2 d = .ok [a, a + d] := by
  obtain ⟨⟨xs, h1, h2, h3, h4⟩, -, -⟩ := C107_unbounded_partial hN hd a .inc .exc (le_refl 2)
  obtain ⟨x, y, rfl⟩ := List.length_eq_two.1 h2
  have := h4 1 (by omega) (by omega)
  simp at h3 this
  rw [above, h1, h3, this]

/-- The samples of bounded pieces. -/
def midSamples (N : Ops) (m : List (ℚ × ℚ)) : List ℚ := m.flatMap (fun p => [p.1, N.next p.2 (p.2 - 1)])

theorem bounded_append {N : Ops} : ∀ (p q : List (Box × Bool)) (xs ys : List ℚ), bounded N p = .ok xs → bounded N q = .ok ys →
    bounded N (p ++ q) = .ok (xs ++ ys)
  | [], q, xs, ys, h, h' => by
    simp only [bounded, Except.ok.injEq] at h
    rw [← h]; exact h'
  | (s, e) :: p, q, xs, ys, h, h' => by
    simp only [List.cons_append, bounded] at h ⊢
    split_ifs at h ⊢ with hc
    · cases hl : linspace N s e 2 with
      | error e => simp [hl, bind, Except.bind] at h
      | ok us =>
        cases hb : bounded N p with
        | error e => simp [hl, hb, bind, Except.bind] at h
        | ok vs =>
          simp only [hl, hb, bind, Except.bind, pure, Except.pure, Except.ok.injEq] at h
          rw [bounded_append p q vs ys hb h']
          simp [bind, Except.bind, pure, Except.pure, ← h]
    · exact bounded_append p q xs ys h h'

theorem bounded_mid {N : Ops} (hN : N.Exact) : ∀ (m : List (ℚ × ℚ)), Fine N m →
    bounded N (m.map (fun p => mid p.1 p.2)) = .ok (midSamples N m)
  | [], _ => rfl
  | p :: m, h => by
    have hp := h p List.mem_cons_self
    have hab : p.1 ≤ p.2 := hp.1.trans hp.2.le
    have ih := bounded_mid hN m (fun q hq => h q (List.mem_cons_of_mem _ hq))
    have hl := linspace_mid hN hab 1
    simp only [List.map_cons, bounded]
    rw [if_pos (by simp [mid]), hl, ih]
    simp [bind, Except.bind, pure, Except.pure, midSamples]

theorem gaps_nonneg : ∀ (xs : List ℚ), ∀ x ∈ gaps xs, 0 ≤ x
  | x :: y :: r, z, hz => by
    simp only [gaps, List.mem_cons] at hz
    rcases hz with rfl | hz
    · exact abs_nonneg _
    · exact gaps_nonneg _ _ hz
  | [], z, hz => by simp [gaps] at hz
  | [_], z, hz => by simp [gaps] at hz

theorem sum_nonneg' : ∀ {l : List ℚ}, (∀ x ∈ l, 0 ≤ x) → 0 ≤ l.sum
  | [], _ => by simp
  | x :: l, h => by
    rw [List.sum_cons]
    exact add_nonneg (h x List.mem_cons_self) (sum_nonneg' (fun y hy => h y (List.mem_cons_of_mem _ hy)))

theorem step_pos {p : List (Box × Bool)} {xs : List ℚ} (hx : 2 ≤ xs.length) : ∃ d, step p xs = some d ∧ 0 < d := by
  have hg : gaps xs ≠ [] := by
    match xs, hx with
    | x :: y :: r, _ => simp [gaps]
  have hs : 0 ≤ (gaps xs).sum := sum_nonneg' (gaps_nonneg xs)
  unfold step
  split
  · split_ifs with h1 h3
    · exact ⟨1, rfl, one_pos⟩
    · refine ⟨_, rfl, div_pos (lt_of_le_of_ne hs (Ne.symm h3)) ?_⟩
      exact_mod_cast List.length_pos_iff.2 hg
    · exact ⟨1, rfl, one_pos⟩
  · exact ⟨1, rfl, one_pos⟩

theorem midSamples_length (N : Ops) : ∀ m : List (ℚ × ℚ), (midSamples N m).length = 2 * m.length
  | [] => rfl
  | p :: m => by
    have := midSamples_length N m
    simp only [midSamples, List.flatMap_cons, List.length_append, List.length_cons, List.length_nil] at this ⊢
    omega

theorem sorted_map_some (xs : List ℚ) : sorted (xs.map some) = (xs.insertionSort (· ≤ ·)).map some := by
  simp [sorted, List.filterMap_map]

/-! ## Theorems -/

/-- C130 for functions that are defined everywhere and have a bounded piece, without rounding: there are two samples for each piece,
namely the bounds of bounded pieces (or the float below the upper bound), and the bound and a point beyond it for unbounded pieces; each
of them lies in its piece; with `sort` the same samples come in ascending order.
Missing: functions without a bounded piece; for them this is false. -/
theorem C130_everywhere_partial {N : Ops} (hN : N.Exact) (b c : ℚ) (m : List (ℚ × ℚ)) (hm : m ≠ []) (hf : Fine N m)
    (hb : N.next b (b - 1) < b) :
    ∃ (xs : List ℚ) (d : ℚ), 0 < d ∧ xsamples N (below b :: m.map (fun p => mid p.1 p.2) ++ [above c]) false = .ok (xs.map some) ∧
      xsamples N (below b :: m.map (fun p => mid p.1 p.2) ++ [above c]) true = .ok ((xs.insertionSort (· ≤ ·)).map some) ∧
      xs.length = 2 * (m.length + 2) ∧
      (∀ x, x ∈ xs ↔ (∃ p ∈ m, x = p.1 ∨ x = N.next p.2 (p.2 - 1)) ∨ x = b - d ∨ x = N.next b (b - 1) ∨ x = c ∨ x = c + d) ∧
      ∀ x ∈ xs, ∃ s ∈ below b :: m.map (fun p => mid p.1 p.2) ++ [above c], s.1.Inside x := by
  set P := below b :: m.map (fun p => mid p.1 p.2) ++ [above c] with hP
  have hbd : bounded N P = .ok (midSamples N m) := by
    have h1 : bounded N (m.map (fun p => mid p.1 p.2) ++ [above c]) = .ok (midSamples N m ++ []) :=
      bounded_append _ _ _ _ (bounded_mid hN m hf) (by simp [bounded, above])
    rw [List.append_nil] at h1
    rw [hP, List.cons_append, below]
    simpa [bounded] using h1
  have hml : 1 ≤ m.length := List.length_pos_iff.2 hm
  have hlen := midSamples_length N m
  obtain ⟨d, hd, hpos⟩ := step_pos (p := P) (xs := midSamples N m) (by omega)
  have hhead : P.head? = some (below b) := by simp [hP]
  have hlast : P.getLast? = some (above c) := by rw [hP, List.getLast?_concat]
  have hPl : P.length = m.length + 2 := by simp [hP]
  have ho1 : outer N (below b) (some d) = .ok [some (b - d), some (N.next b (b - 1))] := by
    simp [outer, linspace_below hN hpos, Except.map]
  have ho2 : outer N (above c) (some d) = .ok [some c, some (c + d)] := by
    simp [outer, linspace_above hN hpos, Except.map]
  have hlo : (below b).1.lower = .ninf := rfl
  have hup : (above c).1.upper = .pinf := rfl
  set xs := midSamples N m ++ [b - d, N.next b (b - 1)] ++ [c, c + d] with hxs
  have hxl : xs.length = 2 * (m.length + 2) := by simp [hxs, hlen]; omega
  have hr : (midSamples N m).map some ++ [some (b - d), some (N.next b (b - 1))] ++ [some c, some (c + d)] = xs.map some := by
    simp [hxs]
  have hroom : ¬ (xs.map some).length > 3 * P.length := by rw [List.length_map, hxl, hPl]; omega
  have hmem : ∀ x, x ∈ xs ↔ (∃ p ∈ m, x = p.1 ∨ x = N.next p.2 (p.2 - 1)) ∨ x = b - d ∨ x = N.next b (b - 1) ∨ x = c ∨ x = c + d := by
    intro x
    simp only [hxs, midSamples, List.mem_append, List.mem_flatMap, List.mem_cons, List.not_mem_nil, or_false]
    rw [or_assoc, or_assoc]
  refine ⟨xs, d, hpos, ?_, ?_, hxl, hmem, ?_⟩
  · simp only [xsamples, hbd, bind, Except.bind, hhead, hlast, hd, hlo, hup, if_true, ho1, ho2, hr]
    rw [if_neg hroom]; simp
  · simp only [xsamples, hbd, bind, Except.bind, hhead, hlast, hd, hlo, hup, if_true, ho1, ho2, hr]
    rw [if_neg hroom, sorted_map_some]
  · intro x hx
    have hab : ∀ x, c ≤ x → (above c).1.Inside x := by
      intro x h
      refine ⟨fun a e => ?_, fun a e => by cases e⟩
      cases e
      rcases lt_or_eq_of_le h with h | h
      · exact Or.inl h
      · exact Or.inr ⟨h, rfl⟩
    have hbe : ∀ x, x < b → (below b).1.Inside x := by
      intro x h
      exact ⟨fun a e => (by cases e), fun a e => (by cases e; exact .inl h)⟩
    rcases (hmem x).1 hx with ⟨p, hp, h⟩ | rfl | rfl | rfl | rfl
    · refine ⟨mid p.1 p.2, by simp only [hP, List.cons_append, List.mem_cons, List.mem_append, List.mem_map]; exact .inr (.inl ⟨p, hp, rfl⟩), ?_⟩
      have := hf p hp
      refine ⟨fun a e => ?_, fun a e => ?_⟩ <;> cases e
      · rcases h with rfl | rfl
        · exact .inr ⟨rfl, rfl⟩
        · rcases lt_or_eq_of_le this.1 with h | h
          · exact .inl h
          · exact .inr ⟨h, rfl⟩
      · rcases h with rfl | rfl
        · exact .inl (lt_of_le_of_lt this.1 this.2)
        · exact .inl this.2
    · exact ⟨below b, by simp [hP], hbe _ (by linarith)⟩
    · exact ⟨below b, by simp [hP], hbe _ hb⟩
    · exact ⟨above x, by simp [hP], hab _ le_rfl⟩
    · exact ⟨above c, by simp [hP], hab _ (by linarith)⟩

/-- C130 for functions with bounded pieces only, without rounding: the samples are the bounds of the pieces, or the floats below the upper
bounds. -/
theorem C130_bounded_partial {N : Ops} (hN : N.Exact) (m : List (ℚ × ℚ)) (hm : m ≠ []) (hf : Fine N m) :
    xsamples N (m.map (fun p => mid p.1 p.2)) false = .ok ((m.flatMap (fun p => [p.1, N.next p.2 (p.2 - 1)])).map some) := by
  have hbd := bounded_mid hN m hf
  have hlen := midSamples_length N m
  obtain ⟨p, m', rfl⟩ := List.exists_cons_of_ne_nil hm
  obtain ⟨q, hq⟩ : ∃ q, (p :: m').getLast? = some q := ⟨_, List.getLast?_eq_some_getLast (by simp)⟩
  have hlast : ((p :: m').map (fun p => mid p.1 p.2)).getLast? = some (mid q.1 q.2) := by rw [List.getLast?_map, hq]; rfl
  have hhead : ((p :: m').map (fun p => mid p.1 p.2)).head? = some (mid p.1 p.2) := rfl
  have hroom : ¬ ((midSamples N (p :: m')).map some ++ [] ++ []).length > 3 * ((p :: m').map (fun p => mid p.1 p.2)).length := by
    simp only [List.append_nil, List.length_map, hlen]; omega
  have h1 : ¬ (mid p.1 p.2).1.lower = .ninf := by simp [mid]
  have h2 : ¬ (mid q.1 q.2).1.upper = .pinf := by simp [mid]
  simp only [xsamples, hbd, bind, Except.bind, hhead, hlast, h1, h2, if_false]
  rw [if_neg hroom]
  simp [midSamples]

example : Fine exOps [(0, 1), (1, 4)] ∧
    xsamples exOps [below 0, mid 0 1, mid 1 4, above 4] true =
      .ok [some (-133 / 100), some (-1 / 100), some 0, some (99 / 100), some 1, some (399 / 100), some 4, some (533 / 100)] :=
  ⟨by
    intro p hp
    simp only [List.mem_cons, List.not_mem_nil, or_false] at hp
    rcases hp with rfl | rfl <;> norm_num [exOps], by decide +kernel⟩

/-- Disagreement: if no piece is bounded, some samples are `nan`, and one of the others is not in its piece: for a step at 0, the samples of
`(-∞, 0)` and `[0, ∞)` are `0, nan, 0, nan`. -/
theorem C130_violated_step (N : Ops) : xsamples N [below 0, above 0] false = .ok [some 0, none, some 0, none] := by
  simp [xsamples, bounded, below, above, step, gaps, outer, bind, Except.bind]

/-- Disagreement: for a function with a single piece, all numbers, `xsamples` writes four samples to an array with room for three. -/
theorem C130_violated_room (sort : Bool) : xsamples exOps [(⟨.ninf, .pinf, .exc, .exc⟩, false)] sort = .error .runtimeError := by
  cases sort <;> decide +kernel

end Verif.Fun.XS
