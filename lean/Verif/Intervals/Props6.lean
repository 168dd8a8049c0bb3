import Verif.Intervals.Round
import Verif.Intervals.Props
import Verif.ListAux

/-!
# C119: rounding a set of numbers
-/

namespace Verif.Iv

/-! ## Specification -/

/-- The rounding of a number. -/
def rounded (rnd : Int → Int) : FP → FP
  | .fin x => .fin (rnd x)
  | x => x

/-- Both bounds belong to the interval. -/
def CS.Closed (s : CS) : Prop := s.left = .inc ∧ s.right = .inc

/-! ## Lemmas -/

theorem rounded_mono {rnd : Int → Int} (h : Monotone rnd) {a b : FP} (hab : a ≤ b) : rounded rnd a ≤ rounded rnd b := by
  cases a <;> cases b <;> simp_all [rounded, FP.le_def, FP.leb]
  exact h hab

theorem round_ok (rnd : Int → Int) (digits : Bool) (x : FP) (h : digits = true ∨ x.isInf = false) :
    x.round rnd digits = .ok (rounded rnd x) := by
  cases x <;> simp_all [FP.round, rounded, FP.isInf]

theorem csRound_ok {rnd : Int → Int} (hr : Monotone rnd) {digits : Bool} {s : CS} (hw : s.WF)
    (h : digits = true ∨ s.lower.isInf = false ∧ s.upper.isInf = false) :
    s.round rnd digits = .ok ⟨rounded rnd s.lower, rounded rnd s.upper, s.left, s.right⟩ := by
  unfold CS.round
  rw [round_ok rnd digits s.lower (h.imp id And.left), round_ok rnd digits s.upper (h.imp id And.right)]
  simp only [bind, Except.bind, CS.mk?]
  rw [if_neg (not_lt.2 (rounded_mono hr hw))]

theorem mem_bounds {s : CS} {x : FP} (h : s.Mem x) : s.lower ≤ x ∧ x ≤ s.upper := by
  obtain ⟨h1, h2⟩ := h
  refine ⟨?_, ?_⟩
  · rcases h1 with h1 | h1
    · exact h1.le
    · exact h1.1.le
  · rcases h2 with h2 | h2
    · exact h2.le
    · exact h2.1.le

/-! ## Theorems -/

/-- C119: rounding an interval gives an interval with the same kind of bounds, between which the roundings of its points lie;
they belong to it unless they fall on an open bound. -/
theorem C119_interval (rnd : Int → Int) (hr : Monotone rnd) (digits : Bool) (s : CS) (hw : s.WF)
    (hd : digits = true ∨ s.lower.isInf = false ∧ s.upper.isInf = false) :
    ∃ t, s.round rnd digits = .ok t ∧ t.WF ∧ t.left = s.left ∧ t.right = s.right ∧
      ∀ x, s.Mem x → t.lower ≤ rounded rnd x ∧ rounded rnd x ≤ t.upper ∧
        (t.Mem (rounded rnd x) ∨ rounded rnd x = t.lower ∧ t.left = .exc ∨ rounded rnd x = t.upper ∧ t.right = .exc) := by
  refine ⟨_, csRound_ok hr hw hd, rounded_mono hr hw, rfl, rfl, ?_⟩
  intro x hx
  have h1 := rounded_mono hr (mem_bounds hx).1
  have h2 := rounded_mono hr (mem_bounds hx).2
  refine ⟨h1, h2, ?_⟩
  obtain ⟨a, b, l, r⟩ := s
  rcases h1.lt_or_eq with h1 | h1 <;> rcases h2.lt_or_eq with h2 | h2 <;> cases l <;> cases r <;> simp_all [CS.Mem]

/-- C119: an infinite bound can be rounded only if a number of digits is given. -/
theorem C119_infinite (rnd : Int → Int) (s : CS) (h : s.lower.isInf = true ∨ s.upper.isInf = true) :
    s.round rnd false = .error .runtimeError := by
  obtain ⟨a, b, l, r⟩ := s
  unfold CS.round
  cases a <;> cases b <;> simp_all [FP.round, FP.isInf, bind, Except.bind]

/-- C119 for sets of closed intervals: the roundings of the points of a set lie in its rounding.  Missing: open bounds, for
which this is false. -/
theorem C119_points_partial (rnd : Int → Int) (hr : Monotone rnd) (digits : Bool) (l : List CS)
    (hl : ∀ s ∈ l, s.WF ∧ s.Closed ∧ (digits = true ∨ s.lower.isInf = false ∧ s.upper.isInf = false)) :
    ∃ m, RS.round rnd digits l = .ok m ∧ m.length = l.length ∧ ∀ x, RS.Mem l x → RS.Mem m (rounded rnd x) := by
  have key : ∀ s ∈ l, s.round rnd digits = .ok ⟨rounded rnd s.lower, rounded rnd s.upper, s.left, s.right⟩ :=
    fun s hs => csRound_ok hr (hl s hs).1 (hl s hs).2.2
  refine ⟨l.map fun s => ⟨rounded rnd s.lower, rounded rnd s.upper, s.left, s.right⟩, ?_, by simp, ?_⟩
  · unfold RS.round
    rw [mapM_ok_iff]
    clear hl
    induction l with
    | nil => simp
    | cons s l ih =>
      exact List.Forall₂.cons (key s (by simp)) (ih fun t ht => key t (List.mem_cons_of_mem _ ht))
  · rintro x ⟨s, hs, hx⟩
    refine ⟨_, List.mem_map.2 ⟨s, hs, rfl⟩, ?_⟩
    obtain ⟨hc1, hc2⟩ := (hl s hs).2.1
    have h1 := rounded_mono hr (mem_bounds hx).1
    have h2 := rounded_mono hr (mem_bounds hx).2
    refine ⟨?_, ?_⟩
    · rcases h1.lt_or_eq with h | h
      · exact Or.inl h
      · exact Or.inr ⟨h, hc1⟩
    · rcases h2.lt_or_eq with h | h
      · exact Or.inl h
      · exact Or.inr ⟨h, hc2⟩

/-- C119: rounding twice is rounding once. -/
theorem C119_twice (rnd : Int → Int) (hi : ∀ x, rnd (rnd x) = rnd x) (digits : Bool) (s t : CS)
    (h : s.round rnd digits = .ok t) : t.round rnd digits = .ok t := by
  obtain ⟨a, b, l, r⟩ := s
  unfold CS.round at h
  cases a <;> cases b <;> cases digits <;>
    simp only [FP.round, bind, Except.bind, CS.mk?, if_true, Bool.false_eq_true, if_false, reduceCtorEq] at h <;>
    (split at h <;> cases h) <;> next hlt => simp only [CS.round, FP.round, bind, Except.bind, CS.mk?, hi, if_true, if_neg hlt]

/-- C119: a point of a set of intervals is taken from its first non-empty interval; there is none just if the set is empty. -/
theorem C119_anyPoint (pick : CS → FP) (hp : ∀ s : CS, (∃ x, s.Mem x) → s.Mem (pick s)) (l : List CS)
    (hl : ∀ s ∈ l, s.WF) :
    (∀ x, RS.anyPoint pick l = some x → RS.Mem l x) ∧ (RS.anyPoint pick l = none ↔ ¬ ∃ x, RS.Mem l x) := by
  induction l with
  | nil => simp [RS.anyPoint, RS.Mem]
  | cons i l ih =>
    obtain ⟨h1, h2⟩ := ih (fun s hs => hl s (List.mem_cons_of_mem _ hs))
    have hi := CS.isempty_iff i (hl i (by simp))
    unfold RS.anyPoint
    by_cases he : i.isempty = true
    · rw [if_pos he]
      have hne := hi.1 he
      refine ⟨fun x hx => ?_, ?_⟩
      · obtain ⟨s, hs, hm⟩ := h1 x hx
        exact ⟨s, List.mem_cons_of_mem _ hs, hm⟩
      · rw [h2]
        refine not_congr ⟨?_, ?_⟩
        · rintro ⟨x, s, hs, hm⟩
          exact ⟨x, s, List.mem_cons_of_mem _ hs, hm⟩
        · rintro ⟨x, s, hs, hm⟩
          rcases List.mem_cons.1 hs with rfl | hs
          · exact absurd ⟨x, hm⟩ hne
          · exact ⟨x, s, hs, hm⟩
    · rw [if_neg he]
      have hne : ∃ x, i.Mem x := by
        by_contra h
        exact he (hi.2 h)
      refine ⟨fun x hx => ?_, ?_⟩
      · cases hx
        exact ⟨i, by simp, hp i hne⟩
      · obtain ⟨x, hx⟩ := hne
        simp only [reduceCtorEq, false_iff, not_not]
        exact ⟨x, i, by simp, hx⟩

/-- Rounding to the nearest multiple of ten. -/
def exRnd (x : Int) : Int := 10 * ((x + 5) / 10)

example : Monotone exRnd ∧ (∀ x, exRnd (exRnd x) = exRnd x) ∧
    CS.round exRnd true ⟨.fin 13, .pinf, .inc, .exc⟩ = .ok ⟨.fin 10, .pinf, .inc, .exc⟩ ∧
    RS.round exRnd false [⟨.fin 1, .fin 4, .inc, .inc⟩, ⟨.fin 14, .fin 31, .inc, .inc⟩] =
      .ok [⟨.fin 0, .fin 0, .inc, .inc⟩, ⟨.fin 10, .fin 30, .inc, .inc⟩] := by
  refine ⟨?_, ?_, by decide, by decide⟩
  · intro a b h; unfold exRnd; omega
  · intro x; unfold exRnd; omega

example : RS.anyPoint (fun s => s.upper) [CS.emptyset, ⟨.fin 1, .fin 4, .inc, .inc⟩] = some (.fin 4) := by decide

/-- Disagreement: rounding an interval with an open bound loses points: the bound is rounded, but stays open, so that a point
next to it can be rounded onto the excluded bound; if both bounds have the same rounding, nothing is left. -/
theorem C119_violated_open :
    ∃ (rnd : Int → Int) (s t : CS) (x : FP), Monotone rnd ∧ (∀ x, rnd (rnd x) = rnd x) ∧ s.Mem x ∧
      s.round rnd true = .ok t ∧ ¬ t.Mem (rounded rnd x) ∧ ∀ y, ¬ t.Mem y := by
  refine ⟨exRnd, ⟨.fin 1, .fin 4, .exc, .exc⟩, ⟨.fin 0, .fin 0, .exc, .exc⟩, .fin 2, ?_, ?_, by decide, by decide,
    by decide, ?_⟩
  · intro a b h; unfold exRnd; omega
  · intro x; unfold exRnd; omega
  · rintro y ⟨h1, h2⟩
    simp at h1 h2
    exact absurd (h1.trans h2) (lt_irrefl _)

/-- Disagreement: the intervals of a set can overlap after rounding, although they were apart before; rounding does not
simplify the set. -/
theorem C119_violated_overlap :
    ∃ (rnd : Int → Int) (l m : List CS), Monotone rnd ∧ l.Pairwise CS.Disjoint ∧ RS.round rnd true l = .ok m ∧
      ¬ m.Pairwise CS.Disjoint := by
  refine ⟨exRnd, [⟨.fin 1, .fin 12, .inc, .inc⟩, ⟨.fin 14, .fin 31, .inc, .inc⟩],
    [⟨.fin 0, .fin 10, .inc, .inc⟩, ⟨.fin 10, .fin 30, .inc, .inc⟩], ?_, ?_, by decide, ?_⟩
  · intro a b h; unfold exRnd; omega
  · simp only [List.pairwise_cons, List.mem_singleton, forall_eq, List.not_mem_nil, false_implies, implies_true,
      List.Pairwise.nil, and_self, and_true]
    rintro x ⟨h1, h2⟩
    have a := (mem_bounds h1).2
    have b := (mem_bounds h2).1
    exact absurd (b.trans a) (by decide)
  · intro h
    have := (List.pairwise_cons.1 h).1 ⟨.fin 10, .fin 30, .inc, .inc⟩ (by simp) (.fin 10)
    exact this (by decide)

end Verif.Iv
