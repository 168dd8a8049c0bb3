import Verif.Functions.Copies
import Verif.Functions.Props11

/-!
# C131: copies and rounded versions of a piecewise function are independent of it
-/

namespace Verif.Fun.Cells

open Iv Iv.FP

/-! ## Specification -/

/-- The interval objects of the function exist. -/
def Known (free : ℕ) (p : Obj) : Prop := ∀ s ∈ p, s.1 < free

/-- Simplifying one of two functions does not change the other. -/
def Independent (h : Heap) (p q : Obj) : Prop :=
  read (simplifyH h p).1 q = read h q ∧ read (simplifyH h q).1 p = read h p

/-! ## Lemmas -/

theorem read_congr {h h' : Heap} {p : Obj} (e : ∀ s ∈ p, h' s.1 = h s.1) : read h' p = read h p := by
  unfold read
  exact List.map_congr_left (fun s hs => by rw [e s hs])

theorem independent_of {h : Heap} {p q : Obj} {free : ℕ} (hp : Known free p) (hq : ∀ s ∈ q, free ≤ s.1) : Independent h p q := by
  constructor
  · refine C126_others h p q ?_
    intro s hs hm
    obtain ⟨t, ht, e⟩ := List.mem_map.1 hm
    have := hp t ht; have := hq s hs; omega
  · refine C126_others h q p ?_
    intro s hs hm
    obtain ⟨t, ht, e⟩ := List.mem_map.1 hm
    have := hp s hs; have := hq t ht; omega

theorem copyH_spec : ∀ (p : Obj) (h : Heap) (free : ℕ), Known free p →
    read (copyH h free p).1 (copyH h free p).2 = read h p ∧ (∀ x < free, (copyH h free p).1 x = h x) ∧
      (∀ s ∈ (copyH h free p).2, free ≤ s.1) ∧ Own (copyH h free p).2
  | [], h, free, _ => by simp [copyH, read, Own]
  | (a, f) :: r, h, free, hp => by
    have ha : a < free := hp _ List.mem_cons_self
    have hr : Known free r := fun s hs => hp s (List.mem_cons_of_mem _ hs)
    obtain ⟨i1, i2, i3, i4⟩ := copyH_spec r (put h free (h a)) (free + 1) (fun s hs => (hr s hs).trans (Nat.lt_succ_self _))
    have hrr : read (put h free (h a)) r = read h r := read_congr (fun s hs => by
      have := hr s hs
      simp only [put]; rw [if_neg (by omega)])
    simp only [copyH]
    refine ⟨?_, ?_, ?_, ?_⟩
    · simp only [read, List.map_cons] at i1 hrr ⊢
      rw [i1, hrr, i2 free (Nat.lt_succ_self _)]
      simp [put]
    · intro x hx
      rw [i2 x (by omega)]
      simp only [put]; rw [if_neg (by omega)]
    · intro s hs
      rcases List.mem_cons.1 hs with rfl | hs
      · exact le_refl free
      · exact Nat.le_of_succ_le (i3 s hs)
    · unfold Own at i4 ⊢
      rw [List.map_cons, List.nodup_cons]
      refine ⟨?_, i4⟩
      intro hm
      obtain ⟨t, ht, e⟩ := List.mem_map.1 hm
      have := i3 t ht
      simp only at e
      omega

theorem roundH_spec {rx : ℤ → ℤ} {rq : ℚ → ℚ} {incl : Bool} : ∀ (p : Obj) (h : Heap) (free : ℕ), Known free p →
    (roundH rx rq incl h free p).map (fun n => read n.1 n.2) = PF.round rx rq (read h p) incl ∧
    ∀ n, roundH rx rq incl h free p = .ok n → (∀ x < free, n.1 x = h x) ∧ (incl = true → ∀ s ∈ n.2, free ≤ s.1) ∧
      (incl = false → n.1 = h ∧ n.2.map Prod.fst = p.map Prod.fst)
  | [], h, free, _ => by
    refine ⟨rfl, ?_⟩
    intro n hn
    simp only [roundH, Except.ok.injEq] at hn
    subst hn
    simp
  | (a, f) :: r, h, free, hp => by
    have ha : a < free := hp _ List.mem_cons_self
    have hr : Known free r := fun s hs => hp s (List.mem_cons_of_mem _ hs)
    cases hf : PF.roundFn rq f with
    | error e => simp [roundH, PF.round, read, hf, bind, Except.bind, Except.map, List.mapM_cons]
    | ok g =>
      cases incl with
      | true =>
        set i : CS := { h a with lower := PF.roundPos rx (h a).lower, upper := PF.roundPos rx (h a).upper } with hi
        obtain ⟨i1, i2⟩ := roundH_spec (rx := rx) (rq := rq) (incl := true) r (put h free i) (free + 1)
          (fun s hs => (hr s hs).trans (Nat.lt_succ_self _))
        have hrr : read (put h free i) r = read h r := read_congr (fun s hs => by
          have := hr s hs
          simp only [put]; rw [if_neg (by omega)])
        rw [hrr] at i1
        have hround : PF.round rx rq (read h ((a, f) :: r)) true = (PF.round rx rq (read h r) true).map ((i, g) :: ·) := by
          simp only [PF.round, read, List.map_cons, List.mapM_cons, hf, bind, Except.bind, pure, Except.pure, if_true]
          cases List.mapM (m := Except Err) _ (List.map (fun s => (h s.1, s.2)) r) <;> rfl
        rw [hround, ← i1]
        cases hn : roundH rx rq true (put h free i) (free + 1) r with
        | error e => simp [roundH, hf, ← hi, hn, bind, Except.bind, Except.map]
        | ok n =>
          obtain ⟨k1, k2, -⟩ := i2 n hn
          have e : roundH rx rq true h free ((a, f) :: r) = .ok (n.1, (free, g) :: n.2) := by
            simp [roundH, hf, ← hi, hn, bind, Except.bind, pure, Except.pure]
          rw [e]
          have hfree : n.1 free = i := by rw [k1 free (Nat.lt_succ_self _)]; simp [put]
          refine ⟨by simp [Except.map, read, hfree], ?_⟩
          intro n' hn'
          simp only [Except.ok.injEq] at hn'
          subst hn'
          refine ⟨?_, ?_, by simp⟩
          · intro x hx
            rw [k1 x (by omega)]
            simp only [put]; rw [if_neg (by omega)]
          · intro _ s hs
            rcases List.mem_cons.1 hs with rfl | hs
            · exact le_refl free
            · exact Nat.le_of_succ_le (k2 rfl s hs)
      | false =>
        obtain ⟨i1, i2⟩ := roundH_spec (rx := rx) (rq := rq) (incl := false) r h free hr
        have hround : PF.round rx rq (read h ((a, f) :: r)) false = (PF.round rx rq (read h r) false).map ((h a, g) :: ·) := by
          simp only [PF.round, read, List.map_cons, List.mapM_cons, hf, bind, Except.bind, pure, Except.pure, Bool.false_eq_true, if_false]
          cases List.mapM (m := Except Err) _ (List.map (fun s => (h s.1, s.2)) r) <;> rfl
        rw [hround, ← i1]
        cases hn : roundH rx rq false h free r with
        | error e => simp [roundH, hf, hn, bind, Except.bind, Except.map]
        | ok n =>
          obtain ⟨k1, -, k3⟩ := i2 n hn
          obtain ⟨k3, k4⟩ := k3 rfl
          have e : roundH rx rq false h free ((a, f) :: r) = .ok (n.1, (a, g) :: n.2) := by
            simp [roundH, hf, hn, bind, Except.bind, pure, Except.pure]
          rw [e]
          refine ⟨by simp [Except.map, read, k3], ?_⟩
          intro n' hn'
          simp only [Except.ok.injEq] at hn'
          subst hn'
          exact ⟨k1, by simp, fun _ => ⟨k3, by simp [k4]⟩⟩

/-! ## Theorems -/

/-- C131 for copies: a copy has the pieces of the original, making it changes no function, and afterwards the copy and every function that
existed before, in particular the original, are independent. -/
theorem C131_copy (h : Heap) (free : ℕ) (p g : Obj) (hp : Known free p) (hg : Known free g) :
    read (copyH h free p).1 (copyH h free p).2 = read h p ∧ read (copyH h free p).1 g = read h g ∧
      Independent (copyH h free p).1 g (copyH h free p).2 := by
  obtain ⟨h1, h2, h3, -⟩ := copyH_spec p h free hp
  exact ⟨h1, read_congr (fun s hs => h2 _ (hg s hs)), independent_of hg h3⟩

/-- C131 for rounding: the result, or the exception, is that of rounding the values, and no function that existed before is changed. -/
theorem C131_round (rx : ℤ → ℤ) (rq : ℚ → ℚ) (incl : Bool) (h : Heap) (free : ℕ) (p : Obj) (hp : Known free p) :
    (roundH rx rq incl h free p).map (fun n => read n.1 n.2) = PF.round rx rq (read h p) incl ∧
    ∀ n g, roundH rx rq incl h free p = .ok n → Known free g → read n.1 g = read h g := by
  obtain ⟨h1, h2⟩ := roundH_spec (rx := rx) (rq := rq) (incl := incl) p h free hp
  exact ⟨h1, fun n g hn hg => read_congr (fun s hs => (h2 n hn).1 _ (hg s hs))⟩

/-- C131 for rounding with the intervals: the result and every function that existed before are independent.
Missing: rounding without the intervals, for which this is false. -/
theorem C131_round_independent_partial (rx : ℤ → ℤ) (rq : ℚ → ℚ) (h : Heap) (free : ℕ) (p g : Obj) (hp : Known free p) (hg : Known free g)
    (n : Heap × Obj) (hn : roundH rx rq true h free p = .ok n) : Independent n.1 g n.2 :=
  independent_of hg (((roundH_spec p h free hp).2 n hn).2.1 rfl)

/-- Interval objects `[0, 10)` and `[10, 20)`. -/
def twoCells : Heap := fun a => if a = 0 then ⟨fin 0, fin 10, .inc, .exc⟩ else if a = 1 then ⟨fin 10, fin 20, .inc, .exc⟩ else CS.emptyset

/-- The function that is 1.1 below 10 and 1.2 from 10 on. -/
def twoValues : Obj := [(0, .const (11 / 10)), (1, .const (12 / 10))]

example : Known 2 twoValues ∧ (copyH twoCells 2 twoValues).2 = [(2, .const (11 / 10)), (3, .const (12 / 10))] := by
  refine ⟨?_, rfl⟩
  unfold Known
  decide

/-- Disagreement: the result of `round(include_intervals=False)` shares the intervals of the original: if 1.1 on `[0, 10)` and 1.2 on
`[10, 20)` are rounded to 1 and the result is simplified, the value of the original at 15 becomes 1.1. -/
theorem C131_violated_round : ∃ n, roundH id (fun q => (⌊q⌋ : ℚ)) false twoCells 2 twoValues = .ok n ∧
    PF.eval (fun n => (n : ℚ)) (read n.1 twoValues) 15 = .ok (some (12 / 10)) ∧
    PF.eval (fun n => (n : ℚ)) (read (simplifyH n.1 n.2).1 twoValues) 15 = .ok (some (11 / 10)) :=
  ⟨(twoCells, [(0, .const 1), (1, .const 1)]), by
    have e1 : (⌊(11 / 10 : ℚ)⌋ : ℚ) = 1 := by decide +kernel
    have e2 : (⌊(12 / 10 : ℚ)⌋ : ℚ) = 1 := by decide +kernel
    simp [roundH, twoValues, PF.roundFn, bind, Except.bind, pure, Except.pure, e1, e2], by decide +kernel, by decide +kernel⟩

end Verif.Fun.Cells
