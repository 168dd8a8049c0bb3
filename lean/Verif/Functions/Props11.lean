import Verif.Functions.Cells
import Verif.Functions.Lemmas2

/-!
# C126: simplifying a piecewise function and the function it is called on
-/

namespace Verif.Fun.Cells

open Iv Iv.FP

/-! ## Specification -/

/-- No interval object is used twice in a function. -/
def Own (p : Obj) : Prop := (p.map Prod.fst).Nodup

/-- No two pieces that touch have the same function. -/
def Simple (p : PF) : Prop := ∀ s ∈ p, ∀ t ∈ p, s.1.contiguous t.1 = true → s.2.eq t.2 ≠ .ok true

/-! ## Lemmas -/

theorem insertH_read (h : Heap) (s : ℕ × Fn) : ∀ p : Obj,
    (insertH h s p).map (read h) = PF.insertSeg (h s.1, s.2) (read h p)
  | [] => rfl
  | t :: r => by
    have ih := insertH_read h s r
    simp only [insertH, read, List.map_cons, PF.insertSeg, bind, Except.bind] at ih ⊢
    cases CS.comparator (h s.1) (h t.1) with
    | error e => rfl
    | ok c =>
      simp only
      split_ifs with hc
      · rfl
      · rw [← ih]
        cases insertH h s r <;> rfl

theorem insertH_perm (h : Heap) (s : ℕ × Fn) : ∀ (p q : Obj), insertH h s p = .ok q → q.Perm (s :: p)
  | [], q, e => by cases e; exact List.Perm.refl _
  | t :: r, q, e => by
    simp only [insertH, bind, Except.bind] at e
    cases hc : CS.comparator (h s.1) (h t.1) with
    | error e' => rw [hc] at e; cases e
    | ok c =>
      rw [hc] at e
      simp only at e
      split_ifs at e with hle
      · cases e; exact List.Perm.refl _
      · cases hi : insertH h s r with
        | error e' => rw [hi] at e; cases e
        | ok r' =>
          rw [hi] at e
          cases e
          exact ((insertH_perm h s r r' hi).cons t).trans (List.Perm.swap _ _ _)

theorem sortH_read (h : Heap) : ∀ p : Obj, (sortH h p).map (read h) = PF.sortSegs (read h p)
  | [] => rfl
  | s :: r => by
    have ih := sortH_read h r
    simp only [sortH, read, List.map_cons, PF.sortSegs, bind, Except.bind] at ih ⊢
    rw [← ih]
    cases sortH h r with
    | error e => rfl
    | ok r' => exact insertH_read h s r'

theorem sortH_perm (h : Heap) : ∀ (p q : Obj), sortH h p = .ok q → q.Perm p
  | [], q, e => by cases e; exact List.Perm.refl _
  | s :: r, q, e => by
    simp only [sortH, bind, Except.bind] at e
    cases hs : sortH h r with
    | error e' => rw [hs] at e; cases e
    | ok r' =>
      rw [hs] at e
      exact (insertH_perm h s r' q e).trans ((sortH_perm h r r' hs).cons s)

theorem extend_of_ne {h : Heap} {a b x : ℕ} (hx : x ≠ a) : extend h a b x = h x := if_neg hx

theorem read_extend {h : Heap} {a b : ℕ} {p : Obj} (hp : a ∉ p.map Prod.fst) : read (extend h a b) p = read h p := by
  unfold read
  refine List.map_congr_left ?_
  intro s hs
  rw [extend_of_ne]
  intro e
  exact hp (e ▸ List.mem_map_of_mem hs)

/-- The loop changes only cells of the pieces it is given. -/
theorem loopH_frame : ∀ (r : Obj) (h : Heap) (last : ℕ × Fn) (x : ℕ), x ≠ last.1 → x ∉ r.map Prod.fst →
    (loopH h last r).1 x = h x
  | [], _, _, _, _, _ => rfl
  | (a, f) :: r, h, last, x, hx, hr => by
    simp only [List.map_cons, List.mem_cons, not_or] at hr
    simp only [loopH]
    split_ifs
    · exact loopH_frame r h last x hx hr.2
    · split
      · rfl
      · rw [loopH_frame r _ last x hx hr.2, extend_of_ne hx]
      · exact loopH_frame r h (a, f) x hr.1 hr.2
    · exact loopH_frame r h (a, f) x hr.1 hr.2

/-- The loop computes what the loop on values does. -/
theorem loopH_read : ∀ (r : Obj) (h : Heap) (last : ℕ × Fn), Own (last :: r) →
    (loopH h last r).2.map (read (loopH h last r).1) = PF.simplifyLoop (h last.1, last.2) (read h r)
  | [], _, _, _ => rfl
  | (a, f) :: r, h, last, ho => by
    unfold Own at ho
    simp only [List.map_cons, List.nodup_cons, List.mem_cons, not_or] at ho
    obtain ⟨⟨h1, h2⟩, h3, h4⟩ := ho
    have o1 : Own (last :: r) := by
      unfold Own
      simp only [List.map_cons, List.nodup_cons]
      exact ⟨h2, h4⟩
    have o2 : Own ((a, f) :: r) := by
      unfold Own
      simp only [List.map_cons, List.nodup_cons]
      exact ⟨h3, h4⟩
    have keep : ((loopH h (a, f) r).2.map (last :: ·)).map (read (loopH h (a, f) r).1) =
        (PF.simplifyLoop (h a, f) (read h r)).map ((h last.1, last.2) :: ·) := by
      rw [← loopH_read r h (a, f) o2]
      cases (loopH h (a, f) r).2 with
      | error e => rfl
      | ok q =>
        simp only [Except.map, read, List.map_cons]
        rw [loopH_frame r h (a, f) last.1 h1 h2]
    simp only [loopH, read, List.map_cons, PF.simplifyLoop]
    split_ifs
    · exact loopH_read r h last o1
    · cases f.eq last.2 with
      | error e => rfl
      | ok b =>
        cases b with
        | true =>
          simp only
          have := loopH_read r (extend h last.1 a) last o1
          rw [read_extend h2] at this
          rw [this]
          simp [extend, read]
        | false => exact keep
    · exact keep

/-- The cells that the loop changes are those of pieces of the result. -/
theorem loopH_kept : ∀ (r : Obj) (h : Heap) (last : ℕ × Fn) (q : Obj), Own (last :: r) → (loopH h last r).2 = .ok q →
    (∀ x, (loopH h last r).1 x = h x ∨ x ∈ q.map Prod.fst) ∧ (∀ s ∈ q, s ∈ last :: r) ∧ last ∈ q
  | [], h, last, q, _, e => by
    cases e
    exact ⟨fun x => .inl rfl, by simp, by simp⟩
  | (a, f) :: r, h, last, q, ho, e => by
    unfold Own at ho
    simp only [List.map_cons, List.nodup_cons, List.mem_cons, not_or] at ho
    obtain ⟨⟨h1, h2⟩, h3, h4⟩ := ho
    have o1 : Own (last :: r) := by
      unfold Own
      simp only [List.map_cons, List.nodup_cons]
      exact ⟨h2, h4⟩
    have o2 : Own ((a, f) :: r) := by
      unfold Own
      simp only [List.map_cons, List.nodup_cons]
      exact ⟨h3, h4⟩
    have keep : ∀ q, (loopH h (a, f) r).2.map (last :: ·) = .ok q →
        (∀ x, (loopH h (a, f) r).1 x = h x ∨ x ∈ q.map Prod.fst) ∧ (∀ s ∈ q, s ∈ last :: (a, f) :: r) ∧ last ∈ q := by
      intro q hq
      cases hl : (loopH h (a, f) r).2 with
      | error e' => rw [hl] at hq; cases hq
      | ok q' =>
        rw [hl] at hq
        cases hq
        obtain ⟨g1, g2, g3⟩ := loopH_kept r h (a, f) q' o2 hl
        refine ⟨?_, ?_, by simp⟩
        · intro x
          rcases g1 x with g | g
          · exact .inl g
          · exact .inr (by simp only [List.map_cons, List.mem_cons]; exact .inr g)
        · intro s hs
          rcases List.mem_cons.1 hs with rfl | hs
          · simp
          · exact List.mem_cons_of_mem _ (g2 s hs)
    have weak : ∀ {s : ℕ × Fn}, s ∈ last :: r → s ∈ last :: (a, f) :: r := by
      intro s hs
      rcases List.mem_cons.1 hs with rfl | hs
      · simp
      · simp [hs]
    simp only [loopH] at e ⊢
    split_ifs at e ⊢
    · obtain ⟨g1, g2, g3⟩ := loopH_kept r h last q o1 e
      exact ⟨g1, fun s hs => weak (g2 s hs), g3⟩
    · cases hf : f.eq last.2 with
      | error e' => rw [hf] at e; cases e
      | ok b =>
        rw [hf] at e
        cases b with
        | true =>
          simp only at e ⊢
          obtain ⟨g1, g2, g3⟩ := loopH_kept r _ last q o1 e
          refine ⟨?_, fun s hs => weak (g2 s hs), g3⟩
          intro x
          by_cases hx : x = last.1
          · exact .inr (hx ▸ List.mem_map_of_mem g3)
          · rcases g1 x with g | g
            · exact .inl (by rw [g, extend_of_ne hx])
            · exact .inr g
        | false => exact keep q e
    · exact keep q e

theorem startH_read : ∀ (p : Obj) (h : Heap), Own p → (startH h p).2.map (read (startH h p).1) = PF.simplifyStart (read h p)
  | [], _, _ => rfl
  | (a, f) :: r, h, ho => by
    have o : Own r := (List.nodup_cons.1 ho).2
    simp only [startH, read, List.map_cons, PF.simplifyStart]
    split_ifs
    · exact startH_read r h o
    · exact loopH_read r h (a, f) ho

theorem startH_frame : ∀ (p : Obj) (h : Heap) (x : ℕ), x ∉ p.map Prod.fst → (startH h p).1 x = h x
  | [], _, _, _ => rfl
  | (a, f) :: r, h, x, hx => by
    simp only [List.map_cons, List.mem_cons, not_or] at hx
    simp only [startH]
    split_ifs
    · exact startH_frame r h x hx.2
    · exact loopH_frame r h (a, f) x hx.1 hx.2

theorem startH_kept : ∀ (p : Obj) (h : Heap) (q : Obj), Own p → (startH h p).2 = .ok q →
    (∀ x, (startH h p).1 x = h x ∨ x ∈ q.map Prod.fst) ∧ (∀ s ∈ q, s ∈ p)
  | [], h, q, _, e => by cases e; exact ⟨fun x => .inl rfl, by simp⟩
  | (a, f) :: r, h, q, ho, e => by
    have o : Own r := (List.nodup_cons.1 ho).2
    simp only [startH] at e ⊢
    split_ifs at e ⊢
    · obtain ⟨g1, g2⟩ := startH_kept r h q o e
      exact ⟨g1, fun s hs => List.mem_cons_of_mem _ (g2 s hs)⟩
    · obtain ⟨g1, g2, -⟩ := loopH_kept r h (a, f) q ho e
      exact ⟨g1, g2⟩

theorem own_perm {p q : Obj} (h : q.Perm p) (hp : Own p) : Own q := (h.map Prod.fst).nodup_iff.2 hp

theorem loopH_simple : ∀ (r : Obj) (h : Heap) (last : ℕ × Fn), Simple (read h (last :: r)) → (loopH h last r).1 = h
  | [], _, _, _ => rfl
  | (a, f) :: r, h, last, hs => by
    have s1 : Simple (read h (last :: r)) := by
      intro s hs' t ht
      refine hs s ?_ t ?_ <;> simp only [read, List.map_cons, List.mem_cons] at * <;> tauto
    have s2 : Simple (read h ((a, f) :: r)) := by
      intro s hs' t ht
      refine hs s ?_ t ?_ <;> simp only [read, List.map_cons, List.mem_cons] at * <;> tauto
    simp only [loopH]
    split_ifs with h1 h2
    · exact loopH_simple r h last s1
    · have hne := hs (h a, f) (by simp [read]) (h last.1, last.2) (by simp [read]) h2
      cases hf : f.eq last.2 with
      | error e => rfl
      | ok b =>
        cases b with
        | true => exact absurd hf hne
        | false => exact loopH_simple r h (a, f) s2
    · exact loopH_simple r h (a, f) s2

theorem startH_simple : ∀ (p : Obj) (h : Heap), Simple (read h p) → (startH h p).1 = h
  | [], _, _ => rfl
  | (a, f) :: r, h, hs => by
    simp only [startH]
    split_ifs
    · refine startH_simple r h ?_
      intro s hs' t ht
      refine hs s ?_ t ?_ <;> simp only [read, List.map_cons, List.mem_cons] at * <;> tauto
    · exact loopH_simple r h (a, f) hs

/-! ## Theorems -/

/-- C126: the result, or the exception, is that of the simplification of values. -/
theorem C126_result (h : Heap) (p : Obj) (ho : Own p) :
    (simplifyH h p).2.map (read (simplifyH h p).1) = PF.simplify (read h p) := by
  simp only [simplifyH, PF.simplify, bind, Except.bind]
  rw [← sortH_read]
  cases hs : sortH h p with
  | error e => rfl
  | ok s => exact startH_read s h (own_perm (sortH_perm h p s hs) ho)

/-- C126: functions that share no interval with the one that is simplified stay as they are. -/
theorem C126_others (h : Heap) (p g : Obj) (hd : ∀ s ∈ g, s.1 ∉ p.map Prod.fst) : read (simplifyH h p).1 g = read h g := by
  unfold read
  refine List.map_congr_left ?_
  intro s hs
  have : (simplifyH h p).1 s.1 = h s.1 := by
    simp only [simplifyH]
    cases hso : sortH h p with
    | error e => rfl
    | ok q =>
      refine startH_frame q h s.1 ?_
      intro hm
      exact hd s hs (((sortH_perm h p q hso).map Prod.fst).mem_iff.1 hm)
  rw [this]

/-- C126 for functions in which there is nothing to simplify: they stay as they are.  Missing: other functions, for which this
is false. -/
theorem C126_unchanged_partial (h : Heap) (p : Obj) (hs : Simple (read h p)) : (simplifyH h p).1 = h := by
  simp only [simplifyH]
  cases hso : sortH h p with
  | error e => rfl
  | ok q =>
    refine startH_simple q h ?_
    have hm : ∀ s, s ∈ read h q → s ∈ read h p := by
      intro s hs'
      exact ((sortH_perm h p q hso).map _).mem_iff.1 hs'
    exact fun s hs' t ht => hs s (hm s hs') t (hm t ht)

/-- C126 for the values: after simplifying a function with disjoint pieces, the function it was called on has the same values as
before.  Missing: that its pieces, and thus its integral, are the same, which is false. -/
theorem C126_values_partial {val : ℤ → ℚ} (h : Heap) (p q : Obj) (ho : Own p) (hn : ∀ s ∈ read h p, PF.Ne s.1)
    (hq : (simplifyH h p).2 = .ok q) (n : ℤ) (v : Option ℚ) :
    PF.Value val (read (simplifyH h p).1 p) n v ↔ PF.Value val (read h p) n v := by
  have hres := C126_result h p ho
  rw [hq] at hres
  have hval := (PF.simplify_spec (val := val) hn hres.symm).1 n v
  have hkept : (∀ x, (simplifyH h p).1 x = h x ∨ x ∈ q.map Prod.fst) ∧ (∀ s ∈ q, s ∈ p) := by
    simp only [simplifyH] at hq ⊢
    cases hso : sortH h p with
    | error e => rw [hso] at hq; cases hq
    | ok s =>
      rw [hso] at hq
      have hp := sortH_perm h p s hso
      obtain ⟨g1, g2⟩ := startH_kept s h q (own_perm hp ho) hq
      exact ⟨g1, fun t ht => hp.mem_iff.1 (g2 t ht)⟩
  obtain ⟨k1, k2⟩ := hkept
  constructor
  · rintro ⟨s, hs, hm, he⟩
    obtain ⟨⟨a, f⟩, ha, rfl⟩ := List.mem_map.1 hs
    rcases k1 a with hk | hk
    · refine ⟨(h a, f), List.mem_map_of_mem ha, ?_, he⟩
      simp only at hm
      rwa [hk] at hm
    · obtain ⟨⟨a', f'⟩, ha', rfl⟩ := List.mem_map.1 hk
      have : f' = f := by
        have h1 := List.inj_on_of_nodup_map ho (k2 _ ha') ha rfl
        exact (Prod.mk.inj h1).2
      subst this
      exact hval.1 ⟨_, List.mem_map_of_mem ha', hm, he⟩
  · intro hv
    obtain ⟨s, hs, hm, he⟩ := hval.2 hv
    obtain ⟨t, ht, rfl⟩ := List.mem_map.1 hs
    exact ⟨_, List.mem_map_of_mem (k2 t ht), hm, he⟩

/-- The intervals [0,1) and [1,2). -/
def cells : Heap := fun a => if a = 0 then ⟨fin 0, fin 10, .inc, .exc⟩ else ⟨fin 10, fin 20, .inc, .exc⟩

/-- A function that is 1 on both intervals, and one that has different values on them. -/
def same : Obj := [(0, .const 1), (1, .const 1)]

def different : Obj := [(0, .const 1), (1, .const 2)]

example : Own same ∧ (∀ s ∈ read cells same, PF.Ne s.1) ∧ (simplifyH cells same).2 = .ok [(0, .const 1)] ∧
    (simplifyH cells same).1 0 = ⟨fin 0, fin 20, .inc, .exc⟩ ∧ Own different ∧ Simple (read cells different) := by
  refine ⟨by unfold Own; decide, by decide, by decide +kernel, by decide +kernel, by unfold Own; decide, ?_⟩
  unfold Simple
  decide +kernel

/-- Disagreement: simplifying a function with two neighbouring pieces of the same function changes the function it is called
on: its first interval is extended, its pieces overlap, and its integral is 30 instead of 20. -/
theorem C126_violated_integral :
    PF.integrate (fun n => (n : ℚ)) (read cells same) = .ok (some (.fin 20)) ∧
    PF.integrate (fun n => (n : ℚ)) (read (simplifyH cells same).1 same) = .ok (some (.fin 30)) := by
  decide +kernel

/-- Disagreement: a function that has been simplified cannot be simplified again: the second call is a `ValueError`, since its
pieces overlap. -/
theorem C126_violated_again :
    (∃ q, (simplifyH cells same).2 = .ok q) ∧ (simplifyH (simplifyH cells same).1 same).2 = .error .valueError := by
  exact ⟨⟨[(0, .const 1)], by decide +kernel⟩, by decide +kernel⟩

end Verif.Fun.Cells
