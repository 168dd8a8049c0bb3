import Verif.Functions.BuildLemmas
import Verif.Functions.Props9

/-! # C113: building and overwriting piecewise functions -/

namespace Verif.Fun

open Iv Iv.FP Iv.CS

/-- What a function passed to `from_dict` means: an object is evaluated, `None` is undefined everywhere, a number is constant. -/
def FnArg.value : FnArg → ℚ → Option ℚ
  | .obj f, x => f.eval x
  | .none, _ => Option.none
  | .num c, _ => some c

theorem FnArg.toFn_eval (a : FnArg) (x : ℚ) : a.toFn.eval x = a.value x := by
  cases a <;> rfl

namespace PF

theorem fromDict_mem {d : List (CS × FnArg)} {s : CS × Fn} :
    s ∈ fromDict d ↔ ∃ t ∈ d, (t.1, t.2.toFn) = s := by
  unfold fromDict
  rw [List.mem_insertionSort, List.mem_map]

theorem fromDict_sorted (d : List (CS × FnArg)) : (fromDict d).Pairwise (fun s t => s.1.lower ≤ t.1.lower) := by
  have : Std.Total (fun a b : CS × Fn => a.1.lower ≤ b.1.lower) := ⟨fun a b => le_total _ _⟩
  have : IsTrans (CS × Fn) (fun a b => a.1.lower ≤ b.1.lower) := ⟨fun _ _ _ h1 h2 => le_trans h1 h2⟩
  exact List.pairwise_insertionSort _ _

theorem fromDict_disj {d : List (CS × FnArg)} (h : d.Pairwise (fun s t => s.1.Disjoint t.1)) : (fromDict d).Disj := by
  refine disj_perm (List.perm_insertionSort _ _).symm ?_
  unfold Disj
  rw [List.pairwise_map]
  exact h

/-- Overwriting one segment after the other: the last one that contains a number counts. -/
theorem overwriteAll_fold : ∀ (segs : PF) (p : PF), (∀ s ∈ p, s.1.HalfOpen) → p.Disj → (∀ s ∈ segs, s.1.HalfOpen) →
    ∃ r, segs.foldlM (fun r s => overwriteAt r s.1 s.2) p = .ok r ∧ (∀ s ∈ r, s.1.HalfOpen) ∧ r.Disj ∧ (p.Asc → r.Asc) ∧
      ∀ (val : ℤ → ℚ) n v, Value val r n v ↔
        (∃ a s b, segs = a ++ s :: b ∧ s.1.Mem (fin n) ∧ (∀ t ∈ b, ¬ t.1.Mem (fin n)) ∧ s.2.eval (val n) = v) ∨
        ((∀ s ∈ segs, ¬ s.1.Mem (fin n)) ∧ Value val p n v)
  | [], p, h1, h2, _ => ⟨p, rfl, h1, h2, fun h => h, fun val n v => by simp⟩
  | s :: segs, p, h1, h2, h3 => by
    obtain ⟨r1, e1, e2, e3, e4, -⟩ := overwriteAt_spec (f := s.2) (fun t ht => .inl (h1 t ht)) (h3 s (by simp))
    obtain ⟨r, g1, g2, g3, g4, g5⟩ := overwriteAll_fold segs r1 e2 (e3 h2) (fun t ht => h3 t (by simp [ht]))
    refine ⟨r, by simp only [List.foldlM_cons, e1, bind, Except.bind]; exact g1, g2, g3,
      fun hA => g4 (overwriteAt_asc h1 (h3 s (by simp)) hA e1), fun val n v => ?_⟩
    rw [g5, e4]
    constructor
    · rintro (⟨a, t, b, rfl, k1, k2, k3⟩ | ⟨k1, ⟨k2, k3⟩ | ⟨k2, k3⟩⟩)
      · exact .inl ⟨s :: a, t, b, rfl, k1, k2, k3⟩
      · exact .inl ⟨[], s, segs, rfl, k2, k1, k3⟩
      · refine .inr ⟨fun t ht => ?_, k3⟩
        rcases List.mem_cons.1 ht with rfl | ht
        · exact k2
        · exact k1 t ht
    · rintro (⟨a, t, b, he, k1, k2, k3⟩ | ⟨k1, k2⟩)
      · cases a with
        | nil =>
          simp only [List.nil_append, List.cons.injEq] at he
          obtain ⟨rfl, rfl⟩ := he
          exact .inr ⟨k2, .inl ⟨k1, k3⟩⟩
        | cons a0 a =>
          simp only [List.cons_append, List.cons.injEq] at he
          obtain ⟨rfl, rfl⟩ := he
          exact .inl ⟨a, t, b, rfl, k1, k2, k3⟩
      · exact .inr ⟨fun t ht => k1 t (by simp [ht]), .inr ⟨k1 s (by simp), k2⟩⟩

end PF

/-- A piecewise function that is built from a dict has the values that the dict says: on every interval those of its
function, where a number stands for a constant and `None` for undefined; outside of the intervals it raises
`AttributeError`.  The pieces are in ascending order, in whatever order the dict lists them. -/
theorem C113_from_dict (d : List (CS × FnArg)) (hd : d.Pairwise (fun s t => s.1.Disjoint t.1)) :
    (∀ (val : ℤ → ℚ) n v, (PF.fromDict d).eval val n = .ok v ↔ ∃ s ∈ d, s.1.Mem (fin n) ∧ s.2.value (val n) = v) ∧
    (∀ (val : ℤ → ℚ) n, (∀ s ∈ d, ¬ s.1.Mem (fin n)) → (PF.fromDict d).eval val n = .error .attributeError) ∧
    (PF.fromDict d).length = d.length ∧
    ((∀ s ∈ d, s.1.HalfOpen) → (PF.fromDict d).Pairwise (fun s t => s.1.upper ≤ t.1.lower)) := by
  have hD := PF.fromDict_disj hd
  refine ⟨fun val n v => ?_, fun val n h => ?_, ?_, fun hh => ?_⟩
  · rw [PF.eval_ok_iff hD]
    constructor
    · rintro ⟨s, hs, h1, h2⟩
      obtain ⟨t, ht, rfl⟩ := PF.fromDict_mem.1 hs
      exact ⟨t, ht, h1, by rw [← FnArg.toFn_eval]; exact h2⟩
    · rintro ⟨t, ht, h1, h2⟩
      exact ⟨_, PF.fromDict_mem.2 ⟨t, ht, rfl⟩, h1, by simp only [FnArg.toFn_eval]; exact h2⟩
  · rw [PF.eval_error_iff]
    refine ⟨rfl, ?_⟩
    rintro ⟨s, hs, h1⟩
    obtain ⟨t, ht, rfl⟩ := PF.fromDict_mem.1 hs
    exact h t ht h1
  · simp [PF.fromDict]
  · refine ((PF.fromDict_sorted d).and hD).imp_of_mem ?_
    rintro s t hs ht ⟨h1, h2⟩
    obtain ⟨s', hs', rfl⟩ := PF.fromDict_mem.1 hs
    obtain ⟨t', ht', rfl⟩ := PF.fromDict_mem.1 ht
    rcases PF.halfOpen_disjoint (hh s' hs') (hh t' ht') (fun n a b => h2 _ ⟨a, b⟩) with h | h
    · exact h
    · exact absurd ((hh t' ht').1.trans_le h) (not_lt.2 h1)

/-- Segments for the examples, in descending order. -/
def exSegs : List (CS × FnArg) := [(co 20 30, .none), (co 5 12, .num 7), (co 0 2, .obj (.lin 1 0))]

example : exSegs.Pairwise (fun s t => s.1.Disjoint t.1) ∧ (∀ s ∈ exSegs, s.1.HalfOpen) ∧
    PF.fromDict exSegs = [(co 0 2, .lin 1 0), (co 5 12, .const 7), (co 20 30, .undef)] := by
  refine ⟨?_, by decide, by decide +kernel⟩
  simp only [exSegs, List.pairwise_cons, List.mem_cons, List.not_mem_nil, or_false, forall_eq_or_imp, forall_eq,
    List.Pairwise.nil, and_true, false_imp_iff, implies_true]
  refine ⟨⟨?_, ?_⟩, ?_⟩ <;> rintro x ⟨h1, h2⟩ <;> 
    cases x <;> simp [co, CS.Mem, FP.lt_def, Iv.FP.leb] at h1 h2 <;> omega

/-- Overwriting a piecewise function at an interval raises no exception; the result has the values of the new function in the
interval and the old ones everywhere else, also where the old function is not defined.  The pieces remain half-open
and without overlap, and if they were in ascending order, they still are. -/
theorem C113_overwrite_at (p : PF) (hp : ∀ s ∈ p, s.1.HalfOpen) (hd : p.Disj) (I : CS) (hI : I.HalfOpen) (f : Fn) :
    ∃ r, p.overwriteAt I f = .ok r ∧ (∀ s ∈ r, s.1.HalfOpen) ∧ r.Disj ∧
      (p.Pairwise (fun s t => s.1.upper ≤ t.1.lower) → r.Pairwise (fun s t => s.1.upper ≤ t.1.lower)) ∧
      (∀ (val : ℤ → ℚ) n, I.Mem (fin n) → r.eval val n = .ok (f.eval (val n))) ∧
      ∀ (val : ℤ → ℚ) n, ¬ I.Mem (fin n) → r.eval val n = p.eval val n := by
  obtain ⟨r, e1, e2, e3, e4, -⟩ := PF.overwriteAt_spec (f := f) (fun t ht => .inl (hp t ht)) hI
  refine ⟨r, e1, e2, e3 hd, fun hA => PF.overwriteAt_asc hp hI hA e1, fun val n hn => ?_, fun val n hn => ?_⟩
  · rw [PF.eval_ok_iff (e3 hd), e4]
    exact .inl ⟨hn, rfl⟩
  · cases hpe : p.eval val n with
    | ok v =>
      rw [PF.eval_ok_iff hd] at hpe
      rw [PF.eval_ok_iff (e3 hd), e4]
      exact .inr ⟨hn, hpe⟩
    | error e =>
      rw [PF.eval_error_iff] at hpe ⊢
      refine ⟨hpe.1, ?_⟩
      rintro ⟨s, hs, hm⟩
      rcases (e4 val n _).1 ⟨s, hs, hm, rfl⟩ with h | ⟨-, t, ht, hm', -⟩
      · exact hn h.1
      · exact hpe.2 ⟨t, ht, hm'⟩

example : (∀ s ∈ PF.roof, s.1.HalfOpen) ∧ (co 5 12).HalfOpen ∧
    PF.roof.overwriteAt (co 5 12) (.const 7) =
      .ok [(co 0 5, .lin 1 0), (co 5 12, .const 7), (co 12 20, .lin (-1) 20), (co 20 30, .const 0)] ∧
    PF.roof.overwriteAt (co 3 5) .undef =
      .ok [(co 0 3, .lin 1 0), (co 3 5, .undef), (co 5 10, .lin 1 0), (co 10 20, .lin (-1) 20), (co 20 30, .const 0)] := by
  refine ⟨by decide, by decide, by decide +kernel, by decide +kernel⟩

/-- Overwriting with several segments at once: where segments overlap, the one that begins last counts; where there is no
segment, the old value remains. -/
theorem C113_overwrite (p : PF) (hp : ∀ s ∈ p, s.1.HalfOpen) (hd : p.Disj) (d : List (CS × FnArg))
    (hh : ∀ s ∈ d, s.1.HalfOpen) (hn : (d.map (fun s => s.1.lower)).Nodup) :
    ∃ r, p.overwrite d = .ok r ∧ (∀ s ∈ r, s.1.HalfOpen) ∧ r.Disj ∧
      (p.Pairwise (fun s t => s.1.upper ≤ t.1.lower) → r.Pairwise (fun s t => s.1.upper ≤ t.1.lower)) ∧
      ∀ (val : ℤ → ℚ) n v, r.eval val n = .ok v ↔
        (∃ s ∈ d, s.1.Mem (fin n) ∧ (∀ t ∈ d, t.1.Mem (fin n) → t.1.lower ≤ s.1.lower) ∧ s.2.value (val n) = v) ∨
        ((∀ s ∈ d, ¬ s.1.Mem (fin n)) ∧ p.eval val n = .ok v) := by
  have hseg : ∀ s ∈ PF.fromDict d, s.1.HalfOpen := by
    intro s hs
    obtain ⟨t, ht, rfl⟩ := PF.fromDict_mem.1 hs
    exact hh t ht
  obtain ⟨r, e1, e2, e3, e4, e5⟩ := PF.overwriteAll_fold (PF.fromDict d) p hp hd hseg
  refine ⟨r, e1, e2, e3, e4, fun val n v => ?_⟩
  have hs := PF.fromDict_sorted d
  have hnd : ((PF.fromDict d).map (fun s => s.1.lower)).Nodup := by
    have hperm := (List.perm_insertionSort (fun a b : CS × Fn => a.1.lower ≤ b.1.lower)
      (d.map (fun s => (s.1, s.2.toFn)))).map (fun s => s.1.lower)
    refine hperm.nodup_iff.2 ?_
    rw [List.map_map]
    exact hn
  rw [PF.eval_ok_iff e3, PF.eval_ok_iff hd, e5]
  have hnone : (∀ s ∈ PF.fromDict d, ¬ s.1.Mem (fin n)) ↔ ∀ s ∈ d, ¬ s.1.Mem (fin n) := by
    constructor
    · exact fun h s hs => h (s.1, s.2.toFn) (PF.fromDict_mem.2 ⟨s, hs, rfl⟩)
    · intro h s hs
      obtain ⟨t, ht, rfl⟩ := PF.fromDict_mem.1 hs
      exact h t ht
  rw [hnone]
  refine or_congr_left ?_
  constructor
  · rintro ⟨a, s, b, he, k1, k2, k3⟩
    have hsm : s ∈ PF.fromDict d := by rw [he]; exact List.mem_append_right _ (List.mem_cons_self ..)
    obtain ⟨s', hs', rfl⟩ := PF.fromDict_mem.1 hsm
    refine ⟨s', hs', k1, fun t ht hm => ?_, by rw [← FnArg.toFn_eval]; exact k3⟩
    have htm : (t.1, t.2.toFn) ∈ PF.fromDict d := PF.fromDict_mem.2 ⟨t, ht, rfl⟩
    rw [he] at htm hs
    rcases List.mem_append.1 htm with h | h
    · exact (List.pairwise_append.1 hs).2.2 _ h (s'.1, s'.2.toFn) (List.mem_cons_self ..)
    · rcases List.mem_cons.1 h with h | h
      · exact le_of_eq (congrArg (fun q => q.1.lower) h)
      · exact absurd hm (k2 _ h)
  · rintro ⟨s, hs', k1, k2, k3⟩
    have hsm : (s.1, s.2.toFn) ∈ PF.fromDict d := PF.fromDict_mem.2 ⟨s, hs', rfl⟩
    obtain ⟨a, b, he⟩ := List.append_of_mem hsm
    refine ⟨a, _, b, he, k1, fun t ht hm => ?_, by simp only [FnArg.toFn_eval]; exact k3⟩
    have htm : t ∈ PF.fromDict d := by rw [he]; simp [ht]
    obtain ⟨t', ht', rfl⟩ := PF.fromDict_mem.1 htm
    have h1 := k2 t' ht' hm
    rw [he] at hs hnd
    have h2 := (List.pairwise_cons.1 (List.pairwise_append.1 hs).2.1).1 _ ht
    rw [List.map_append, List.map_cons] at hnd
    have h3 := (List.nodup_cons.1 (List.nodup_append.1 hnd).2.1).1
    refine h3 (List.mem_map.2 ⟨_, ht, le_antisymm h1 h2⟩)

example : (exSegs.map (fun s => s.1.lower)).Nodup ∧ PF.roof.overwrite exSegs =
    .ok [(co 0 2, .lin 1 0), (co 2 5, .lin 1 0), (co 5 12, .const 7), (co 12 20, .lin (-1) 20), (co 20 30, .undef)] := by
  refine ⟨by decide, by decide +kernel⟩

/-- `zero(i)` is zero in `i` and not defined elsewhere, `zero()` is zero everywhere. -/
theorem C113_zero (i : CS) (val : ℤ → ℚ) (n : ℤ) :
    ((PF.zeroOn (some i)).eval val n = if i.Mem (fin n) then .ok (some 0) else .error .attributeError) ∧
    (PF.zeroOn none).eval val n = .ok (some 0) := by
  have key : ∀ j : CS, (PF.fromDict [(j, .num 0)]).eval val n =
      if j.Mem (fin n) then .ok (some 0) else .error .attributeError := by
    intro j
    obtain ⟨h1, h2, -⟩ := C113_from_dict [(j, .num 0)] (by simp)
    split
    · rename_i h
      exact (h1 val n _).2 ⟨(j, .num 0), by simp, h, rfl⟩
    · rename_i h
      exact h2 val n (by simpa using h)
  refine ⟨key i, ?_⟩
  change (PF.fromDict [(CS.allnumbers, .num 0)]).eval val n = _
  rw [key, if_pos]
  exact ⟨.inl (by simp [CS.allnumbers, FP.lt_def, Iv.FP.leb]), .inl (by simp [CS.allnumbers, FP.lt_def, Iv.FP.leb])⟩

example : (PF.zeroOn (some (co 2 5))).eval ival 3 = .ok (some 0) ∧
    (PF.zeroOn (some (co 2 5))).eval ival 5 = .error .attributeError := by decide +kernel

/-- Evaluating an array gives the array of the values; it raises `AttributeError` exactly if the function is not
defined at one of the numbers. -/
theorem C113_multi_eval (val : ℤ → ℚ) (p : PF) (x : List ℤ) :
    (∀ ys, p.multiEval val x = .ok ys ↔ List.Forall₂ (fun n y => p.eval val n = .ok y) x ys) ∧
    ((∃ n ∈ x, ¬ p.Covers n) ↔ p.multiEval val x = .error .attributeError) := by
  refine ⟨fun ys => mapM_ok_iff _ _ _, ?_, fun h => ?_⟩
  · rintro ⟨n, hn, hc⟩
    cases hm : p.multiEval val x with
    | ok ys =>
      have := (mapM_ok_iff _ _ _).1 hm
      obtain ⟨i, hi, rfl⟩ := List.mem_iff_getElem.1 hn
      have hy := (List.forall₂_iff_get.1 this).2 i hi (by rw [← this.length_eq]; exact hi)
      have he : p.eval val x[i] = .error .attributeError := PF.eval_error_iff.2 ⟨rfl, hc⟩
      simp only [List.get_eq_getElem] at hy
      rw [he] at hy
      cases hy
    | error e =>
      obtain ⟨m, -, he⟩ := mapM_error _ _ _ hm
      rw [(PF.eval_error_iff.1 he).1]
  · obtain ⟨m, hm, he⟩ := mapM_error _ _ _ h
    exact ⟨m, hm, (PF.eval_error_iff.1 he).2⟩

example : PF.roof.multiEval ival [0, 15, 29] = .ok [some 0, some 5, some 0] ∧
    PF.roof.multiEval ival [0, 30] = .error .attributeError := by decide +kernel

end Verif.Fun
