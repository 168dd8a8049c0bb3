import Verif.Functions.KnotsLemmas

/-! # C106: knots, rounding, undefined pieces and merging of piecewise functions -/

namespace Verif.Fun

open Iv Iv.FP Iv.CS

/-- The knots of a polyline determine it: they are points with increasing x, and the piecewise function built from
them has the same value wherever the polyline is defined. -/
theorem C106_knots {val : ℤ → ℚ} (hval : StrictMono val) {p : PF} (h : PF.Polyline val p) :
    ∃ (pts : List (ℤ × ℚ)) (r : PF), p.knots val = .ok (pts.map (fun q => (fin q.1, some (.fin q.2)))) ∧
      pts.Pairwise (fun a b => a.1 < b.1) ∧ PF.fromPoints val pts = .ok r ∧
      ∀ n v, p.eval val n = .ok v → r.eval val n = .ok v := by
  cases p with
  | nil => exact absurd rfl h.nonempty
  | cons s p =>
    obtain ⟨q, r, pts, -, -, h3, h4, h5⟩ := PF.knots_list p s h
    obtain ⟨f, hf, hv, -⟩ := C16_polyline hval q r pts h4
    refine ⟨q :: r :: pts, f, h3, h4, hf, fun n v he => ?_⟩
    have hd : PF.Disj (s :: p) := PF.sorted_disjoint
      (fun t ht => by obtain ⟨a, b, -, e⟩ := h.bounded t ht; rw [e])
      (PF.polyline_disj h.bounded (h.continuous.imp (fun _ _ h => h.1)))
    exact (hv n v).2 (h5 n v ((PF.eval_ok_iff hd).1 he))

/-- A polyline for the examples. -/
def PF.roof : PF := [(co 0 10, .lin 1 0), (co 10 20, .lin (-1) 20), (co 20 30, .const 0)]

example : PF.Polyline ival PF.roof := by
  refine ⟨by simp [PF.roof], ?_, ?_, ?_⟩
  · intro s hs
    simp only [PF.roof, List.mem_cons, List.not_mem_nil, or_false] at hs
    rcases hs with rfl | rfl | rfl
    exacts [⟨0, 10, by decide, rfl⟩, ⟨10, 20, by decide, rfl⟩, ⟨20, 30, by decide, rfl⟩]
  · intro s hs
    simp only [PF.roof, List.mem_cons, List.not_mem_nil, or_false] at hs
    rcases hs with rfl | rfl | rfl
    exacts [.inr ⟨_, _, rfl⟩, .inr ⟨_, _, rfl⟩, .inl ⟨_, rfl⟩]
  · simp [PF.roof, co, Fn.eval, ival]
    norm_num

example : PF.roof.knots ival = .ok [(fin 0, some (.fin 0)), (fin 10, some (.fin 10)), (fin 20, some (.fin 0)),
    (fin 30, some (.fin 0))] := by decide +kernel

/-- Rounding without the intervals succeeds exactly for functions made of lines and constants (`TypeError` otherwise);
the rounded function is defined at the same floats, and if no parameter moves by more than `ε`, the value at `x` moves
by no more than `ε (|x| + 1)`. -/
theorem C106_round_values (val : ℤ → ℚ) (rx : ℤ → ℤ) (rq : ℚ → ℚ) {p : PF} (hd : p.Disj) :
    ((∃ r, p.round rx rq false = .ok r) ↔ ∀ s ∈ p, (∃ v, s.2 = .const v) ∨ ∃ m c, s.2 = .lin m c) ∧
    (∀ e, p.round rx rq false = .error e → e = .typeError) ∧
    ∀ r, p.round rx rq false = .ok r → ∀ n,
      ((∃ v, r.eval val n = .ok v) ↔ ∃ v, p.eval val n = .ok v) ∧
      ∀ ε, (∀ q, |rq q - q| ≤ ε) → ∀ v, p.eval val n = .ok v →
        ∃ x y, v = some x ∧ r.eval val n = .ok (some y) ∧ |y - x| ≤ ε * (|val n| + 1) := by
  refine ⟨PF.round_iff rx rq p false, fun e he => ?_, fun r hr n => ?_⟩
  · obtain ⟨s, -, hs⟩ := mapM_error _ e p he
    cases hf : s.2 <;> simp [hf, PF.roundFn, bind, Except.bind, pure, Except.pure] at hs
    all_goals exact hs.symm
  · have hl := PF.round_list hr
    simp only [Bool.false_eq_true, if_false] at hl
    have hdr : r.Disj := by
      have hmap : r.map Prod.fst = p.map Prod.fst := by
        clear hr hd
        induction hl with
        | nil => rfl
        | cons h _ ih => simp [h.1, ih]
      have h1 : (p.map Prod.fst).Pairwise CS.Disjoint := List.pairwise_map.2 hd
      rw [← hmap] at h1
      exact List.pairwise_map.1 h1
    have key : ∀ ε, (∀ q, |rq q - q| ≤ ε) → ∀ v, p.eval val n = .ok v →
        ∃ x y, v = some x ∧ r.eval val n = .ok (some y) ∧ |y - x| ≤ ε * (|val n| + 1) := by
      intro ε hε v hv
      obtain ⟨s, hs, hm, he⟩ := (PF.eval_ok_iff hd).1 hv
      obtain ⟨t, ht, h1, h2⟩ := PF.paired_left hl hs
      have hε0 : 0 ≤ ε := (abs_nonneg _).trans (hε 0)
      cases hf : s.2 with
      | undef => simp [hf, PF.roundFn] at h2
      | quad a b c => simp [hf, PF.roundFn] at h2
      | const w =>
        simp only [hf, PF.roundFn, Except.ok.injEq] at h2
        simp only [hf, Fn.eval] at he
        refine ⟨w, rq w, he.symm, (PF.eval_ok_iff hdr).2 ⟨t, ht, by rw [h1]; exact hm, by rw [← h2]; rfl⟩, ?_⟩
        have := hε w
        nlinarith [abs_nonneg (val n)]
      | lin m c =>
        simp only [hf, PF.roundFn, Except.ok.injEq] at h2
        simp only [hf, Fn.eval] at he
        refine ⟨m * val n + c, rq m * val n + rq c, he.symm,
          (PF.eval_ok_iff hdr).2 ⟨t, ht, by rw [h1]; exact hm, by rw [← h2]; rfl⟩, ?_⟩
        have e : rq m * val n + rq c - (m * val n + c) = (rq m - m) * val n + (rq c - c) := by ring
        rw [e]
        refine (abs_add_le _ _).trans ?_
        rw [abs_mul]
        have := mul_le_mul_of_nonneg_right (hε m) (abs_nonneg (val n))
        have := hε c
        linarith
    refine ⟨⟨?_, ?_⟩, key⟩
    · rintro ⟨v, hv⟩
      obtain ⟨t, ht, hm, -⟩ := (PF.eval_ok_iff hdr).1 hv
      obtain ⟨s, hs, h1, -⟩ := forall₂_mem_right hl ht
      exact ⟨_, (PF.eval_ok_iff hd).2 ⟨s, hs, by rw [← h1]; exact hm, rfl⟩⟩
    · rintro ⟨v, hv⟩
      obtain ⟨s, hs, hm, -⟩ := (PF.eval_ok_iff hd).1 hv
      obtain ⟨t, ht, h1, -⟩ := PF.paired_left hl hs
      exact ⟨_, (PF.eval_ok_iff hdr).2 ⟨t, ht, by rw [h1]; exact hm, rfl⟩⟩

example : PF.Disj PF.roof := PF.sorted_disjoint (by decide) (by decide)

/-- Rounding with the intervals: the value at `x` is that of the rounded parameters of the piece whose rounded bounds
enclose `x`, and two such pieces are never found; a piece whose bounds round to the same number disappears. -/
theorem C106_round_intervals (val : ℤ → ℚ) {rx : ℤ → ℤ} (hrx : Monotone rx) (rq : ℚ → ℚ) {p r : PF} (h : PF.Contiguous p)
    (hr : p.round rx rq true = .ok r) (n : ℤ) (v : Option ℚ) :
    r.eval val n = .ok v ↔ ∃ s ∈ p, (∀ a, s.1.lower = fin a → rx a ≤ n) ∧ (∀ b, s.1.upper = fin b → n < rx b) ∧
      ((∃ q, s.2 = .const q ∧ v = some (rq q)) ∨ ∃ m c, s.2 = .lin m c ∧ v = some (rq m * val n + rq c)) := by
  have hl := PF.round_list hr
  simp only [if_true] at hl
  have hright : ∀ t ∈ r, t.1.right = .exc := by
    intro t ht
    obtain ⟨s, hs, h1, -⟩ := forall₂_mem_right hl ht
    rw [h1]
    exact (h.halfOpen s hs).2.1
  have hsorted : r.Pairwise (fun s t => s.1.upper ≤ t.1.lower) := by
    have hp := PF.contiguous_sorted h
    clear hr hright h
    induction hl with
    | nil => exact .nil
    | cons h1 h2 ih =>
      rw [List.pairwise_cons] at hp ⊢
      refine ⟨fun t ht => ?_, ih hp.2⟩
      obtain ⟨s, hs, e, -⟩ := forall₂_mem_right h2 ht
      rw [e, h1.1]
      exact PF.roundPos_mono hrx (hp.1 s hs)
  have hmem : ∀ s ∈ p, ((⟨PF.roundPos rx s.1.lower, PF.roundPos rx s.1.upper, s.1.left, s.1.right⟩ : CS).Mem (fin n) ↔
      (∀ a, s.1.lower = fin a → rx a ≤ n) ∧ (∀ b, s.1.upper = fin b → n < rx b)) := by
    intro s hs
    obtain ⟨h1, h2, h3⟩ := h.halfOpen s hs
    obtain ⟨⟨a, b, l, t⟩, f⟩ := s
    simp only at h1 h2 h3 ⊢
    subst h2
    cases a <;> cases b <;> cases l <;> simp_all [CS.Mem, PF.roundPos, FP.lt_def, leb] <;> grind
  rw [PF.eval_ok_iff (PF.sorted_disjoint hright hsorted)]
  constructor
  · rintro ⟨t, ht, hm, he⟩
    obtain ⟨s, hs, h1, h2⟩ := forall₂_mem_right hl ht
    rw [h1, hmem s hs] at hm
    refine ⟨s, hs, hm.1, hm.2, ?_⟩
    cases hf : s.2 <;> simp [hf, PF.roundFn] at h2 <;> rw [← h2] at he <;> simp [← he, Fn.eval]
  · rintro ⟨s, hs, ha, hb, hv⟩
    obtain ⟨t, ht, h1, h2⟩ := PF.paired_left hl hs
    refine ⟨t, ht, by rw [h1, hmem s hs]; exact ⟨ha, hb⟩, ?_⟩
    rcases hv with ⟨q, hf, rfl⟩ | ⟨m, c, hf, rfl⟩ <;> simp [hf, PF.roundFn] at h2 <;> rw [← h2] <;> rfl

example : PF.Contiguous PF.roof := ⟨by decide, by decide⟩

example : ∃ r, PF.roof.round (fun n => 8 * (n / 8)) (fun q => q.floor) true = .ok r := ⟨_, rfl⟩

/-- Dropping the undefined pieces keeps exactly the values that are numbers. -/
theorem C106_drop (val : ℤ → ℚ) {p : PF} (hd : p.Disj) (n : ℤ) (v : Option ℚ) :
    p.dropUndef.eval val n = .ok v ↔ p.eval val n = .ok v ∧ v ≠ none := by
  have hd' : p.dropUndef.Disj := hd.sublist List.filter_sublist
  rw [PF.eval_ok_iff hd', PF.eval_ok_iff hd]
  constructor
  · rintro ⟨s, hs, hm, he⟩
    simp only [PF.dropUndef, List.mem_filter, decide_eq_true_eq] at hs
    refine ⟨⟨s, hs.1, hm, he⟩, ?_⟩
    rintro rfl
    cases hf : s.2 <;> simp [hf, Fn.eval] at he hs
  · rintro ⟨⟨s, hs, hm, he⟩, hv⟩
    refine ⟨s, ?_, hm, he⟩
    simp only [PF.dropUndef, List.mem_filter, decide_eq_true_eq]
    refine ⟨hs, fun hu => hv ?_⟩
    rw [← he, hu]
    rfl

example : PF.Disj [(co 0 1, .undef), (co 1 5, .const 2)] := PF.sorted_disjoint (by decide) (by decide)

/-- The claim that two functions can be merged at a number is false: `merge` calls `add_const`, a method no piecewise
function has, so that it raises an error for all functions and numbers (`AttributeError` for the cdf of a uniform
distribution with itself). -/
theorem C106_violated_merge :
    (∀ (val : ℤ → ℚ) (f g : PF) (x : FP), ∃ e, PF.mergeAt val f g x = .error e) ∧
    PF.mergeAt ival [(⟨ninf, fin 0, .exc, .exc⟩, .const 0), (co 0 10, .lin (1 / 10) 0), (⟨fin 10, pinf, .inc, .exc⟩, .const 1)]
      [(⟨ninf, fin 0, .exc, .exc⟩, .const 0), (co 0 10, .lin (1 / 10) 0), (⟨fin 10, pinf, .inc, .exc⟩, .const 1)] (fin 5) =
      .error .attributeError := by
  constructor
  · intro val f g x
    have key : ∀ r, PF.mergeAt val f g x ≠ .ok r := by
      intro r h
      unfold PF.mergeAt at h
      simp only [bind, Except.bind] at h
      repeat' split at h
      all_goals cases h
    cases hm : PF.mergeAt val f g x with
    | error e => exact ⟨e, rfl⟩
    | ok r => exact absurd hm (key r)
  · have : (match PF.mergeAt ival [(⟨ninf, fin 0, .exc, .exc⟩, .const 0), (co 0 10, .lin (1 / 10) 0),
        (⟨fin 10, pinf, .inc, .exc⟩, .const 1)] [(⟨ninf, fin 0, .exc, .exc⟩, .const 0), (co 0 10, .lin (1 / 10) 0),
        (⟨fin 10, pinf, .inc, .exc⟩, .const 1)] (fin 5) with
      | .error .attributeError => true | _ => false) = true := by decide +kernel
    revert this
    split
    · intro _; assumption
    · intro h; cases h

end Verif.Fun
