import Verif.Intervals.SampleLemmas2

/-! # C104: sampling from number sets and counting them -/

namespace Verif.Iv

open FP

/-- **C104 (partial), intervals.** If the finite doubles in an interval are not too far apart, every sample that can
be drawn from it is a member of it, and as many are drawn as asked for.
Missing: wide intervals (`C104_violated_reals`). -/
theorem C104_interval_partial (F : Floats) (s : CS) (hw : s.WF) (hr : s.Reg) (hf : HasFloat F s) (hs : Small F s)
    (draws : List (ℤ → ℤ → ℤ)) (hd : ∀ d ∈ draws, Between d) :
    ∃ xs, s.sample F draws = .ok xs ∧ xs.length = draws.length ∧ ∀ x ∈ xs, s.Mem x :=
  sample_spec hw hr hf hs hd

/-- **C104, intervals.** Sampling from an interval without members raises `IndexError`. -/
theorem C104_empty (F : Floats) (s : CS) (hw : s.WF) (draws : List (ℤ → ℤ → ℤ)) (h : ¬ ∃ x, s.Mem x) :
    s.sample F draws = .error .indexError := by
  simp [CS.sample, (CS.isempty_iff s hw).2 h]

/-- **C104, empty unions.** Sampling from a union without members raises `IndexError`. -/
theorem C104_empty_union (F : Floats) (l : List CS) (hl : ∀ s ∈ l, s.WF) (draws : List (ℚ × (ℤ → ℤ → ℤ)))
    (h : ¬ ∃ x, RS.Mem l x) : RS.sample F l draws = .error .indexError := by
  simp [RS.sample, (RS.isempty_iff hl).2 h]

example : (∀ s ∈ [CS.emptyset], s.WF) ∧ RS.isempty [CS.emptyset] = true := by decide

/-- **C104 (partial), unions.** If no interval of a union is empty and none is too wide, every sample is a member of
the union, and the interval it is drawn from is the one in whose part of the total length the random number lies: each
interval is chosen with a probability proportional to its length.
Missing: unions with an empty interval (`C104_violated_empty_interval`) and wide intervals. -/
theorem C104_union_partial (F : Floats) (hv : StrictMono F.val) (l : List CS) (hne : l ≠ [])
    (hl : ∀ s ∈ l, s.WF ∧ s.Reg ∧ HasFloat F s ∧ Small F s) (draws : List (ℚ × (ℤ → ℤ → ℤ)))
    (hd : ∀ d ∈ draws, Drawn F l d.1 ∧ Between d.2) :
    ∃ xs : List FP, RS.sample F l draws = .ok (xs.map some) ∧ xs.length = draws.length ∧ (∀ x ∈ xs, RS.Mem l x) ∧
      ∀ (i j : ℕ) (d : ℚ × (ℤ → ℤ → ℤ)) (s : CS), draws[i]? = some d → l[j]? = some s → (∀ t ∈ l, Bounded t) →
        total F (l.take j) < d.1 → d.1 ≤ total F (l.take j) + len F s → ∃ x, xs[i]? = some x ∧ s.Mem x := by
  have he : ∀ s ∈ l, s.isempty = false := by
    intro s hs
    obtain ⟨w, -, ⟨n, -, -, hn⟩, -⟩ := hl s hs
    cases h : s.isempty with
    | false => rfl
    | true => exact absurd ⟨_, hn⟩ ((CS.isempty_iff s w).1 h)
  have hE : RS.isempty l = false := by
    obtain ⟨a, t, rfl⟩ := List.exists_cons_of_ne_nil hne
    simp [RS.isempty, he a (by simp)]
  have hw : ∀ s ∈ l, s.WF := fun s hs => (hl s hs).1
  -- one sample
  have one : ∀ d ∈ draws, ∃ x j s, RS.sampleOne F l (cumsum (some 0) (RS.weights F l)) d.1 d.2 = .ok (some x) ∧
      (cumsum (some 0) (RS.weights F l)).findIdx? (leInf d.1) = some j ∧ l[j]? = some s ∧ s.Mem x := by
    intro d hdm
    obtain ⟨hu, hb⟩ := hd d hdm
    obtain ⟨j, hj, hlt⟩ := chosen hv hne hw he hu
    have hs : l[j]? = some l[j] := List.getElem?_eq_getElem hlt
    obtain ⟨w, r, f, sm⟩ := hl l[j] (List.getElem_mem hlt)
    obtain ⟨xs, h1, h2, h3⟩ := sample_spec (draws := [d.2]) w r f sm (by simpa using hb)
    obtain ⟨x, rfl⟩ : ∃ x, xs = [x] := List.length_eq_one_iff.1 (by simpa using h2)
    exact ⟨x, j, l[j], by simp [RS.sampleOne, hj, hs, h1], hj, hs, h3 x (by simp)⟩
  -- all samples
  have all : ∀ D : List (ℚ × (ℤ → ℤ → ℤ)), (∀ d ∈ D, d ∈ draws) →
      ∃ xs : List FP, D.mapM (fun d => RS.sampleOne F l (cumsum (some 0) (RS.weights F l)) d.1 d.2) =
        .ok (xs.map some) ∧ List.Forall₂ (fun (d : ℚ × (ℤ → ℤ → ℤ)) x => ∃ j s,
          (cumsum (some 0) (RS.weights F l)).findIdx? (leInf d.1) = some j ∧ l[j]? = some s ∧ s.Mem x) D xs := by
    intro D
    induction D with
    | nil => exact fun _ => ⟨[], rfl, .nil⟩
    | cons d D ih =>
      intro hD
      obtain ⟨x, j, s, h1, h2, h3, h4⟩ := one d (hD d (by simp))
      obtain ⟨xs, h5, h6⟩ := ih (fun d hd => hD d (by simp [hd]))
      exact ⟨x :: xs, by simp [List.mapM_cons, h1, h5, bind, Except.bind, pure, Except.pure],
        .cons ⟨j, s, h2, h3, h4⟩ h6⟩
  obtain ⟨xs, h1, h2⟩ := all draws (fun d h => h)
  refine ⟨xs, by rw [RS.sample, hE]; exact h1, h2.length_eq.symm, ?_, ?_⟩
  · intro x hx
    obtain ⟨d, -, j, s, -, h3, h4⟩ := forall₂_mem_right h2 hx
    exact ⟨s, List.mem_of_getElem? h3, h4⟩
  · intro i j d s hi hj hb h3 h4
    have hi' := List.getElem?_eq_some_iff.1 hi
    obtain ⟨hil, hid⟩ := hi'
    have hjl := (List.getElem?_eq_some_iff.1 hj).1
    have hix : i < xs.length := by rw [← h2.length_eq]; exact hil
    obtain ⟨j', s', h5, h6, h7⟩ := List.Forall₂.get h2 hil hix
    rw [List.get_eq_getElem, hid] at h5
    have hj' : (cumsum (some 0) (RS.weights F l)).findIdx? (leInf d.1) = some j := by
      have ht : total F l ≠ 0 := by
        intro h0
        have hnn : ∀ x ∈ l.map (len F), 0 ≤ x := by
          intro x hx
          obtain ⟨t, ht, rfl⟩ := List.mem_map.1 hx
          exact (width_len hv (hw t ht) (hb t ht)).2
        have hm0 := sum_take_mono hnn (Nat.zero_le j)
        have hm := sum_take_mono hnn (show j + 1 ≤ (l.map (len F)).length by rw [List.length_map]; exact hjl)
        rw [List.take_length] at hm
        have e1 : ((l.map (len F)).take (j + 1)).sum = total F (l.take j) + len F s := by
          rw [← List.map_take, List.take_add_one, hj]
          simp [total]
        have e2 : ((l.map (len F)).take j).sum = total F (l.take j) := by rw [← List.map_take]; rfl
        rw [e1] at hm
        rw [e2] at hm0
        simp only [List.take_zero, List.sum_nil] at hm0
        have : (l.map (len F)).sum = 0 := h0
        linarith
      rw [weights_finite hv hw he hb, if_neg ht]
      refine findIdx_between ?_ (by simpa using hjl) (by rw [← List.map_take]; exact h3) ?_
      · intro x hx
        obtain ⟨t, ht, rfl⟩ := List.mem_map.1 hx
        exact (width_len hv (hw t ht) (hb t ht)).2
      · rw [← List.map_take, List.take_add_one, hj]
        simpa [total] using h4
    rw [hj'] at h5
    cases h5
    rw [hj] at h6
    cases h6
    exact ⟨xs[i], List.getElem?_eq_getElem hix, h7⟩

/-- **C104 fails for wide intervals.** From an interval that is unbounded on both sides, such as the real numbers,
nothing can be sampled: the difference of the largest and the smallest double is infinite, and
`numpy.random.uniform` raises `OverflowError`. -/
theorem C104_violated_reals (F : Floats) (hF : F.lim ≤ F.val F.fmax - F.val F.fmin) (draws : List (ℤ → ℤ → ℤ)) :
    CS.allnumbers.sample F draws = .error .runtimeError := by
  have he : CS.allnumbers.isempty = false := by decide
  simp only [CS.sample, he, Bool.false_eq_true, if_false]
  simp only [CS.allnumbers, reduceCtorEq, if_false, FP.up, FP.dn, clip]
  rw [if_pos hF]

/-- **C104 fails for unions with an empty interval.** The random number selects among the intervals that are not
empty, but its position is looked up among all of them.  From `∅ ∪ [0, 1]` every draw raises `IndexError`. -/
theorem C104_violated_empty_interval (F : Floats) (hv : StrictMono F.val) (u : ℚ) (hu : u ≤ F.val 1 - F.val 0)
    (d : ℤ → ℤ → ℤ) :
    RS.Mem [CS.emptyset, ⟨fin 0, fin 1, .inc, .inc⟩] (fin 0) ∧
    RS.sample F [CS.emptyset, ⟨fin 0, fin 1, .inc, .inc⟩] [(u, d)] = .error .indexError := by
  refine ⟨by decide, ?_⟩
  have h0 : 0 < F.val 1 - F.val 0 := sub_pos.2 (hv (by omega))
  have e0 : RS.isempty [CS.emptyset, ⟨fin 0, fin 1, .inc, .inc⟩] = false := by decide
  have e1 : CS.emptyset.size = some 0 := by decide
  have e2 : CS.size ⟨fin 0, fin 1, .inc, .inc⟩ = none := by decide
  have e3 : CS.emptyset.isempty = true := by decide
  have hw : RS.weights F [CS.emptyset, ⟨fin 0, fin 1, .inc, .inc⟩] = [some (F.val 1 - F.val 0)] := by
    simp [RS.weights, e1, e2, CS.width, addInf, abs_of_pos h0, h0.ne']
  simp [RS.sample, e0, hw, cumsum, addInf, RS.sampleOne, leInf, hu, CS.sample, e3, bind, Except.bind]

/-- **C104, size (partial).** If a union is given in order and its size is finite, it has exactly that many members.
Missing: unions given out of order (`C104_violated_size`). -/
theorem C104_size_partial (l : List CS) (hl : ∀ s ∈ l, s.WF ∧ s.Reg) (ho : l.Pairwise CS.NotBelow) (n : ℕ)
    (h : RS.size l = .ok (some n)) : ∃ xs : List FP, xs.Nodup ∧ xs.length = n ∧ ∀ x, RS.Mem l x ↔ x ∈ xs :=
  size_list hl ho h

/-- **C104, size fails for unions given out of order.** `{1} ∪ [0, 1)`, where 0 and 1 stand for neighbouring doubles,
has two members, but its size is 0. -/
theorem C104_violated_size : RS.Mem [⟨fin 1, fin 1, .inc, .inc⟩, ⟨fin 0, fin 1, .inc, .exc⟩] (fin 0) ∧
    RS.Mem [⟨fin 1, fin 1, .inc, .inc⟩, ⟨fin 0, fin 1, .inc, .exc⟩] (fin 1) ∧
    RS.size [⟨fin 1, fin 1, .inc, .inc⟩, ⟨fin 0, fin 1, .inc, .exc⟩] = .ok (some 0) := by
  refine ⟨by decide, by decide, by decide +kernel⟩

/-- **C104, infinity.** A union is infinite to the left (right) exactly if it has members below (above) every finite
bound, and infinite exactly if one of the two holds. -/
theorem C104_infinite (l : List CS) (hl : ∀ s ∈ l, s.WF ∧ s.Reg) :
    (RS.isninf l = true ↔ ∀ n, ∃ m, m ≤ n ∧ RS.Mem l (fin m)) ∧
    (RS.ispinf l = true ↔ ∀ n, ∃ m, n ≤ m ∧ RS.Mem l (fin m)) ∧
    (RS.isinf l = true ↔ (∀ n, ∃ m, m ≤ n ∧ RS.Mem l (fin m)) ∨ ∀ n, ∃ m, n ≤ m ∧ RS.Mem l (fin m)) := by
  have h1 : RS.isninf l = true ↔ ∀ n, ∃ m, m ≤ n ∧ RS.Mem l (fin m) := by
    simp only [RS.isninf, List.any_eq_true]
    constructor
    · rintro ⟨s, hs, hi⟩ n
      obtain ⟨m, h, hm⟩ := (unbounded_below (hl s hs).2).1 hi n
      exact ⟨m, h, s, hs, hm⟩
    · intro h
      obtain ⟨s, hs, hP⟩ := exists_uniform (P := fun s n => ∃ m, m ≤ n ∧ s.Mem (fin m))
        (fun s m n hmn ⟨k, hk, hm⟩ => ⟨k, hk.trans hmn, hm⟩) (l := l)
        (fun n => by obtain ⟨m, h1, s, hs, h2⟩ := h n; exact ⟨s, hs, m, h1, h2⟩)
      exact ⟨s, hs, (unbounded_below (hl s hs).2).2 hP⟩
  have h2 : RS.ispinf l = true ↔ ∀ n, ∃ m, n ≤ m ∧ RS.Mem l (fin m) := by
    simp only [RS.ispinf, List.any_eq_true]
    constructor
    · rintro ⟨s, hs, hi⟩ n
      obtain ⟨m, h, hm⟩ := (unbounded_above (hl s hs).2).1 hi n
      exact ⟨m, h, s, hs, hm⟩
    · intro h
      obtain ⟨s, hs, hP⟩ := exists_uniform (P := fun s n => ∃ m, -n ≤ m ∧ s.Mem (fin m))
        (fun s m n hmn ⟨k, hk, hm⟩ => ⟨k, by omega, hm⟩) (l := l)
        (fun n => by obtain ⟨m, h1, s, hs, h2⟩ := h (-n); exact ⟨s, hs, m, h1, h2⟩)
      exact ⟨s, hs, (unbounded_above (hl s hs).2).2 (fun n => by simpa using hP (-n))⟩
  refine ⟨h1, h2, ?_⟩
  rw [← h1, ← h2]
  simp only [RS.isinf, RS.isninf, RS.ispinf, List.any_eq_true, Bool.or_eq_true]
  constructor
  · rintro ⟨s, hs, h | h⟩
    · exact .inr ⟨s, hs, h⟩
    · exact .inl ⟨s, hs, h⟩
  · rintro (⟨s, hs, h⟩ | ⟨s, hs, h⟩)
    · exact ⟨s, hs, .inr h⟩
    · exact ⟨s, hs, .inl h⟩

/-! ## Non-vacuity -/

/-- A toy float format: the integers from -8 to 8. -/
abbrev toyF : Floats := ⟨fun n => n, -8, 8, 9⟩

example : CS.sample toyF ⟨fin 0, fin 4, .exc, .inc⟩ [fun lo _ => lo, fun _ hi => hi] = .ok [fin 1, fin 4] := by
  decide +kernel

example : RS.sample toyF [⟨fin 0, fin 1, .inc, .inc⟩, ⟨fin 3, fin 6, .inc, .exc⟩]
    [(1, fun lo _ => lo), (3, fun lo _ => lo), (4, fun _ hi => hi)] = .ok [some (fin 0), some (fin 3), some (fin 5)] := by
  decide +kernel

example : HasFloat toyF ⟨ninf, fin 0, .exc, .exc⟩ ∧ Small toyF ⟨ninf, fin 0, .exc, .exc⟩ := by
  refine ⟨⟨-1, by decide, by decide, by decide⟩, ?_⟩
  intro m n h1 h2 h3 h4
  simp only [CS.Mem, FP.lt_def, leb] at *
  have a : -8 ≤ m := h1
  have b : n < 0 := by simpa using h4
  have : ((n : ℤ) : ℚ) - (m : ℚ) < 9 := by exact_mod_cast (by omega : n - m < 9)
  exact this

example : RS.size [⟨fin 1, fin 1, .inc, .inc⟩, ⟨fin 4, fin 5, .inc, .exc⟩] = .ok (some 2) := by decide +kernel

example : toyF.lim ≤ toyF.val toyF.fmax - toyF.val toyF.fmin := by decide +kernel

example : RS.isninf [⟨fin 1, fin 1, .inc, .inc⟩, ⟨ninf, fin 0, .exc, .exc⟩] = true := by decide

end Verif.Iv
