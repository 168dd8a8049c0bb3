import Verif.Functions.ExtremaLemmas
import Verif.Functions.Props
import Mathlib.Order.Monotone.Basic
import Mathlib.Tactic.FieldSimp

/-!
# Maxima and rectangles (C90, C91)
-/

namespace Verif.Fun

open Iv Iv.FP

namespace PF

variable {val : ℤ → ℚ} {p : PF}

/-- The pieces are half-open intervals that do not overlap. -/
def Tidy (p : PF) : Prop :=
  (∀ s ∈ p, s.1.HalfOpen) ∧ p.Pairwise (fun s t => CS.Disjoint s.1 t.1)

theorem Tidy.eval_iff (h : p.Tidy) {n : ℤ} {r : Option ℚ} :
    p.eval val n = .ok r ↔ ∃ s ∈ p, s.1.Mem (fin n) ∧ s.2.eval (val n) = r := by
  constructor
  · intro he
    unfold eval atPos at he
    cases hf : p.find? (fun s => hit (fin n) s.1) with
    | none => rw [hf] at he; cases he
    | some s =>
      rw [hf] at he
      refine ⟨s, List.mem_of_find?_eq_some hf, ?_, by injection he⟩
      have := List.find?_some hf
      rwa [hit_fin, CS.containsValue_iff] at this
  · rintro ⟨s, hs, hm, rfl⟩
    have hh : hit (fin n) s.1 = true := by rw [hit_fin, CS.containsValue_iff]; exact hm
    unfold eval atPos
    rw [(pieceAt_own h.1 h.2 hs hh).1]
    rfl

end PF

/-- **C90** The modes of a density: for a function whose pieces are constant or undefined, `maximize` returns the greatest
value, which is attained, and exactly the points where it is attained.  If the function has no value anywhere it returns the
empty set and NaN. -/
theorem C90_modes (val : ℤ → ℚ) {p : PF} (h : p.Tidy) (hc : ∀ s ∈ p, s.2 = .undef ∨ ∃ c, s.2 = .const c) :
    ∃ A v, p.maximize val = .ok (A, v) ∧
      ((v = none ∧ (∀ n, ¬ A.Mem (fin n)) ∧ ∀ n y, p.eval val n ≠ .ok (some y)) ∨
        ∃ m, v = some (.fin m) ∧ (∀ n y, p.eval val n = .ok (some y) → y ≤ m) ∧ (∃ n, p.eval val n = .ok (some m)) ∧
          ∀ n, A.Mem (fin n) ↔ p.eval val n = .ok (some m)) := by
  obtain ⟨D, hD, -⟩ := PF.domain_spec h.1
  obtain ⟨st1, h1, m1⟩ := PF.fold_modes (val := val) h.1 h.2 hc (fun s => s.1.lowermost)
    (fun s hs => PF.hit_lowermost (h.1 s hs)) p [] (.cs .emptyset, none) (fun _ h => h) (by simp)
    ⟨rfl, by simp⟩
  obtain ⟨st2, h2, m2⟩ := PF.fold_modes (val := val) h.1 h.2 hc (fun s => s.1.uppermost)
    (fun s hs => PF.hit_uppermost (h.1 s hs)) p ([] ++ p) st1 (fun _ h => h) (by simpa using h.1) m1
  obtain ⟨A, v⟩ := st2
  refine ⟨A, v, ?_, ?_⟩
  · unfold PF.maximize
    rw [hD]
    simp only [bind, Except.bind]
    rw [List.foldlM_append, h1]
    exact h2
  · have hmem : ∀ t : CS × Fn, t ∈ [] ++ p ++ p ↔ t ∈ p := by intro t; simp
    unfold PF.Modes at m2
    cases v with
    | none =>
      left
      obtain ⟨e, hu⟩ := m2
      simp only at e
      refine ⟨rfl, ?_, ?_⟩
      · intro n hn
        rw [e] at hn
        simp [NS.Mem, CS.Mem, CS.emptyset] at hn
        grind
      · intro n y he
        obtain ⟨s, hs, -, h3⟩ := h.eval_iff.1 he
        rw [hu s ((hmem s).2 hs)] at h3
        cases h3
    | some y =>
      right
      obtain ⟨m, rfl, hle, ⟨t, ht, hat⟩, hA, -⟩ := m2
      have key : ∀ n z, p.eval val n = .ok (some z) ↔ ∃ s ∈ p, s.2 = .const z ∧ s.1.Mem (fin n) := by
        intro n z
        rw [h.eval_iff]
        constructor
        · rintro ⟨s, hs, h3, h4⟩
          rcases hc s hs with e | ⟨c, e⟩
          · rw [e] at h4; cases h4
          · rw [e] at h4
            obtain rfl := Option.some.inj h4
            exact ⟨s, hs, e, h3⟩
        · rintro ⟨s, hs, h3, h4⟩
          exact ⟨s, hs, h4, by rw [h3]; rfl⟩
      refine ⟨m, rfl, ?_, ?_, ?_⟩
      · intro n z he
        obtain ⟨s, hs, h3, -⟩ := (key n z).1 he
        exact hle s ((hmem s).2 hs) z h3
      · obtain ⟨n, hn⟩ := PF.HalfOpen.exists_fin (h.1 t ((hmem t).1 ht))
        exact ⟨n, (key n m).2 ⟨t, (hmem t).1 ht, hat, hn⟩⟩
      · intro n
        rw [show (A.Mem (fin n) ↔ _) from hA (fin n), key]
        simp only [hmem]

/-- The end points of a half-open piece with finite bounds. -/
theorem bounds_fin {i : CS} (hi : i.HalfOpen) {a b : ℤ} (ha : i.lower = fin a) (hb : i.upper = fin b) :
    i.lowermost = fin a ∧ i.uppermost = fin (b - 1) ∧ a ≤ b - 1 ∧ ∀ n : ℤ, i.Mem (fin n) ↔ a ≤ n ∧ n ≤ b - 1 := by
  have hm := fun n => hi.mem_iff n
  have h1 := hi.1
  rw [ha, hb] at h1
  have h2 : a < b := by simpa [FP.lt_def, leb] using h1
  refine ⟨by rw [hi.lowermost, ha], by rw [hi.uppermost, hb]; rfl, by omega, ?_⟩
  intro n
  rw [hm n, ha, hb]
  simp [FP.lt_def, FP.le_def, leb]
  try omega

example : PF.Tidy [(⟨ninf, fin 0, .exc, .exc⟩, .const 0), (⟨fin 0, fin 4, .inc, .exc⟩, .const 2), (⟨fin 4, fin 9, .inc, .exc⟩, .const 1),
    (⟨fin 9, fin 12, .inc, .exc⟩, .const 2), (⟨fin 12, pinf, .inc, .exc⟩, .undef)] := by
  refine ⟨by simp [CS.HalfOpen, FP.lt_def, leb], ?_⟩
  simp only [List.pairwise_cons, List.mem_cons, List.not_mem_nil, or_false, forall_eq_or_imp, forall_eq, CS.Disjoint]
  refine ⟨⟨?_, ?_, ?_, ?_⟩, ⟨?_, ?_, ?_⟩, ⟨?_, ?_⟩, ?_, by simp⟩ <;> intro x <;> cases x <;>
    simp [CS.Mem, FP.lt_def, leb] <;> omega

/-- A density with two modes: both are found. -/
example : ((PF.maximize (fun x : ℤ => (x : ℚ)) [(⟨ninf, fin 0, .exc, .exc⟩, .const 0), (⟨fin 0, fin 4, .inc, .exc⟩, .const 2),
    (⟨fin 4, fin 9, .inc, .exc⟩, .const 1), (⟨fin 9, fin 12, .inc, .exc⟩, .const 2), (⟨fin 12, pinf, .inc, .exc⟩, .undef)]) =
      .ok (.rs [⟨fin 0, fin 4, .inc, .exc⟩, ⟨fin 9, fin 12, .inc, .exc⟩], some (.fin 2))) := by decide +kernel

/-- **C90** The value `maximize` returns is the maximum, also with linear pieces on bounded intervals: no value is greater, and
it is attained.  It is NaN only if the function has no value anywhere.  Missing: that the call returns, and that the set it
returns with linear pieces is exactly where the maximum is attained (see `C90_violated_flat`). -/
theorem C90_maximum_partial {val : ℤ → ℚ} (hval : Monotone val) {p : PF} (h : p.Tidy)
    (hc : ∀ s ∈ p, s.2 = .undef ∨ (∃ c, s.2 = .const c) ∨
      ∃ m c, s.2 = .lin m c ∧ ∃ a b, s.1.lower = fin a ∧ s.1.upper = fin b)
    {A : NS} {v : Fn.Fl} (hr : p.maximize val = .ok (A, v)) :
    (v = none ∧ ∀ n y, p.eval val n ≠ .ok (some y)) ∨
      ∃ m, v = some (.fin m) ∧ (∀ n y, p.eval val n = .ok (some y) → y ≤ m) ∧ ∃ n, p.eval val n = .ok (some m) := by
  obtain ⟨D, hD, -⟩ := PF.domain_spec h.1
  unfold PF.maximize at hr
  rw [hD] at hr
  simp only [bind, Except.bind] at hr
  have hbs : ∀ b ∈ p.map (fun s => s.1.lowermost) ++ p.map (fun s => s.1.uppermost), ∃ s ∈ p, PF.hit b s.1 = true := by
    intro b hb
    rcases List.mem_append.1 hb with hb | hb
    · obtain ⟨s, hs, rfl⟩ := List.mem_map.1 hb
      exact ⟨s, hs, PF.hit_lowermost (h.1 s hs)⟩
    · obtain ⟨s, hs, rfl⟩ := List.mem_map.1 hb
      exact ⟨s, hs, PF.hit_uppermost (h.1 s hs)⟩
  have H := PF.fold_highest (val := val) h.1 h.2 _ [] _ _ (by simp [PF.Highest]) hbs hr
  rw [List.nil_append] at H
  -- every value is at most the value at one of the end points
  have hdom : ∀ n y, p.eval val n = .ok (some y) →
      ∃ b ∈ p.map (fun s => s.1.lowermost) ++ p.map (fun s => s.1.uppermost), ∃ z, PF.valueAt val p b = some (.fin z) ∧ y ≤ z := by
    intro n y he
    obtain ⟨s, hs, hm, hy⟩ := h.eval_iff.1 he
    have e1 := PF.valueAt_own (val := val) h.1 h.2 hs (PF.hit_lowermost (h.1 s hs))
    have e2 := PF.valueAt_own (val := val) h.1 h.2 hs (PF.hit_uppermost (h.1 s hs))
    have i1 : s.1.lowermost ∈ p.map (fun s => s.1.lowermost) ++ p.map (fun s => s.1.uppermost) :=
      List.mem_append_left _ (List.mem_map.2 ⟨s, hs, rfl⟩)
    have i2 : s.1.uppermost ∈ p.map (fun s => s.1.lowermost) ++ p.map (fun s => s.1.uppermost) :=
      List.mem_append_right _ (List.mem_map.2 ⟨s, hs, rfl⟩)
    rcases hc s hs with e | ⟨c, e⟩ | ⟨m, c, e, a, b, ha, hb⟩
    · rw [e] at hy; cases hy
    · rw [e] at hy e1
      obtain rfl := Option.some.inj hy
      exact ⟨_, i1, c, by rw [e1]; cases s.1.lowermost <;> rfl, le_refl _⟩
    · obtain ⟨b1, b2, b3, b4⟩ := bounds_fin (h.1 s hs) ha hb
      rw [e] at hy e1 e2
      obtain rfl := Option.some.inj hy
      rw [b1] at e1 i1
      rw [b2] at e2 i2
      obtain ⟨k1, k2⟩ := (b4 n).1 hm
      rcases le_total 0 m with h0 | h0
      · exact ⟨_, i2, m * val (b - 1) + c, by rw [e2]; rfl, by
          have := mul_le_mul_of_nonneg_left (hval k2) h0; linarith⟩
      · exact ⟨_, i1, m * val a + c, by rw [e1]; rfl, by
          have := mul_le_mul_of_nonpos_left (hval k1) h0; linarith⟩
  -- and every value at an end point is a value
  have hat : ∀ b ∈ p.map (fun s => s.1.lowermost) ++ p.map (fun s => s.1.uppermost), ∀ z, PF.valueAt val p b = some z →
      ∃ n y, z = .fin y ∧ p.eval val n = .ok (some y) := by
    intro b hb z hz
    obtain ⟨s, hs, hsb⟩ := hbs b hb
    rw [PF.valueAt_own h.1 h.2 hs hsb] at hz
    rcases hc s hs with e | ⟨c, e⟩ | ⟨m, c, e, a, b', ha, hb'⟩
    · rw [e] at hz; cases b <;> cases hz
    · obtain ⟨n, hn⟩ := PF.HalfOpen.exists_fin (h.1 s hs)
      refine ⟨n, c, ?_, h.eval_iff.2 ⟨s, hs, hn, by rw [e]; rfl⟩⟩
      rw [e] at hz
      cases b <;> exact (Option.some.inj hz).symm
    · cases b with
      | fin n =>
        rw [PF.hit_fin, CS.containsValue_iff] at hsb
        refine ⟨n, m * val n + c, ?_, h.eval_iff.2 ⟨s, hs, hsb, by rw [e]; rfl⟩⟩
        rw [e] at hz
        exact (Option.some.inj hz).symm
      | ninf => rw [PF.hit_ninf (h.1 s hs), ha] at hsb; cases hsb
      | pinf => rw [PF.hit_pinf (h.1 s hs), hb'] at hsb; cases hsb
  unfold PF.Highest at H
  cases v with
  | none =>
    left
    refine ⟨rfl, fun n y he => ?_⟩
    obtain ⟨b, hb, z, hz, -⟩ := hdom n y he
    rw [H b hb] at hz
    cases hz
  | some x =>
    right
    obtain ⟨H1, b, hb, hx⟩ := H
    obtain ⟨n, y, rfl, hn⟩ := hat b hb x hx
    refine ⟨y, rfl, ?_, n, hn⟩
    intro k z hk
    obtain ⟨b', hb', w, hw, hle⟩ := hdom k z hk
    have := H1 b' hb' _ hw
    simp only [XQ.le, decide_eq_true_eq] at this
    linarith

/-- A rising and a falling edge: the peak is found. -/
example : ((PF.maximize (fun x : ℤ => (x : ℚ)) [(⟨fin 0, fin 4, .inc, .exc⟩, .lin 1 0), (⟨fin 4, fin 9, .inc, .exc⟩, .lin (-1) 10)]) =
      .ok (.cs ⟨fin 4, fin 4, .inc, .inc⟩, some (.fin 6))) := by decide +kernel

/-- With a `LinearFunction` of slope 0 only the end points of its interval are returned, although the maximum is attained in
between: `maximize` takes every `LinearFunction` to be strictly monotone. -/
theorem C90_violated_flat : ¬ ∀ (val : ℤ → ℚ) (p : PF), StrictMono val → p.Tidy → ∀ A m, p.maximize val = .ok (A, some (.fin m)) →
    ∀ n, p.eval val n = .ok (some m) → A.Mem (fin n) := by
  intro h
  have hm := h (fun x : ℤ => (x : ℚ)) [(⟨fin 0, fin 5, .inc, .exc⟩, .lin 0 3)] Int.cast_strictMono
    ⟨by simp [CS.HalfOpen, FP.lt_def, leb], by simp⟩ (.rs [⟨fin 0, fin 0, .inc, .inc⟩, ⟨fin 4, fin 4, .inc, .inc⟩]) 3
    (by decide +kernel) 2 (by decide +kernel)
  simp [NS.Mem, RS.Mem, CS.Mem, FP.lt_def, leb] at hm

theorem PF.Tidy.of_map {p q : PF} (h : p.Tidy) (e : q.map (·.1) = p.map (·.1)) : q.Tidy := by
  refine ⟨fun s hs => ?_, ?_⟩
  · have : s.1 ∈ p.map (·.1) := by rw [← e]; exact List.mem_map.2 ⟨s, hs, rfl⟩
    obtain ⟨t, ht, e⟩ := List.mem_map.1 this
    rw [← e]
    exact h.1 t ht
  · have := h.2
    rw [← List.pairwise_map (f := fun s : CS × Fn => s.1) (R := CS.Disjoint)] at this ⊢
    rwa [e]

theorem mapM_related {α β : Type} {f : α → Except Err β} {Q : α → β → Prop} {l : List α}
    (h : ∀ x ∈ l, ∃ y, f x = .ok y ∧ Q x y) : ∃ ys, l.mapM f = .ok ys ∧ List.Forall₂ Q l ys := by
  induction l with
  | nil => exact ⟨[], rfl, .nil⟩
  | cons a l ih =>
    obtain ⟨y, h1, h2⟩ := h a (by simp)
    obtain ⟨ys, h3, h4⟩ := ih (fun x hx => h x (by simp [hx]))
    exact ⟨y :: ys, by rw [List.mapM_cons, h1, h3]; rfl, .cons h2 h4⟩

/-- **C91** `rectify` keeps the intervals of a function.  On a linear piece the new value is the mean of the values at the
least and the greatest float of the piece, elsewhere the value does not change. -/
theorem C91_values (val : ℤ → ℚ) {p : PF} (h : p.Tidy)
    (hc : ∀ s ∈ p, s.2 = .undef ∨ (∃ c, s.2 = .const c) ∨
      ∃ m c, s.2 = .lin m c ∧ ∃ a b, s.1.lower = fin a ∧ s.1.upper = fin b) :
    ∃ q, p.rectify val = .ok q ∧ q.map (·.1) = p.map (·.1) ∧ (∀ s ∈ q, s.2 = .undef ∨ ∃ c, s.2 = .const c) ∧
      (∀ s ∈ p, s.2 = .undef ∨ (∃ c, s.2 = .const c) → ∀ n, s.1.Mem (fin n) → q.eval val n = p.eval val n) ∧
      ∀ s ∈ p, ∀ m c, s.2 = .lin m c → ∀ a b, s.1.lower = fin a → s.1.upper = fin b →
        ∃ y z, p.eval val a = .ok (some y) ∧ p.eval val (b - 1) = .ok (some z) ∧
          ∀ n, s.1.Mem (fin n) → q.eval val n = .ok (some ((y + z) / 2)) := by
  have hstep : ∀ s ∈ p, ∃ t : CS × Fn, PF.rectifyPiece val s = .ok t ∧ t.1 = s.1 ∧ (t.2 = .undef ∨ ∃ c, t.2 = .const c) ∧
      (s.2 = .undef ∨ (∃ c, s.2 = .const c) → t = s) ∧
      ∀ m c, s.2 = .lin m c → ∀ a b, s.1.lower = fin a → s.1.upper = fin b →
        t.2 = .const (((m * val a + c) + (m * val (b - 1) + c)) / 2) := by
    rintro ⟨i, f⟩ hs
    have hi := h.1 _ hs
    rcases hc _ hs with e | ⟨c, e⟩ | ⟨m, c, e, a, b, ha, hb⟩
    · simp only at e
      subst e
      exact ⟨_, rfl, rfl, .inl rfl, fun _ => rfl, fun m c e => by cases e⟩
    · simp only at e
      subst e
      exact ⟨_, rfl, rfl, .inr ⟨c, rfl⟩, fun _ => rfl, fun m c e => by cases e⟩
    · simp only at e ha hb hi
      subst e
      obtain ⟨b1, b2, -, -⟩ := bounds_fin hi ha hb
      refine ⟨(i, .const (((m * val a + c) + (m * val (b - 1) + c)) / 2)), ?_, rfl, .inr ⟨_, rfl⟩, ?_, ?_⟩
      · unfold PF.rectifyPiece
        simp [ha, hb, b1, b2, FP.isInf]
      · rintro (e | ⟨c, e⟩) <;> cases e
      · intro m' c' e a' b' ha' hb'
        cases e
        rw [ha] at ha'
        rw [hb] at hb'
        cases ha'
        cases hb'
        rfl
  obtain ⟨q, hq, hf⟩ := mapM_related hstep
  have hmap : q.map (·.1) = p.map (·.1) := by
    clear hq hstep hc h
    induction hf with
    | nil => rfl
    | cons h1 _ ih => rw [List.map_cons, List.map_cons, ih, h1.1]
  have hl : ∀ s ∈ p, ∃ t ∈ q, t.1 = s.1 ∧ (t.2 = .undef ∨ ∃ c, t.2 = .const c) ∧
      (s.2 = .undef ∨ (∃ c, s.2 = .const c) → t = s) ∧
      ∀ m c, s.2 = .lin m c → ∀ a b, s.1.lower = fin a → s.1.upper = fin b →
        t.2 = .const (((m * val a + c) + (m * val (b - 1) + c)) / 2) := by
    intro s hs
    exact forall₂_mem_right hf.flip hs
  have ht : PF.Tidy q := h.of_map hmap
  refine ⟨q, hq, hmap, ?_, ?_, ?_⟩
  · intro t htq
    obtain ⟨s, -, h1⟩ := forall₂_mem_right hf htq
    exact h1.2.1
  · intro s hs hcs n hn
    obtain ⟨t, htq, -, -, h1, -⟩ := hl s hs
    obtain rfl := h1 hcs
    rw [ht.eval_iff.2 ⟨t, htq, hn, rfl⟩, h.eval_iff.2 ⟨t, hs, hn, rfl⟩]
  · intro s hs m c e a b ha hb
    obtain ⟨t, htq, h1, -, -, h2⟩ := hl s hs
    obtain ⟨-, -, b3, b4⟩ := bounds_fin (h.1 s hs) ha hb
    refine ⟨m * val a + c, m * val (b - 1) + c, ?_, ?_, ?_⟩
    · exact h.eval_iff.2 ⟨s, hs, (b4 a).2 ⟨le_refl _, b3⟩, by rw [e]; rfl⟩
    · exact h.eval_iff.2 ⟨s, hs, (b4 (b - 1)).2 ⟨b3, le_refl _⟩, by rw [e]; rfl⟩
    · intro n hn
      exact ht.eval_iff.2 ⟨t, htq, by rw [h1]; exact hn, by rw [h2 m c e a b ha hb]; rfl⟩

/-- The example function of `C91_values`: a constant and a rising edge. -/
example : PF.rectify (fun x : ℤ => (x : ℚ)) [(⟨ninf, fin 0, .exc, .exc⟩, .const 1), (⟨fin 0, fin 5, .inc, .exc⟩, .lin 1 1),
    (⟨fin 5, pinf, .inc, .exc⟩, .undef)] = .ok [(⟨ninf, fin 0, .exc, .exc⟩, .const 1), (⟨fin 0, fin 5, .inc, .exc⟩, .const 3),
      (⟨fin 5, pinf, .inc, .exc⟩, .undef)] := by decide +kernel

/-- **C91** `rectify` raises `ValueError` for a sloped piece that reaches infinity and `TypeError` for a quadratic one. -/
theorem C91_errors (val : ℤ → ℚ) (p r : PF) (i : CS) (f : Fn)
    (hp : ∀ s ∈ p, s.2 = .undef ∨ ∃ c, s.2 = .const c) :
    ((∃ m c, f = .lin m c ∧ m ≠ 0) → i.lower.isInf ∨ i.upper.isInf → PF.rectify val (p ++ (i, f) :: r) = .error .valueError) ∧
    ((∃ a b c, f = .quad a b c) → PF.rectify val (p ++ (i, f) :: r) = .error .typeError) := by
  have hpre : ∃ q, p.mapM (PF.rectifyPiece val) = .ok q := by
    obtain ⟨q, hq, -⟩ := mapM_related (f := PF.rectifyPiece val) (Q := fun _ _ => True) (l := p) (fun s hs => by
      obtain ⟨j, g⟩ := s
      rcases hp _ hs with e | ⟨c, e⟩ <;> simp only at e <;> subst e <;> exact ⟨_, rfl, trivial⟩)
    exact ⟨q, hq⟩
  obtain ⟨q, hq⟩ := hpre
  have hgo : ∀ e, PF.rectifyPiece val (i, f) = .error e → PF.rectify val (p ++ (i, f) :: r) = .error e := by
    intro e he
    unfold PF.rectify
    rw [List.mapM_append, hq]
    simp only [bind, Except.bind]
    rw [List.mapM_cons, he]
    rfl
  refine ⟨?_, ?_⟩
  · rintro ⟨m, c, rfl, hm⟩ hi
    refine hgo _ ?_
    unfold PF.rectifyPiece
    simp only
    rw [if_pos ⟨hm, by simpa using hi⟩]
  · rintro ⟨a, b, c, rfl⟩
    exact hgo _ rfl

/-- **C91** The area under a linear piece with slope `m` between the `a`-th and the `b`-th float changes by half of
`m` times the width of the piece times the gap before its upper bound. Missing: it should not change at all (see
`C91_violated_area`). -/
theorem C91_area_partial (val : ℤ → ℚ) {i : CS} (hi : i.HalfOpen) {a b : ℤ} (ha : i.lower = fin a) (hb : i.upper = fin b)
    (hval : val a < val b) (m c : ℚ) :
    ∃ f I J, PF.rectify val [(i, .lin m c)] = .ok [(i, f)] ∧
      (Fn.lin m c).integrate (.fin (val a)) (.fin (val b)) = .ok (some (.fin I)) ∧
      f.integrate (.fin (val a)) (.fin (val b)) = .ok (some (.fin J)) ∧
      I - J = m * (val b - val a) * (val b - val (b - 1)) / 2 := by
  obtain ⟨b1, b2, -, -⟩ := bounds_fin hi ha hb
  refine ⟨.const (((m * val a + c) + (m * val (b - 1) + c)) / 2),
    (1 / 2 * m * val b ^ 2 + c * val b) - (1 / 2 * m * val a ^ 2 + c * val a), (((m * val a + c) + (m * val (b - 1) + c)) / 2) * (val b - val a),
    ?_, ?_, ?_, ?_⟩
  · have : PF.rectifyPiece val (i, .lin m c) = .ok (i, .const (((m * val a + c) + (m * val (b - 1) + c)) / 2)) := by
      unfold PF.rectifyPiece
      simp [ha, hb, b1, b2, FP.isInf]
    unfold PF.rectify
    rw [List.mapM_cons, this]
    rfl
  · unfold Fn.integrate
    simp only [XQ.le]
    rw [if_neg (by simp [hval.le]), if_neg (by simp [hval.ne'])]
  · have hle : ((XQ.fin (val a)).le (.fin (val b)) = false) = False := by simp [XQ.le, hval.le]
    simp only [Fn.integrate, hle, if_false]
    by_cases h0 : ((m * val a + c) + (m * val (b - 1) + c)) / 2 = 0
    · rw [if_pos h0, h0, zero_mul]
    · rw [if_neg h0]
      rfl
  · ring

example : CS.HalfOpen ⟨fin 0, fin 5, .inc, .exc⟩ ∧ (((0 : ℤ) : ℚ) < ((5 : ℤ) : ℚ)) := by
  refine ⟨by simp [CS.HalfOpen, FP.lt_def, leb], by decide +kernel⟩

/-- `rectify` evaluates a linear piece at the greatest float below its upper bound, so the mean is not that of the piece and
the area under the function changes. -/
theorem C91_violated_area : ¬ ∀ (val : ℤ → ℚ) (p q : PF), StrictMono val → p.Tidy → p.rectify val = .ok q →
    q.integrate val = p.integrate val := by
  intro h
  have := h (fun x : ℤ => (x : ℚ)) [(⟨fin 0, fin 2, .inc, .exc⟩, .lin 1 0)] [(⟨fin 0, fin 2, .inc, .exc⟩, .const (1 / 2))] Int.cast_strictMono
    ⟨by simp [CS.HalfOpen, FP.lt_def, leb], by simp⟩ (by decide +kernel)
  exact absurd this (by decide +kernel)

end Verif.Fun
