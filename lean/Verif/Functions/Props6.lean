import Verif.Functions.CombineLemmas4
import Verif.Functions.Props
import Mathlib.Algebra.Order.Round
import Mathlib.Data.Rat.Floor

/-!
# C100: minimum, maximum and absolute value of piecewise functions

`val n` is the number of the `n`-th float, `rnd q` a float nearest to `q`.
-/

namespace Verif.Fun

open Iv Iv.FP

namespace PF

variable {val : ℤ → ℚ} {rnd : ℚ → ℤ} {f g : PF}

theorem Lines.isStraight (h : f.Lines) : ∀ s ∈ f, s.2.isStraight = true := by
  intro s hs
  rcases h.straight s hs with ⟨v, e⟩ | ⟨m, c, e⟩ <;> rw [e] <;> rfl

theorem Lines.notWhole (hf : f.Lines) (hb : f.Bounded) : ∀ s ∈ f, ¬ (s.1.lower = ninf ∧ s.1.upper = pinf) := by
  rintro s hs ⟨h1, h2⟩
  obtain ⟨t, ht, h3⟩ := hb
  obtain ⟨n, hn⟩ := ho_mem (hf.halfOpen t ht)
  have : s.1.Mem (fin n) := by
    rw [(hf.halfOpen s hs).mem_iff, h1, h2]
    exact ⟨ninf_le _, by simp [FP.lt_def, leb]⟩
  obtain rfl := disj_unique hf.disj hs ht this hn
  rcases h3 with h | h
  · exact h h1
  · exact h h2

/-- What `combine` yields at a float. -/
theorem combine_value (op : Op) (hv : StrictMono val) (hr : Nearest val rnd) (hf : f.Lines) (hg : g.Lines)
    (hfe : f.ConstEnds) (hge : g.ConstEnds) (hc : f.Connected → g.Connected) (hb : f.Bounded ∨ g.Bounded) :
    ∃ r, combine val rnd op f g = .ok r ∧
      (∀ n x y, f.eval val n = .ok (some x) → g.eval val n = .ok (some y) →
        r.eval val n = .ok (some (op.of x y)) ∨ (¬ (f.Steps ∧ g.Steps) ∧
          ∃ k x' y', (k = n + 1 ∨ k = n - 1) ∧ f.eval val k = .ok (some x') ∧ g.eval val k = .ok (some y') ∧
            (x - y) * (x' - y') ≤ 0 ∧ (r.eval val n = .ok (some x) ∨ r.eval val n = .ok (some y)))) ∧
      (∀ n, (∃ v, r.eval val n = .ok v) ↔ (∃ v, f.eval val n = .ok v) ∧ ∃ v, g.eval val n = .ok v) := by
  have hR : ∀ s ∈ f, ∀ t ∈ g, ¬ (s.1.lower = ninf ∧ s.1.upper = pinf ∧ t.1.lower = ninf ∧ t.1.upper = pinf) := by
    rintro s hs t ht ⟨h1, h2, h3, h4⟩
    rcases hb with h | h
    · exact hf.notWhole h s hs ⟨h1, h2⟩
    · exact hg.notWhole h t ht ⟨h3, h4⟩
  obtain ⟨q, r, e, hq, hval, hqd, hrd, -, hcov⟩ := combine_spec (op := op) hv hr hf.halfOpen hf.disj hf.isStraight hf.nonempty
    hg.halfOpen hg.disj hg.isStraight hg.nonempty hc hR
  have hcov' : ∀ (p : PF), p.Disj → ∀ n, (∃ v, p.eval val n = .ok v) ↔ p.Covers n := by
    intro p hp n
    constructor
    · rintro ⟨v, h⟩
      obtain ⟨s, hs, hm, -⟩ := (eval_ok_iff hp).1 h
      exact ⟨s, hs, hm⟩
    · rintro ⟨s, hs, hm⟩
      exact ⟨_, (eval_ok_iff hp).2 ⟨s, hs, hm, rfl⟩⟩
  refine ⟨r, e, ?_, ?_⟩
  · intro n x y hx hy
    obtain ⟨p, hp, hpn⟩ := (hcov n).2 ⟨(hcov' f hf.disj n).1 ⟨_, hx⟩, (hcov' g hg.disj n).1 ⟨_, hy⟩⟩
    obtain ⟨hph, s, hs, t, ht, hps, hpt, c, X, hcen, hX, hsp, hch⟩ := hq p hp
    obtain ⟨s', hs', hsn, hsx⟩ := (eval_ok_iff hf.disj).1 hx
    obtain rfl := disj_unique hf.disj hs hs' (hps.mem hph (hf.halfOpen s hs) hpn) hsn
    obtain ⟨t', ht', htn, hty⟩ := (eval_ok_iff hg.disj).1 hy
    obtain rfl := disj_unique hg.disj ht ht' (hpt.mem hph (hg.halfOpen t ht) hpn) htn
    have hrv : ∀ v, p.2.eval (val n) = v → r.eval val n = .ok v := fun v h =>
      (eval_ok_iff hrd).2 ((hval n v).2 ⟨p, hp, hpn, h⟩)
    have hends : p.1.lower = ninf ∨ p.1.upper = pinf → (∃ v, s.2 = .const v) ∧ ∃ v, t.2 = .const v := by
      rintro (h | h)
      · have h1 := hps.1
        have h2 := hpt.1
        rw [h] at h1 h2
        exact ⟨hfe s hs (.inl (le_antisymm h1 (ninf_le _))), hge t ht (.inl (le_antisymm h2 (ninf_le _)))⟩
      · have h1 := hps.2
        have h2 := hpt.2
        rw [h] at h1 h2
        exact ⟨hfe s hs (.inr (le_antisymm (le_pinf _) h1)), hge t ht (.inr (le_antisymm (le_pinf _) h2))⟩
    rcases Chosen.value hv hr hph (hf.isStraight s hs) (hg.isStraight t ht) hends hcen hX hsp hch hpn hsx hty with
      h | ⟨h1, k, x', y', h2, h3, h4, h5, h6⟩
    · exact .inl (hrv _ h)
    · refine .inr ⟨fun h => h1 ⟨h.1 s hs, h.2 t ht⟩, k, x', y', h2, ?_, ?_, h6, ?_⟩
      · exact (eval_ok_iff hf.disj).2 ⟨s, hs, hps.mem hph (hf.halfOpen s hs) h3, h4⟩
      · exact (eval_ok_iff hg.disj).2 ⟨t, ht, hpt.mem hph (hg.halfOpen t ht) h3, h5⟩
      · rcases choose_or op (deltaAt val s.2 t.2 (some c)) s.2 t.2 with h | h
        · exact .inl (hrv _ (by rw [hch, h]; exact hsx))
        · exact .inr (hrv _ (by rw [hch, h]; exact hty))
  · intro n
    rw [hcov' f hf.disj, hcov' g hg.disj, ← hcov n, ← hcov' q hqd]
    constructor
    · rintro ⟨v, h⟩
      exact ⟨v, (eval_ok_iff hqd).2 ((hval n v).1 ((eval_ok_iff hrd).1 h))⟩
    · rintro ⟨v, h⟩
      exact ⟨v, (eval_ok_iff hrd).2 ((hval n v).2 ((eval_ok_iff hqd).1 h))⟩

/-! ## Step functions -/

theorem Steps.constEnds (h : f.Steps) : f.ConstEnds := fun s hs _ => h s hs

/-- The minimum and the maximum of two step functions are pointwise, and defined exactly where both functions are. -/
theorem C100_steps (hv : StrictMono val) (hr : Nearest val rnd) (hf : f.Lines) (hg : g.Lines) (hfs : f.Steps)
    (hgs : g.Steps) (hc : f.Connected → g.Connected) (hb : f.Bounded ∨ g.Bounded) :
    ∃ lo hi, combine val rnd .min f g = .ok lo ∧ combine val rnd .max f g = .ok hi ∧
      (∀ n x y, f.eval val n = .ok (some x) → g.eval val n = .ok (some y) →
        lo.eval val n = .ok (some (min x y)) ∧ hi.eval val n = .ok (some (max x y))) ∧
      (∀ n, (∃ v, lo.eval val n = .ok v) ↔ (∃ v, f.eval val n = .ok v) ∧ ∃ v, g.eval val n = .ok v) ∧
      (∀ n, (∃ v, hi.eval val n = .ok v) ↔ (∃ v, f.eval val n = .ok v) ∧ ∃ v, g.eval val n = .ok v) := by
  obtain ⟨lo, h1, h2, h3⟩ := combine_value .min hv hr hf hg hfs.constEnds hgs.constEnds hc hb
  obtain ⟨hi, k1, k2, k3⟩ := combine_value .max hv hr hf hg hfs.constEnds hgs.constEnds hc hb
  refine ⟨lo, hi, h1, k1, fun n x y hx hy => ⟨?_, ?_⟩, h3, k3⟩
  · rcases h2 n x y hx hy with h | ⟨h, -⟩
    · exact h
    · exact absurd ⟨hfs, hgs⟩ h
  · rcases k2 n x y hx hy with h | ⟨h, -⟩
    · exact h
    · exact absurd ⟨hfs, hgs⟩ h

/-- For the examples: the nearest integer. -/
def irnd (q : ℚ) : ℤ := ⌊q + 1 / 2⌋

theorem irnd_nearest : Nearest ival irnd := by
  intro q n
  have := round_le q n
  rw [round_eq] at this
  exact this

/-- For the examples: `1` on `[0, 4)`, `5` on `[4, 9)`. -/
def stepsA : PF := [(co 0 4, .const 1), (co 4 9, .const 5)]

/-- For the examples: `3` on `[2, 6)`, `4` on `[6, inf)`. -/
def stepsB : PF := [(co 2 6, .const 3), (⟨fin 6, pinf, .inc, .exc⟩, .const 4)]

theorem connected_two {i j : CS} {a b : Fn} {k : ℤ} (hi : i.HalfOpen) (hj : j.HalfOpen) (h1 : i.upper = fin k)
    (h2 : j.lower = fin k) : Connected [(i, a), (j, b)] := by
  intro x y z hxy hyz hx hz
  simp only [Covers, List.mem_cons, List.not_mem_nil, or_false, exists_eq_or_imp, exists_eq_left] at hx hz ⊢
  rw [hi.mem_iff, hj.mem_iff, h1, h2] at *
  have e1 : fin x ≤ fin y := by simp [FP.le_def, leb]; omega
  have e2 : fin y ≤ fin z := by simp [FP.le_def, leb]; omega
  by_cases hk : fin y < fin k
  · left
    refine ⟨?_, hk⟩
    rcases hx with h | h
    · exact le_trans h.1 e1
    · exact absurd (lt_of_le_of_lt (le_trans h.1 e1) hk) (lt_irrefl _)
  · right
    rw [not_lt] at hk
    refine ⟨hk, ?_⟩
    rcases hz with h | h
    · exact absurd (lt_of_le_of_lt (le_trans hk e2) h.2) (lt_irrefl _)
    · exact lt_of_le_of_lt e2 h.2

example : stepsA.Lines ∧ stepsB.Lines ∧ stepsA.Steps ∧ stepsB.Steps ∧ stepsB.Connected ∧ stepsA.Bounded ∧
    StrictMono ival ∧ Nearest ival irnd ∧
    combine ival irnd .min stepsA stepsB = .ok [(co 2 4, .const 1), (co 4 6, .const 3), (co 6 9, .const 4)] :=
  ⟨⟨by decide, by decide +kernel, sorted_disj (by
      rw [stepsA, List.pairwise_pair]; exact before_of_lt (by decide +kernel)), by simp [stepsA]⟩,
    ⟨by decide, by decide +kernel, sorted_disj (by
      rw [stepsB, List.pairwise_pair]; exact before_of_lt (by decide +kernel)), by simp [stepsB]⟩, by simp [Steps, stepsA],
    by simp [Steps, stepsB], connected_two (k := 6) (by decide +kernel) (by decide +kernel) rfl rfl,
    ⟨(co 0 4, .const 1), by simp [stepsA], .inl (by simp [co])⟩, ival_strictMono, irnd_nearest, by decide +kernel⟩

/-! ## Lines -/

/-- With lines, the result at a float is one of the two values, and it is the right one unless the functions meet between
this float and a neighbour.  Missing: that the value is always the right one (`C100_violated_crossing`), lines on unbounded
intervals (`C100_violated_unbounded`), domains with a gap (`C100_violated_gap`), constants on the whole line
(`C100_violated_whole_line`). -/
theorem C100_lines_partial (op : Op) (hv : StrictMono val) (hr : Nearest val rnd) (hf : f.Lines) (hg : g.Lines)
    (hfe : f.ConstEnds) (hge : g.ConstEnds) (hc : f.Connected → g.Connected) (hb : f.Bounded ∨ g.Bounded) :
    ∃ r, combine val rnd op f g = .ok r ∧
      (∀ n x y, f.eval val n = .ok (some x) → g.eval val n = .ok (some y) →
        r.eval val n = .ok (some (op.of x y)) ∨
          ∃ k x' y', (k = n + 1 ∨ k = n - 1) ∧ f.eval val k = .ok (some x') ∧ g.eval val k = .ok (some y') ∧
            (x - y) * (x' - y') ≤ 0 ∧ (r.eval val n = .ok (some x) ∨ r.eval val n = .ok (some y))) ∧
      (∀ n, (∃ v, r.eval val n = .ok v) ↔ (∃ v, f.eval val n = .ok v) ∧ ∃ v, g.eval val n = .ok v) := by
  obtain ⟨r, h1, h2, h3⟩ := combine_value op hv hr hf hg hfe hge hc hb
  refine ⟨r, h1, fun n x y hx hy => ?_, h3⟩
  rcases h2 n x y hx hy with h | ⟨-, h⟩
  · exact .inl h
  · exact .inr h

/-- For the examples: one line on a bounded interval meets the hypotheses. -/
theorem one_line {a b : ℤ} (h : a < b) (m c : ℚ) : Lines [(co a b, .lin m c)] ∧ ConstEnds [(co a b, .lin m c)] ∧
    Connected [(co a b, .lin m c)] ∧ Bounded [(co a b, .lin m c)] := by
  have hh : (co a b).HalfOpen := ⟨by simp [co, FP.lt_def, leb]; omega, rfl, .inr ⟨by simp [co], rfl⟩⟩
  refine ⟨⟨by simp, by simpa using hh, by simp [Disj], by simp⟩, by simp [ConstEnds, co], ?_,
    ⟨_, List.mem_singleton.2 rfl, .inl (by simp [co])⟩⟩
  intro x y z h1 h2 h3 h4
  simp only [Covers, List.mem_singleton, exists_eq_left] at h3 h4 ⊢
  exact halfOpen_convex hh h1 h2 h3 h4

example : Lines [(co 0 10, .lin 1 0)] ∧ Lines [(co 0 10, .lin (-1) 10)] ∧ ConstEnds [(co 0 10, .lin 1 0)] ∧
    ConstEnds [(co 0 10, .lin (-1) 10)] ∧ Connected [(co 0 10, .lin (-1) 10)] ∧ Bounded [(co 0 10, .lin 1 0)] :=
  ⟨(one_line (by decide) _ _).1, (one_line (by decide) _ _).1, (one_line (by decide) _ _).2.1,
    (one_line (by decide) _ _).2.1, (one_line (by decide) _ _).2.2.1, (one_line (by decide) _ _).2.2.2⟩

example : combine ival irnd .max [(co 0 10, .lin 1 0)] [(co 0 10, .lin (-1) 10)] =
    .ok [(co 0 5, .lin (-1) 10), (co 5 10, .lin 1 0)] := by decide +kernel

/-- Where two lines meet between the first float of an interval and the next one, the minimum is wrong at the first. -/
theorem C100_violated_crossing : (combine ival irnd .min [(co 0 10, .lin 1 0)] [(co 0 10, .const (1 / 4))]).bind
    (fun r => r.eval ival 0) = .ok (some (1 / 4)) := by decide +kernel

/-- On `(-inf, 0)` the minimum of `x - 1` and `x` is said to be `x`: the difference of two infinite values is NaN. -/
theorem C100_violated_unbounded : (combine ival irnd .min [(⟨ninf, fin 0, .exc, .exc⟩, .lin 1 (-1))]
    [(⟨ninf, fin 0, .exc, .exc⟩, .lin 1 0)]).bind (fun r => r.eval ival (-5)) = .ok (some (-5)) := by decide +kernel

/-- The minimum of a function on an interval and one whose domain has a gap raises; in the other order it does not. -/
theorem C100_violated_gap :
    combine ival irnd .min [(co 0 10, .const 1)] [(co 0 2, .const 2), (co 4 6, .const 0)] = .error .typeError ∧
    combine ival irnd .min [(co 0 2, .const 2), (co 4 6, .const 0)] [(co 0 10, .const 1)] =
      .ok [(co 0 2, .const 1), (co 4 6, .const 0)] := ⟨by decide +kernel, by decide +kernel⟩

/-- The minimum of two constants on the whole line raises: the middle of the line is NaN. -/
theorem C100_violated_whole_line (op : Op) (v w : ℚ) : combine val rnd op [(⟨ninf, pinf, .exc, .exc⟩, .const v)]
    [(⟨ninf, pinf, .exc, .exc⟩, .const w)] = .error .typeError := by
  have h1 : domain [(⟨ninf, pinf, .exc, .exc⟩, Fn.const v)] = .ok (.cs ⟨ninf, pinf, .exc, .exc⟩) := by
    show RS.simplify [⟨ninf, pinf, .exc, .exc⟩] = _
    decide +kernel
  have h2 : domain [(⟨ninf, pinf, .exc, .exc⟩, Fn.const w)] = .ok (.cs ⟨ninf, pinf, .exc, .exc⟩) := h1
  have h3 : nsIntersection (.cs ⟨ninf, pinf, .exc, .exc⟩) (.cs ⟨ninf, pinf, .exc, .exc⟩) =
      .ok (.cs ⟨ninf, pinf, .exc, .exc⟩) := by decide +kernel
  have h4 : cutPoints [(⟨ninf, pinf, .exc, .exc⟩, Fn.const v)] = [] := by
    simp [cutPoints, CS.lowermost, CS.uppermost, FP.up, FP.dn, FP.isInf]
  have h5 : cutPoints [(⟨ninf, pinf, .exc, .exc⟩, Fn.const w)] = [] := by
    simp [cutPoints, CS.lowermost, CS.uppermost, FP.up, FP.dn, FP.isInf]
  have h6 : CS.chop ⟨ninf, pinf, .exc, .exc⟩ [] = [⟨ninf, pinf, .exc, .exc⟩] := by decide +kernel
  have h7 : center val rnd ⟨ninf, pinf, .exc, .exc⟩ = none := by
    simp [center, CS.lowermost, CS.uppermost, FP.up, FP.dn]
  simp only [combine, h1, h2, h3, h4, h5, nsSimplify, nsChop, h6, bind, Except.bind, List.append_nil, List.length_singleton,
    combineLoop, h7, atCenter, Option.bind_none]

/-! ## Absolute value -/

theorem low_bound (f : PF) : ∃ B : ℤ, ∀ s ∈ f, ∀ a, s.1.lower = fin a → B < a := by
  induction f with
  | nil => exact ⟨0, by simp⟩
  | cons s f ih =>
    obtain ⟨B, hB⟩ := ih
    cases hl : s.1.lower with
    | fin a =>
      refine ⟨min B (a - 1), ?_⟩
      intro t ht b hb
      rcases List.mem_cons.1 ht with rfl | ht
      · rw [hl] at hb; cases hb; omega
      · have := hB t ht b hb; omega
    | _ =>
      refine ⟨B, ?_⟩
      intro t ht b hb
      rcases List.mem_cons.1 ht with rfl | ht
      · rw [hl] at hb; cases hb
      · exact hB t ht b hb

theorem high_bound (f : PF) : ∃ B : ℤ, ∀ s ∈ f, ∀ a, s.1.upper = fin a → a ≤ B := by
  induction f with
  | nil => exact ⟨0, by simp⟩
  | cons s f ih =>
    obtain ⟨B, hB⟩ := ih
    cases hl : s.1.upper with
    | fin a =>
      refine ⟨max B a, ?_⟩
      intro t ht b hb
      rcases List.mem_cons.1 ht with rfl | ht
      · rw [hl] at hb; cases hb; omega
      · have := hB t ht b hb; omega
    | _ =>
      refine ⟨B, ?_⟩
      intro t ht b hb
      rcases List.mem_cons.1 ht with rfl | ht
      · rw [hl] at hb; cases hb
      · exact hB t ht b hb

/-- `f * -1`. -/
theorem negated (hv : StrictMono val) (hf : f.Lines) (hfe : f.ConstEnds) :
    ∃ g, timesFn f (.const (-1)) = .ok g ∧ g.Lines ∧ g.ConstEnds ∧ (f.Steps → g.Steps) ∧
      (∀ n, g.eval val n = (f.eval val n).map (Option.map (fun x => -x))) := by
  obtain ⟨-, g, hg⟩ := C14_function_pieces_return (f := .const (-1)) hf.halfOpen hf.disj
    (fun s hs => by
      rcases hf.straight s hs with ⟨v, e⟩ | ⟨m, c, e⟩
      · exact ⟨0, v, .inr e⟩
      · exact ⟨m, c, .inl e⟩) ⟨0, -1, .inr rfl⟩
  have hev : ∀ n, g.eval val n = (f.eval val n).map (Option.map (fun x => -x)) := by
    intro n
    rw [C14_times_function hf.halfOpen hf.disj hg n]
    congr 1
    funext v
    cases v with
    | none => rfl
    | some x => simp [nanOp, Fn.eval]
  have hg0 := hg
  unfold timesFn at hg
  simp only [bind, Except.bind] at hg
  cases h1 : f.mulFn (.const (-1)) with
  | error e' => rw [h1] at hg; cases hg
  | ok q =>
    rw [h1] at hg
    have h2 := mulFn_eq h1
    have hqh : ∀ s ∈ q, s.1.HalfOpen := mapM_fn_all (F := fun g => g.times (.const (-1))) h2 hf.halfOpen
    obtain ⟨hval, -, hs⟩ := simplify_spec (val := val) (fun s hs => norm_ne (hqh s hs)) hg
    have hgd := sorted_disj hs
    have hgh := simplify_halfOpen hqh hg
    have hq2 := mapM_fn (F := fun g => g.times (.const (-1))) h2
    have hP : ∀ s ∈ q, (∃ v, s.2 = .const v) ∨ ∃ m c, s.2 = .lin m c ∧ m ≠ 0 := by
      intro s hs
      obtain ⟨s', hs', -, e⟩ := forall₂_mem_right hq2 hs
      rcases hf.straight s' hs' with ⟨v, e'⟩ | ⟨m, c, e'⟩
      · rw [e'] at e
        simp only [Fn.times, Fn.mul, Except.map, Fn.simplify, Except.ok.injEq] at e
        exact .inl ⟨_, e.symm⟩
      · rw [e'] at e
        simp only [Fn.times, Fn.mul, Except.map, Fn.simplify, Except.ok.injEq] at e
        by_cases hm : m * -1 = 0
        · rw [if_pos hm] at e
          exact .inl ⟨_, e.symm⟩
        · rw [if_neg hm] at e
          exact .inr ⟨_, _, e.symm, hm⟩
    have hPg := simplify_fns (P := fun fn => (∃ v, fn = .const v) ∨ ∃ m c, fn = .lin m c ∧ m ≠ 0) hP hg
    have hgn : g ≠ [] := by
      obtain ⟨s, hs⟩ := List.exists_mem_of_ne_nil f hf.nonempty
      obtain ⟨n, hn⟩ := ho_mem (hf.halfOpen s hs)
      have hfn : f.eval val n = .ok (s.2.eval (val n)) := (eval_ok_iff hf.disj).2 ⟨s, hs, hn, rfl⟩
      have := hev n
      rw [hfn] at this
      rintro rfl
      cases this
    have hgcov : ∀ n, g.Covers n → f.Covers n := by
      rintro n ⟨t, ht, hm⟩
      have h3 : g.eval val n = .ok (t.2.eval (val n)) := (eval_ok_iff hgd).2 ⟨t, ht, hm, rfl⟩
      rw [hev n] at h3
      cases h4 : f.eval val n with
      | error e => rw [h4] at h3; cases h3
      | ok v =>
        obtain ⟨s, hs, hm', -⟩ := (eval_ok_iff hf.disj).1 h4
        exact ⟨s, hs, hm'⟩
    -- a line on a piece that contains two floats of a constant piece
    have htwo : ∀ t ∈ g, ∀ s ∈ f, ∀ n : ℤ, t.1.Mem (fin n) → t.1.Mem (fin (n + 1)) → s.1.Mem (fin n) →
        s.1.Mem (fin (n + 1)) → (∃ v, s.2 = .const v) → ∃ v, t.2 = .const v := by
      intro t ht s hs n a1 a2 a3 a4 hsv
      obtain ⟨v, hsv⟩ := hsv
      rcases hPg t ht with h | ⟨m, c, h, hm⟩
      · exact h
      · exfalso
        have key : ∀ k : ℤ, t.1.Mem (fin k) → s.1.Mem (fin k) → m * val k + c = -v := by
          intro k b1 b2
          have h3 : g.eval val k = .ok (t.2.eval (val k)) := (eval_ok_iff hgd).2 ⟨t, ht, b1, rfl⟩
          have h4 : f.eval val k = .ok (s.2.eval (val k)) := (eval_ok_iff hf.disj).2 ⟨s, hs, b2, rfl⟩
          rw [hev k, h4, hsv, h] at h3
          simp only [Fn.eval, Except.map, Option.map_some, Except.ok.injEq, Option.some.injEq] at h3
          exact h3.symm
        have e1 := key n a1 a3
        have e2 := key (n + 1) a2 a4
        have e3 : val n < val (n + 1) := hv (by omega)
        have e4 : m * (val (n + 1) - val n) = 0 := by linarith
        rcases mul_eq_zero.1 e4 with h | h
        · exact hm h
        · linarith
    refine ⟨g, hg0, ⟨hgn, hgh, hgd, ?_⟩, ?_, ?_, hev⟩
    · intro s hs
      rcases hPg s hs with h | ⟨m, c, h, -⟩
      · exact .inl h
      · exact .inr ⟨m, c, h⟩
    · intro t ht hun
      have htm := fun n => (hgh t ht).mem_iff n
      obtain ⟨n, hn⟩ := ho_mem (hgh t ht)
      have hn' := (htm n).1 hn
      rcases hun with hlow | hup
      · obtain ⟨B, hB⟩ := low_bound f
        have hmem : ∀ k, k ≤ n → t.1.Mem (fin k) := by
          intro k hk
          rw [htm, hlow]
          exact ⟨ninf_le _, lt_of_le_of_lt (by simp [FP.le_def, leb]; omega) hn'.2⟩
        obtain ⟨s, hs, hsm⟩ := hgcov (min B n) ⟨t, ht, hmem _ (min_le_right _ _)⟩
        have hso := (hf.halfOpen s hs).mem_iff
        have hsm' := (hso _).1 hsm
        have hsl : s.1.lower = ninf := by
          cases hl : s.1.lower with
          | ninf => rfl
          | pinf => rw [hl] at hsm'; exact absurd hsm'.1 (by simp [FP.le_def, leb])
          | fin a =>
            have h5 := hB s hs a hl
            rw [hl] at hsm'
            have h6 := hsm'.1
            simp [FP.le_def, leb] at h6
            omega
        refine htwo t ht s hs (min B n - 1) (hmem _ (by omega)) (hmem _ (by omega)) ?_ ?_ (hfe s hs (.inl hsl))
        · rw [hso, hsl]
          exact ⟨ninf_le _, lt_trans (by simp [FP.lt_def, leb]) hsm'.2⟩
        · rw [sub_add_cancel]
          exact hsm
      · obtain ⟨B, hB⟩ := high_bound f
        have hmem : ∀ k, n ≤ k → t.1.Mem (fin k) := by
          intro k hk
          rw [htm, hup]
          exact ⟨le_trans hn'.1 (by simp [FP.le_def, leb]; omega), by simp [FP.lt_def, leb]⟩
        obtain ⟨s, hs, hsm⟩ := hgcov (max B n) ⟨t, ht, hmem _ (le_max_right _ _)⟩
        have hso := (hf.halfOpen s hs).mem_iff
        have hsm' := (hso _).1 hsm
        have hsl : s.1.upper = pinf := by
          cases hl : s.1.upper with
          | pinf => rfl
          | ninf => rw [hl] at hsm'; exact absurd hsm'.2 (by simp [FP.lt_def, leb])
          | fin a =>
            have h5 := hB s hs a hl
            rw [hl] at hsm'
            have h6 := hsm'.2
            simp [FP.lt_def, leb] at h6
            omega
        refine htwo t ht s hs (max B n) (hmem _ (by omega)) (hmem _ (by omega)) hsm ?_ (hfe s hs (.inr hsl))
        rw [hso, hsl]
        exact ⟨le_trans hsm'.1 (by simp [FP.le_def, leb]), by simp [FP.lt_def, leb]⟩
    · intro hst
      refine simplify_fns (P := fun fn => ∃ v, fn = .const v) ?_ hg
      intro s hs
      obtain ⟨s', hs', -, e⟩ := forall₂_mem_right hq2 hs
      obtain ⟨v, e'⟩ := hst s' hs'
      rw [e'] at e
      simp only [Fn.times, Fn.mul, Except.map, Fn.simplify, Except.ok.injEq] at e
      exact ⟨_, e.symm⟩

theorem absolute_value (hv : StrictMono val) (hr : Nearest val rnd) (hf : f.Lines) (hfe : f.ConstEnds) (hb : f.Bounded) :
    ∃ r, absolute val rnd f = .ok r ∧
      (∀ n x, f.eval val n = .ok (some x) → r.eval val n = .ok (some |x|) ∨ (¬ f.Steps ∧
          ∃ k x', (k = n + 1 ∨ k = n - 1) ∧ f.eval val k = .ok (some x') ∧ x * x' ≤ 0 ∧
            (r.eval val n = .ok (some x) ∨ r.eval val n = .ok (some (-x))))) ∧
      (∀ n, (∃ v, r.eval val n = .ok v) ↔ ∃ v, f.eval val n = .ok v) := by
  obtain ⟨g, h1, hg, hge, hgs, hev⟩ := negated hv hf hfe
  have hdef : ∀ n, (∃ v, g.eval val n = .ok v) ↔ ∃ v, f.eval val n = .ok v := by
    intro n
    rw [hev]
    cases f.eval val n <;> simp [Except.map]
  have hcov : ∀ (p : PF), p.Disj → ∀ n, (∃ v, p.eval val n = .ok v) ↔ p.Covers n := by
    intro p hp n
    constructor
    · rintro ⟨v, h⟩
      obtain ⟨s, hs, hm, -⟩ := (eval_ok_iff hp).1 h
      exact ⟨s, hs, hm⟩
    · rintro ⟨s, hs, hm⟩
      exact ⟨_, (eval_ok_iff hp).2 ⟨s, hs, hm, rfl⟩⟩
  have hcc : ∀ n, g.Covers n ↔ f.Covers n := fun n => by rw [← hcov g hg.disj, ← hcov f hf.disj, hdef]
  have hconn : f.Connected → g.Connected := by
    intro h a b c hab hbc ha hc'
    rw [hcc] at ha hc' ⊢
    exact h a b c hab hbc ha hc'
  obtain ⟨r, h2, h3, h4⟩ := combine_value .max hv hr hf hg hfe hge hconn (.inl hb)
  refine ⟨r, ?_, ?_, ?_⟩
  · simp only [absolute, h1, bind, Except.bind]
    exact h2
  · intro n x hx
    have hgx : g.eval val n = .ok (some (-x)) := by rw [hev, hx]; rfl
    rcases h3 n x (-x) hx hgx with h | ⟨hns, k, x', y', hk, hx', hy', hp, hor⟩
    · exact .inl h
    · refine .inr ⟨fun h => hns ⟨h, hgs h⟩, k, x', hk, hx', ?_, hor⟩
      have : y' = -x' := by
        have := hev k
        rw [hx', hy'] at this
        simpa [Except.map] using this
      subst this
      nlinarith
  · intro n
    rw [h4, hdef, and_self]

/-- The absolute value of a step function is pointwise and defined exactly where the function is. -/
theorem C100_abs_steps (hv : StrictMono val) (hr : Nearest val rnd) (hf : f.Lines) (hfs : f.Steps) (hb : f.Bounded) :
    ∃ r, absolute val rnd f = .ok r ∧ (∀ n x, f.eval val n = .ok (some x) → r.eval val n = .ok (some |x|)) ∧
      (∀ n, (∃ v, r.eval val n = .ok v) ↔ ∃ v, f.eval val n = .ok v) := by
  obtain ⟨r, h1, h2, h3⟩ := absolute_value hv hr hf hfs.constEnds hb
  refine ⟨r, h1, fun n x hx => ?_, h3⟩
  rcases h2 n x hx with h | ⟨h, -⟩
  · exact h
  · exact absurd hfs h

example : absolute ival irnd [(co 0 2, .const (-2)), (co 4 6, .const 3), (⟨fin 6, pinf, .inc, .exc⟩, .const (-3))] =
    .ok [(co 0 2, .const 2), (⟨fin 4, pinf, .inc, .exc⟩, .const 3)] := by decide +kernel

/-- With lines, the absolute value at a float is right unless the function has a zero between this float and a neighbour,
where its sign may be wrong.  Missing: that the sign is always right (`C100_violated_abs`). -/
theorem C100_abs_lines_partial (hv : StrictMono val) (hr : Nearest val rnd) (hf : f.Lines) (hfe : f.ConstEnds)
    (hb : f.Bounded) :
    ∃ r, absolute val rnd f = .ok r ∧
      (∀ n x, f.eval val n = .ok (some x) → r.eval val n = .ok (some |x|) ∨
          ∃ k x', (k = n + 1 ∨ k = n - 1) ∧ f.eval val k = .ok (some x') ∧ x * x' ≤ 0 ∧
            (r.eval val n = .ok (some x) ∨ r.eval val n = .ok (some (-x)))) ∧
      (∀ n, (∃ v, r.eval val n = .ok v) ↔ ∃ v, f.eval val n = .ok v) := by
  obtain ⟨r, h1, h2, h3⟩ := absolute_value hv hr hf hfe hb
  refine ⟨r, h1, fun n x hx => ?_, h3⟩
  rcases h2 n x hx with h | ⟨-, h⟩
  · exact .inl h
  · exact .inr h

example : absolute ival irnd [(co 0 10, .lin 1 (-3))] = .ok [(co 0 3, .lin (-1) 3), (co 3 10, .lin 1 (-3))] := by
  decide +kernel

/-- An absolute value that is negative. -/
theorem C100_violated_abs : (absolute ival irnd [(co 0 10, .lin 1 (-1 / 4))]).bind (fun r => r.eval ival 0) =
    .ok (some (-1 / 4)) := by decide +kernel

end PF

end Verif.Fun
