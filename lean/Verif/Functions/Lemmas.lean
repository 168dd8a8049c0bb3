import Verif.Functions.Spec
import Verif.Intervals.Lemmas10
import Mathlib.Tactic.Ring
import Mathlib.Tactic.FieldSimp
import Mathlib.Tactic.LinearCombination

/-!
# Lemmas about single functions
-/

namespace Verif.Fun

open Iv Iv.FP

namespace Fn

theorem simplify_eval (f : Fn) (x : ℚ) : f.simplify.eval x = f.eval x := by
  cases f with
  | undef => rfl
  | const v => rfl
  | lin m c => simp only [simplify]; split <;> simp_all [eval]
  | quad a b c =>
    simp only [simplify]; split
    · split <;> simp_all [eval]
    · rfl

theorem add_eval {f g h : Fn} (e : f.add g = .ok h) (x : ℚ) :
    h.eval x = nanOp (· + ·) (f.eval x) (g.eval x) := by
  cases f <;> cases g <;> simp only [add, Except.ok.injEq, reduceCtorEq] at e <;> subst e <;>
    simp only [eval, nanOp, Option.some.injEq] <;> ring

theorem mul_eval {f g h : Fn} (e : f.mul g = .ok h) (x : ℚ) :
    h.eval x = nanOp (· * ·) (f.eval x) (g.eval x) := by
  cases f <;> cases g <;> simp only [mul, Except.ok.injEq, reduceCtorEq] at e <;> subst e <;>
    (try rw [simplify_eval]) <;> simp only [eval, nanOp, Option.some.injEq]
  case const.const v w =>
    split
    · rename_i h; rcases h with h | h <;> simp [h]
    · rfl
  all_goals ring

theorem plus_eval {f g h : Fn} (e : f.plus g = .ok h) (x : ℚ) :
    h.eval x = nanOp (· + ·) (f.eval x) (g.eval x) := by
  unfold plus at e
  cases h' : f.add g with
  | error er => simp [h', Except.map] at e
  | ok k =>
    simp only [h', Except.map, Except.ok.injEq] at e
    rw [← e, simplify_eval, add_eval h']

theorem times_eval {f g h : Fn} (e : f.times g = .ok h) (x : ℚ) :
    h.eval x = nanOp (· * ·) (f.eval x) (g.eval x) := by
  unfold times at e
  cases h' : f.mul g with
  | error er => simp [h', Except.map] at e
  | ok k =>
    simp only [h', Except.map, Except.ok.injEq] at e
    rw [← e, simplify_eval, mul_eval h']

theorem eq_eval {f g : Fn} (e : f.eq g = .ok true) (x : ℚ) : f.eval x = g.eval x := by
  cases f <;> cases g <;> simp_all [eq, eval]

theorem eq_self (f : Fn) : f.eq f = .ok true := by cases f <;> simp [eq]

/-- Two functions compare equal exactly when they have the same values, up to quadratic functions
that are not simplified. -/
theorem eq_of_eval {f g : Fn} (h : ∀ x, f.eval x = g.eval x) (hf : f.simplify = f)
    (hg : g.simplify = g) : f = g := by
  have h0 := h 0
  have h1 := h 1
  have h2 := h (-1)
  cases f <;> cases g <;> simp only [eval, reduceCtorEq, Option.some.injEq] at h0 h1 h2 <;>
    simp only [simplify] at hf hg
  all_goals grind

theorem xshift_eval {f g : Fn} {d : ℚ} (e : f.xshift d = .ok g) (x : ℚ) :
    g.eval x = f.eval (x + d) := by
  cases f <;> simp only [xshift, Except.ok.injEq, reduceCtorEq] at e <;> subst e <;>
    simp only [eval, Option.some.injEq]
  ring

theorem xmirror_eval {f g : Fn} (e : f.xmirror = .ok g) (x : ℚ) : g.eval x = f.eval (-x) := by
  cases f <;> simp only [xmirror, Except.ok.injEq, reduceCtorEq] at e <;> subst e <;>
    simp only [eval, Option.some.injEq]
  ring

theorem fromPoints_hits {p q : ℚ × ℚ} {f : Fn} (e : fromPoints p q = .ok f) :
    f.eval p.1 = some p.2 ∧ f.eval q.1 = some q.2 := by
  unfold fromPoints at e
  split at e
  · simp at e
  · rename_i h1
    split at e
    · rename_i h2
      cases e; simp [eval, h2]
    · rename_i h2
      cases e
      have : q.1 - p.1 ≠ 0 := fun h => h1 (by linear_combination -h)
      simp only [eval, Option.some.injEq]
      constructor <;> field_simp <;> ring

theorem fit_hits {x y z : ℚ × ℚ} {f : Fn} (e : fit x y z = .ok f) :
    f.eval x.1 = some x.2 ∧ f.eval y.1 = some y.2 ∧ f.eval z.1 = some z.2 := by
  unfold fit at e
  simp only at e
  split at e
  · simp at e
  · rename_i h
    cases e
    simp only [eval, Option.some.injEq]
    have h1 : x.1 - y.1 ≠ 0 := fun h' => h (by simp [h'])
    have h2 : x.1 - z.1 ≠ 0 := fun h' => h (by simp [h'])
    have h3 : y.1 - z.1 ≠ 0 := fun h' => h (by simp [h'])
    refine ⟨?_, ?_, ?_⟩ <;> field_simp <;> ring

theorem stretch_eval (f : Fn) (al : ℚ) (x : ℚ) (h : ∀ a b c, f ≠ quad a b c) :
    (f.stretch al).eval x = (f.eval x).map (al * ·) := by
  cases f with
  | quad a b c => exact absurd rfl (h a b c)
  | undef => rfl
  | const v => simp only [stretch, eval, Option.map_some, Option.some.injEq]; ring
  | lin m c => simp only [stretch, eval, Option.map_some, Option.some.injEq]; ring

end Fn
end Verif.Fun
