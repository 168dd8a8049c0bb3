import Mathlib.Data.List.Forall2
import Verif.Common

/-! # General lemmas about lists and `Except` -/

namespace Verif

/-- `mapM` in `Except` succeeds exactly when every call succeeds. -/
theorem mapM_ok_iff {α β : Type} (f : α → Except Err β) :
    ∀ (l : List α) (r : List β), l.mapM f = .ok r ↔ List.Forall₂ (fun a b => f a = .ok b) l r
  | [], r => by cases r <;> simp [pure, Except.pure]
  | a :: l, r => by
    rw [List.mapM_cons]
    cases hf : f a with
    | error e => cases r <;> simp [bind, Except.bind, hf]
    | ok b =>
      cases hl : l.mapM f with
      | error e =>
        cases r with
        | nil => simp [bind, Except.bind]
        | cons c r =>
          simp only [bind, Except.bind, reduceCtorEq, false_iff, List.forall₂_cons, not_and]
          intro _ h
          rw [← mapM_ok_iff f l r, hl] at h
          cases h
      | ok bs =>
        have := mapM_ok_iff f l
        cases r with
        | nil => simp [bind, Except.bind, pure, Except.pure]
        | cons c r =>
          simp only [bind, Except.bind, pure, Except.pure, Except.ok.injEq, List.cons.injEq,
            List.forall₂_cons, hf]
          rw [← this r, hl, Except.ok.injEq]

/-- `mapM` in `Except` fails exactly with the failure of its first failing call. -/
theorem mapM_error {α β : Type} (f : α → Except Err β) (e : Err) :
    ∀ (l : List α), l.mapM f = .error e → ∃ a ∈ l, f a = .error e
  | [], h => by simp [pure, Except.pure] at h
  | a :: l, h => by
    rw [List.mapM_cons] at h
    cases hf : f a with
    | error e' =>
      simp only [hf, bind, Except.bind] at h
      cases h
      exact ⟨a, by simp, hf⟩
    | ok b =>
      cases hl : l.mapM f with
      | error e' =>
        simp only [hf, hl, bind, Except.bind] at h
        cases h
        obtain ⟨a', ha', h'⟩ := mapM_error f e l hl
        exact ⟨a', by simp [ha'], h'⟩
      | ok bs => simp [hf, hl, bind, Except.bind, pure, Except.pure] at h

/-- Every element on the right of a `Forall₂` has a partner on the left. -/
theorem forall₂_mem_right {α β : Type} {R : α → β → Prop} {l : List α} {r : List β}
    (h : List.Forall₂ R l r) {b : β} (hb : b ∈ r) : ∃ a ∈ l, R a b := by
  induction h with
  | nil => simp at hb
  | cons h1 _ ih =>
    rcases List.mem_cons.1 hb with rfl | hb
    · exact ⟨_, by simp, h1⟩
    · obtain ⟨a, ha, h⟩ := ih hb
      exact ⟨a, by simp [ha], h⟩

/-- Splitting a `Forall₂` along an append on the left. -/
theorem forall₂_append_left {α β : Type} {R : α → β → Prop} :
    ∀ {a b : List α} {ds : List β}, List.Forall₂ R (a ++ b) ds →
    ∃ d1 d2, ds = d1 ++ d2 ∧ List.Forall₂ R a d1 ∧ List.Forall₂ R b d2
  | [], _, ds, h => ⟨[], ds, rfl, .nil, h⟩
  | _ :: _, _, d :: _, .cons h hs => by
    obtain ⟨d1, d2, rfl, h1, h2⟩ := forall₂_append_left hs
    exact ⟨d :: d1, d2, rfl, .cons h h1, h2⟩

end Verif
