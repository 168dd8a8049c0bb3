import Verif.Intervals.Lemmas9

/-! # Simplifying disjoint intervals never raises -/

namespace Verif.Iv
open FP
namespace RS

/-- No common member. -/
def Apart (a b : CS) : Prop := ∀ x, a.Mem x → ¬ b.Mem x

theorem difference_apart {s o : CS} (hs : Good s) (ho : Good o) (h : Apart s o) :
    ∃ c, s.difference o = .ok (.cs c) ∧ Good c ∧ ∀ x, c.Mem x → s.Mem x := by
  have hno : o.isempty = false → s.containsInterval o true = true → False := by
    intro he hc
    obtain ⟨x, hx⟩ := CS.exists_mem ho.1 he
    exact h x (CS.containsInterval_sound hc hx) hx
  cases hd : s.difference o with
  | error e =>
    obtain ⟨-, he, -, hc, -⟩ := (CS.difference_error hs.1 e).1 hd
    exact (hno he hc).elim
  | ok d =>
    obtain ⟨h1, h2, h3⟩ := CS.difference_mem hs.1 ho.1 hs.2 ho.2 hd
    cases d with
    | cs c => exact ⟨c, rfl, ⟨h2, h3⟩, fun x hx => ((h1 x).1 hx).1⟩
    | rs l =>
      exfalso
      unfold CS.difference at hd
      rw [CS.mk?_self hs.1] at hd
      by_cases he : o.isempty = true
      · rw [if_pos he] at hd; cases hd
      · rw [if_neg he] at hd
        by_cases hc : o.containsInterval s = true
        · rw [if_pos hc] at hd; cases hd
        · rw [if_neg hc] at hd
          by_cases hp : s.containsInterval o true = true
          · exact hno (by simpa using he) hp
          · rw [if_neg hp] at hd
            simp only [bind, Except.bind] at hd
            split_ifs at hd <;> cases hd

theorem disjointify_apart : ∀ (n : ℕ) (l : List CS), (∀ s ∈ l, Good s) → l.Pairwise Apart →
    ∀ e, disjointify n l = .error e → e = .outOfFuel
  | 0, [], _, _, e, h => by cases h
  | n + 1, [], _, _, e, h => by cases h
  | 0, _ :: _, _, _, e, h => by cases h; rfl
  | n + 1, a :: t, hl, hp, e, h => by
    rw [List.pairwise_cons] at hp
    have hds : ∃ cs : List CS, t.mapM (fun s => s.difference a) = .ok (cs.map NS.cs) ∧
        List.Forall₂ (fun s c => Good c ∧ ∀ x, c.Mem x → s.Mem x) t cs := by
      have hl' : ∀ s ∈ t, Good s ∧ Apart s a := fun s hs =>
        ⟨hl s (List.mem_cons_of_mem _ hs), fun x hx hx' => hp.1 s hs x hx' hx⟩
      have ha := hl a (by simp)
      clear hl hp h
      induction t with
      | nil => exact ⟨[], rfl, .nil⟩
      | cons s t ih =>
        obtain ⟨cs, h1, h2⟩ := ih (fun s hs => hl' s (List.mem_cons_of_mem _ hs))
        obtain ⟨c, h3, h4⟩ := difference_apart (hl' s (by simp)).1 ha (hl' s (by simp)).2
        refine ⟨c :: cs, ?_, .cons h4 h2⟩
        rw [List.mapM_cons, h3, h1]
        rfl
    obtain ⟨cs, h1, h2⟩ := hds
    have hflat : ((cs.map NS.cs).map pieces).flatten = cs := by
      clear h1 h2
      induction cs with
      | nil => rfl
      | cons c cs ih => simpa [pieces] using ih
    simp only [disjointify, h1, hflat, bind, Except.bind] at h
    have hp' : cs.Pairwise Apart := by
      have hp2 := hp.2
      clear h h1 hflat hl hp
      induction h2 with
      | nil => exact .nil
      | @cons a' b' l₁ l₂ hc ht ih =>
        rw [List.pairwise_cons] at hp2 ⊢
        refine ⟨?_, ih hp2.2⟩
        intro d hd x hx hx'
        obtain ⟨i, hi, e⟩ := List.mem_iff_getElem.1 hd
        have hi' : i < l₁.length := by rw [ht.length_eq]; exact hi
        have := ht.get hi' hi
        simp only [List.get_eq_getElem] at this
        rw [← e] at hx'
        exact hp2.1 _ (List.getElem_mem hi') x (hc.2 x hx) (this.2 x hx')
    have hg : ∀ s ∈ cs, Good s := by
      intro d hd
      obtain ⟨i, hi, e⟩ := List.mem_iff_getElem.1 hd
      have hi' : i < t.length := by rw [h2.length_eq]; exact hi
      have := h2.get hi' hi
      simp only [List.get_eq_getElem] at this
      rw [← e]
      exact this.1
    cases hr : disjointify n cs with
    | error e' =>
      rw [hr] at h
      cases h
      exact disjointify_apart n cs hg hp' e hr
    | ok r => rw [hr] at h; cases h

/-- Disjoint intervals are simplified without an exception. -/
theorem simplify_apart {l : List CS} (hl : ∀ s ∈ l, Good s) (hp : l.Pairwise Apart) : ∃ D, simplify l = .ok D := by
  cases hd : disjointify (2 ^ l.length) l with
  | error e =>
    have := disjointify_apart _ l hl hp e hd
    subst this
    exact absurd hd (disjointify_terminates hl)
  | ok d =>
    unfold simplify simplifyList
    simp only [hd, bind, Except.bind]
    cases sortUpper d with
    | nil => exact ⟨_, rfl⟩
    | cons a t =>
      simp only
      cases h : mergeLoop a t with
      | nil => exact ⟨_, rfl⟩
      | cons b t' => cases t' <;> exact ⟨_, rfl⟩

theorem apart_of_before {a b : CS} (h : Before a b) : Apart a b := fun x hx hx' => absurd (h x x hx hx') (lt_irrefl x)

end RS
end Verif.Iv
