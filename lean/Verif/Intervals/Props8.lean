import Verif.Intervals.Asked
import Verif.Intervals.Lemmas5

/-!
# C127: queries and the sets they are about
-/

namespace Verif.Iv.RS

open FP

/-! ## Specification -/

/-- Intervals with bounds in order, infinite bounds open, and no interval with points below all points of an earlier one. -/
def InOrder (l : List CS) : Prop := (∀ s ∈ l, s.WF ∧ s.Reg) ∧ l.Pairwise CS.NotBelow

/-! ## Lemmas -/

theorem receiverLoop_mem (f : CS) {x : FP} : ∀ (t : List CS) (last : CS), last.Mem x → (∀ s ∈ t, ∃ y, s.Mem y ∧ x < y) →
    (receiverLoop f last true t).Mem x
  | [], last, h, _ => by simpa [receiverLoop] using h
  | s :: t, last, h, ht => by
    simp only [receiverLoop]
    split_ifs
    · refine receiverLoop_mem f t _ ?_ (fun s hs => ht s (List.mem_cons_of_mem _ hs))
      obtain ⟨y, hy, hxy⟩ := ht s List.mem_cons_self
      revert h hy
      simp only [CS.Mem]
      grind
    · exact h

theorem receiverLoop_head (f : CS) : ∀ (t : List CS) (last : CS), ∃ rest,
    mergeLoop last t = receiverLoop f last true t :: rest
  | [], last => ⟨[], by simp [mergeLoop, receiverLoop]⟩
  | s :: t, last => by
    simp only [mergeLoop, receiverLoop]
    split_ifs
    · exact receiverLoop_head f t _
    · exact ⟨_, rfl⟩

theorem receiverLoop_reg (f : CS) : ∀ (t : List CS) (last : CS), last.Reg → (∀ s ∈ t, s.Reg) →
    (receiverLoop f last true t).Reg
  | [], last, h, _ => by simpa [receiverLoop] using h
  | s :: t, last, h, ht => by
    simp only [receiverLoop]
    have hs := ht s List.mem_cons_self
    split_ifs
    · refine receiverLoop_reg f t _ ?_ (fun s hs => ht s (List.mem_cons_of_mem _ hs))
      exact ⟨h.1, hs.2.1, h.2.2.1, hs.2.2.2⟩
    · exact h

theorem afterSimplify_spec {l : List CS} (hl : InOrder l) :
    (∀ x, RS.Mem (afterSimplify l) x ↔ RS.Mem l x) ∧ InOrder (afterSimplify l) := by
  cases l with
  | nil => simp [afterSimplify, hl]
  | cons f t =>
    have same : (∀ x, RS.Mem (f :: t) x ↔ RS.Mem (f :: t) x) ∧ InOrder (f :: t) := ⟨fun _ => Iff.rfl, hl⟩
    cases hd : disjointify (2 ^ (f :: t).length) (f :: t) with
    | error e =>
      have : afterSimplify (f :: t) = f :: t := by
        simp only [afterSimplify, simplifyReceiver, hd, bind, Except.bind]
      rw [this]; exact same
    | ok d =>
      obtain ⟨i1, i2, i3⟩ := disjointify_spec _ hl.1 hd
      have hnb := disjointify_notBelow _ hl.1 hl.2 hd
      have hbef : d.Pairwise Before := hnb.imp₂ (fun a b => before_of) i3
      have hsorted : sortUpper d = d := by
        apply sortUpper_eq
        have : d.Pairwise (fun a b => a ∈ d ∧ b ∈ d ∧ Before a b) :=
          List.Pairwise.and_mem.1 hbef
        exact this.imp (fun {a b} h => upper_le_of_before (i2 a h.1) (i2 b h.2.1) h.2.2)
      obtain ⟨n, hn⟩ : ∃ n, 2 ^ (f :: t).length = n + 1 := ⟨2 ^ (f :: t).length - 1, by
        have := Nat.one_le_two_pow (n := (f :: t).length); omega⟩
      have hd' := hd
      rw [hn] at hd'
      obtain ⟨ds, r, -, -, hdr⟩ := disjointify_cons hd'
      by_cases hf : f.isempty = true
      · have : afterSimplify (f :: t) = f :: t := by
          simp only [afterSimplify, simplifyReceiver, hd, bind, Except.bind, List.head?_cons, hsorted]
          cases d with
          | nil => rfl
          | cons a d => simp [hf]
        rw [this]; exact same
      · rw [if_neg hf] at hdr
        subst hdr
        have hafter : afterSimplify (f :: t) = receiverLoop f f true r :: t := by
          simp only [afterSimplify, simplifyReceiver, hd, bind, Except.bind, List.head?_cons, hsorted]
          simp [hf]
        rw [hafter]
        obtain ⟨rest, hrest⟩ := receiverLoop_head f r f
        have hw : ∀ s ∈ f :: r, s.WF ∧ s.isempty = false := fun s hs => ⟨(i2 s hs).1, (i2 s hs).2.2⟩
        obtain ⟨j1, j2, j3⟩ := mergeLoop_spec r f hw hbef
        rw [hrest] at j1 j2
        have hsub : ∀ x, f.Mem x → (receiverLoop f f true r).Mem x := by
          intro x hx
          refine receiverLoop_mem f r f hx ?_
          intro s hs
          obtain ⟨y, hy⟩ := CS.exists_mem (hw s (List.mem_cons_of_mem _ hs)).1 (hw s (List.mem_cons_of_mem _ hs)).2
          exact ⟨y, hy, (List.pairwise_cons.1 hbef).1 s hs x y hx hy⟩
        refine ⟨?_, ?_, ?_⟩
        · intro x
          constructor
          · rintro ⟨s, hs, hx⟩
            rcases List.mem_cons.1 hs with rfl | hs
            · exact (i1 x).1 ((j1 x).1 ⟨_, List.mem_cons_self, hx⟩)
            · exact ⟨s, List.mem_cons_of_mem _ hs, hx⟩
          · rintro ⟨s, hs, hx⟩
            rcases List.mem_cons.1 hs with rfl | hs
            · exact ⟨_, List.mem_cons_self, hsub x hx⟩
            · exact ⟨s, List.mem_cons_of_mem _ hs, hx⟩
        · intro s hs
          rcases List.mem_cons.1 hs with rfl | hs
          · exact ⟨(j2 _ List.mem_cons_self).1, receiverLoop_reg f r f (i2 f List.mem_cons_self).2.1
              (fun s hs => (i2 s (List.mem_cons_of_mem _ hs)).2.1)⟩
          · exact hl.1 s (List.mem_cons_of_mem _ hs)
        · obtain ⟨p1, p2⟩ := List.pairwise_cons.1 hl.2
          refine List.pairwise_cons.2 ⟨?_, p2⟩
          intro s hs y hy _
          obtain ⟨z, hz⟩ := CS.exists_mem (hw f List.mem_cons_self).1 (hw f List.mem_cons_self).2
          obtain ⟨x, hx, hxy⟩ := p1 s hs y hy ⟨z, hz⟩
          exact ⟨x, hsub x hx, hxy⟩

/-! ## Theorems -/

/-- C127 for sets whose intervals are in order: whatever is asked about them, and however often, they have the same members
afterwards.  Missing: that the intervals stay the same, and sets whose intervals are not in order; for both this is false. -/
theorem C127_history_partial : ∀ (asks : List Ask) (l : List CS), InOrder l → ∀ x,
    RS.Mem (asks.foldl (fun l a => ask a l) l) x ↔ RS.Mem l x
  | [], _, _, _ => Iff.rfl
  | a :: asks, l, hl, x => by
    have step : (∀ x, RS.Mem (ask a l) x ↔ RS.Mem l x) ∧ InOrder (ask a l) := by
      cases a with
      | simplify => exact afterSimplify_spec hl
      | size => exact afterSimplify_spec hl
      | equals o =>
        simp only [ask]
        split_ifs
        · exact ⟨fun _ => Iff.rfl, hl⟩
        · exact afterSimplify_spec hl
      | contains => exact ⟨fun _ => Iff.rfl, hl⟩
    rw [List.foldl_cons, C127_history_partial asks _ step.2 x]
    exact step.1 x

/-- C127: asking whether a number is a member changes nothing, and neither does comparing an empty set with an empty set. -/
theorem C127_unchanged (l : List CS) : ask .contains l = l ∧ ((∀ x, ¬ RS.Mem l x) → (∀ s ∈ l, s.WF) → ask (.equals true) l = l) := by
  refine ⟨rfl, ?_⟩
  intro h hw
  have : isempty l = true := by
    rw [isempty, List.all_eq_true]
    intro s hs
    rw [CS.isempty_iff s (hw s hs)]
    rintro ⟨x, hx⟩
    exact h x ⟨s, hs, hx⟩
  simp [ask, this]

/-- The set `[0, 3] ∪ (3, 5)`. -/
def twoParts : List CS := [⟨fin 0, fin 3, .inc, .inc⟩, ⟨fin 3, fin 5, .exc, .exc⟩]

example : InOrder twoParts := by
  refine ⟨by decide, ?_⟩
  simp only [twoParts, List.pairwise_cons, List.mem_singleton, forall_eq, List.not_mem_nil, false_imp_iff,
    implies_true, List.Pairwise.nil, and_true]
  intro y hy _
  refine ⟨fin 0, by decide, ?_⟩
  have : (fin 0 : FP) < fin 3 := by decide
  revert hy; simp only [CS.Mem]; grind

/-- Disagreement: comparing a set with another one, or asking for its size, changes its intervals: `[0, 3] ∪ (3, 5)` becomes
`[0, 5) ∪ (3, 5)`, with overlapping intervals. -/
theorem C127_violated_intervals :
    ask (.equals false) twoParts = [⟨fin 0, fin 5, .inc, .exc⟩, ⟨fin 3, fin 5, .exc, .exc⟩] ∧
    ask .size twoParts = ask (.equals false) twoParts := by
  decide +kernel

/-- Disagreement: if the intervals are not in order, comparing a set with another one can remove a member from it: 1 is a member
of `{1} ∪ [0, 1)` before, but not afterwards. -/
theorem C127_violated_member :
    containsValue [⟨fin 1, fin 1, .inc, .inc⟩, ⟨fin 0, fin 1, .inc, .exc⟩] (fin 1) = true ∧
    containsValue (ask (.equals false) [⟨fin 1, fin 1, .inc, .inc⟩, ⟨fin 0, fin 1, .inc, .exc⟩]) (fin 1) = false := by
  decide +kernel

end Verif.Iv.RS
