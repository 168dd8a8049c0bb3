import Verif.Common
import Mathlib.Data.List.Basic
import Mathlib.Data.List.Nodup

/-!
# Python dictionaries

A `dict` is the list of its items in insertion order.  Keys occur at most once (`Dict.WF`).
-/

namespace Verif.Dict

variable {K B : Type} [DecidableEq K]

/-- `d[k] = b`: an existing key keeps its position. -/
def set (d : List (K × B)) (k : K) (b : B) : List (K × B) :=
  if k ∈ d.map Prod.fst then d.map fun p => if p.1 = k then (p.1, b) else p else d ++ [(k, b)]

/-- `d[k]`; `KeyError` if absent. -/
def get (d : List (K × B)) (k : K) : Except Err B :=
  match d.lookup k with
  | none => .error .keyError
  | some b => .ok b

/-- `del d[k]`; `KeyError` if absent. -/
def del (d : List (K × B)) (k : K) : Except Err (List (K × B)) :=
  if k ∈ d.map Prod.fst then .ok (d.filter fun p => decide (p.1 ≠ k)) else .error .keyError

/-- `d.update(e)`. -/
def update (d e : List (K × B)) : List (K × B) := e.foldl (fun d p => set d p.1 p.2) d

/-- No key twice. -/
def WF (d : List (K × B)) : Prop := (d.map Prod.fst).Nodup

theorem lookup_none {d : List (K × B)} {k : K} : d.lookup k = none ↔ k ∉ d.map Prod.fst := by
  induction d with
  | nil => simp
  | cons p d ih =>
    obtain ⟨l, b⟩ := p
    rw [List.lookup_cons]
    by_cases h : k = l
    · subst h; simp
    · have hb : (k == l) = false := by simpa using h
      rw [hb]
      simp only [ih, List.map_cons, List.mem_cons, h, false_or]

theorem lookup_isSome {d : List (K × B)} {k : K} : (∃ b, d.lookup k = some b) ↔ k ∈ d.map Prod.fst := by
  rw [← Option.isSome_iff_exists, Option.isSome_iff_ne_none, ne_eq, lookup_none, Classical.not_not]

theorem lookup_mem {d : List (K × B)} {k : K} {b : B} (h : d.lookup k = some b) : (k, b) ∈ d := by
  induction d with
  | nil => simp at h
  | cons p d ih =>
    obtain ⟨l, c⟩ := p
    rw [List.lookup_cons] at h
    by_cases hk : k = l
    · subst hk
      simp at h
      subst h
      exact List.mem_cons_self
    · have hb : (k == l) = false := by simpa using hk
      rw [hb] at h
      exact List.mem_cons_of_mem _ (ih h)

theorem mem_lookup {d : List (K × B)} (hd : WF d) {k : K} {b : B} (h : (k, b) ∈ d) :
    d.lookup k = some b := by
  induction d with
  | nil => cases h
  | cons p d ih =>
    obtain ⟨l, c⟩ := p
    unfold WF at hd ih
    rw [List.map_cons, List.nodup_cons] at hd
    rw [List.lookup_cons]
    rcases List.mem_cons.1 h with e | h
    · cases e; simp
    · have hk : k ≠ l := fun e => hd.1 (List.mem_map.2 ⟨_, h, e⟩)
      have hb : (k == l) = false := by simpa using hk
      rw [hb]
      exact ih hd.2 h

theorem lookup_append {d e : List (K × B)} {k : K} :
    (d ++ e).lookup k = (d.lookup k).or (e.lookup k) := by
  induction d with
  | nil => simp
  | cons p d ih =>
    obtain ⟨l, b⟩ := p
    rw [List.cons_append, List.lookup_cons, List.lookup_cons]
    by_cases h : k = l
    · subst h; simp
    · have hb : (k == l) = false := by simpa using h
      rw [hb]
      exact ih

theorem keys_set (d : List (K × B)) (k : K) (b : B) :
    (set d k b).map Prod.fst = if k ∈ d.map Prod.fst then d.map Prod.fst else d.map Prod.fst ++ [k] := by
  unfold set
  split_ifs with h
  · rw [List.map_map]
    apply List.map_congr_left
    intro p _
    simp only [Function.comp]
    split_ifs <;> rfl
  · simp

theorem wf_set {d : List (K × B)} (h : WF d) (k : K) (b : B) : WF (set d k b) := by
  unfold WF at *
  rw [keys_set]
  split_ifs with hk
  · exact h
  · exact List.Nodup.append h (by simp) (by simpa using hk)

theorem lookup_set (d : List (K × B)) (k : K) (b : B) (j : K) :
    (set d k b).lookup j = if j = k then some b else d.lookup j := by
  unfold set
  split_ifs with h hj hj
  · subst hj
    induction d with
    | nil => simp at h
    | cons p d ih =>
      obtain ⟨l, c⟩ := p
      rw [List.map_cons]
      by_cases hl : l = j
      · subst hl; simp
      · have hb : (j == l) = false := by simpa using Ne.symm hl
        rw [if_neg hl, List.lookup_cons, hb]
        refine ih ?_
        simpa [Ne.symm hl] using h
  · clear h
    induction d with
    | nil => rfl
    | cons p d ih =>
      obtain ⟨l, c⟩ := p
      rw [List.map_cons]
      by_cases hl : l = k
      · subst hl
        have hb : (j == l) = false := by simpa using hj
        rw [if_pos rfl, List.lookup_cons, List.lookup_cons, hb]
        exact ih
      · rw [if_neg hl, List.lookup_cons, List.lookup_cons]
        by_cases hjl : j = l
        · subst hjl; simp
        · have hb : (j == l) = false := by simpa using hjl
          rw [hb]
          exact ih
  · subst hj
    rw [lookup_append, lookup_none.2 h]; simp
  · have hb : (j == k) = false := by simpa using hj
    rw [lookup_append, List.lookup_cons, hb]; simp

theorem keys_filter (d : List (K × B)) (k : K) :
    (d.filter fun p => decide (p.1 ≠ k)).map Prod.fst = (d.map Prod.fst).filter fun j => decide (j ≠ k) := by
  rw [List.filter_map]; rfl

theorem lookup_filter (d : List (K × B)) (k j : K) :
    (d.filter fun p => decide (p.1 ≠ k)).lookup j = if j = k then none else d.lookup j := by
  split_ifs with h
  · subst h
    rw [lookup_none, keys_filter]
    simp
  · induction d with
    | nil => rfl
    | cons p d ih =>
      obtain ⟨l, c⟩ := p
      rw [List.filter_cons]
      by_cases hl : l = k
      · subst hl
        have hb : (j == l) = false := by simpa using h
        simp only [ne_eq, not_true_eq_false, decide_false, Bool.false_eq_true, if_false]
        rw [List.lookup_cons, hb]
        exact ih
      · simp only [ne_eq, hl, not_false_eq_true, decide_true, if_true]
        rw [List.lookup_cons, List.lookup_cons]
        by_cases hjl : j = l
        · subst hjl; simp
        · have hb : (j == l) = false := by simpa using hjl
          rw [hb]
          exact ih

theorem wf_filter {d : List (K × B)} (h : WF d) (k : K) : WF (d.filter fun p => decide (p.1 ≠ k)) := by
  unfold WF at *
  rw [keys_filter]
  exact h.filter _

theorem wf_update {d e : List (K × B)} (h : WF d) : WF (update d e) := by
  unfold update
  induction e generalizing d with
  | nil => exact h
  | cons p e ih => exact ih (wf_set h _ _)

theorem lookup_update {d e : List (K × B)} (he : WF e) (k : K) :
    (update d e).lookup k = (e.lookup k).or (d.lookup k) := by
  unfold update
  induction e generalizing d with
  | nil => simp
  | cons p e ih =>
    obtain ⟨l, b⟩ := p
    unfold WF at he ih
    rw [List.map_cons, List.nodup_cons] at he
    rw [List.foldl_cons, ih he.2, lookup_set, List.lookup_cons]
    by_cases hk : k = l
    · subst hk
      rw [lookup_none.2 he.1]; simp
    · have hb : (k == l) = false := by simpa using hk
      rw [hb, if_neg hk]

theorem keys_update {d e : List (K × B)} (he : WF e) :
    (update d e).map Prod.fst = d.map Prod.fst ++ (e.map Prod.fst).filter fun k => decide (k ∉ d.map Prod.fst) := by
  unfold update
  induction e generalizing d with
  | nil => simp
  | cons p e ih =>
    obtain ⟨l, b⟩ := p
    unfold WF at he ih
    rw [List.map_cons, List.nodup_cons] at he
    rw [List.foldl_cons, ih he.2, keys_set, List.map_cons, List.filter_cons]
    by_cases hl : l ∈ d.map Prod.fst
    · simp only [hl, if_true, not_true_eq_false, decide_false, Bool.false_eq_true, if_false]
    · simp only [hl, if_false, not_false_eq_true, decide_true, if_true]
      rw [List.append_assoc, List.singleton_append]
      congr 2
      apply List.filter_congr
      intro k hk
      have : k ≠ l := fun e => he.1 (e ▸ hk)
      simp [this]

theorem get_eq {d : List (K × B)} {k : K} :
    get d k = match d.lookup k with | none => .error .keyError | some b => .ok b := rfl

end Verif.Dict
