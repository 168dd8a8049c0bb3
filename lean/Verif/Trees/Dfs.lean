import Mathlib.Logic.Relation
import Mathlib.Data.List.Basic
import Mathlib.Data.List.Nodup
import Mathlib.Data.List.Perm.Subperm

/-!
# Visiting the nodes of a forest

A worklist loop over numbered nodes: the first node is taken from the list and its children are put in
front of the others.
-/

namespace Verif.Trees

/-- The nodes in the order they are taken from the list. -/
def dfs (kids : ℕ → List ℕ) : ℕ → List ℕ → List ℕ
  | 0, _ => []
  | _ + 1, [] => []
  | f + 1, id :: fr => id :: dfs kids f (kids id ++ fr)

/-- From one node to another by going down. -/
def Reach (kids : ℕ → List ℕ) : ℕ → ℕ → Prop := Relation.ReflTransGen (fun a b => b ∈ kids a)

/-- Children have larger numbers, are distinct, and have one parent. -/
structure Forest (kids : ℕ → List ℕ) : Prop where
  lt : ∀ i j, j ∈ kids i → i < j
  nodup : ∀ i, (kids i).Nodup
  parent : ∀ i i' j, j ∈ kids i → j ∈ kids i' → i = i'

/-- No node of the list is below another one. -/
def Apart (kids : ℕ → List ℕ) (fr : List ℕ) : Prop :=
  fr.Nodup ∧ ∀ a ∈ fr, ∀ b ∈ fr, Reach kids a b → a = b

variable {kids : ℕ → List ℕ}

theorem Reach.refl (a : ℕ) : Reach kids a a := Relation.ReflTransGen.refl

theorem Reach.tail {a b c : ℕ} (h : Reach kids a b) (hc : c ∈ kids b) : Reach kids a c :=
  Relation.ReflTransGen.tail h hc

theorem Reach.head {a b c : ℕ} (hb : b ∈ kids a) (h : Reach kids b c) : Reach kids a c :=
  Relation.ReflTransGen.head hb h

theorem Reach.trans {a b c : ℕ} (h : Reach kids a b) (h' : Reach kids b c) : Reach kids a c :=
  Relation.ReflTransGen.trans h h'

theorem Reach.cases_head {a c : ℕ} (h : Reach kids a c) : a = c ∨ ∃ b ∈ kids a, Reach kids b c := by
  rcases Relation.ReflTransGen.cases_head h with h | ⟨b, h1, h2⟩
  · exact .inl h
  · exact .inr ⟨b, h1, h2⟩

theorem Reach.cases_tail {a c : ℕ} (h : Reach kids a c) : c = a ∨ ∃ b, Reach kids a b ∧ c ∈ kids b := by
  rcases Relation.ReflTransGen.cases_tail h with h | ⟨b, h1, h2⟩
  · exact .inl h
  · exact .inr ⟨b, h1, h2⟩

theorem Reach.le (hf : Forest kids) {a b : ℕ} (h : Reach kids a b) : a ≤ b := by
  induction h with
  | refl => exact Nat.le_refl _
  | tail _ hc ih => exact Nat.le_trans ih (Nat.le_of_lt (hf.lt _ _ hc))

/-- A way down to a child passes through its parent. -/
theorem Reach.through (hf : Forest kids) {a k j : ℕ} (h : Reach kids a j) (hj : j ∈ kids k)
    (hne : a ≠ j) : Reach kids a k := by
  rcases h.cases_tail with h | ⟨b, h1, h2⟩
  · exact absurd h.symm hne
  · rw [hf.parent _ _ _ hj h2]
    exact h1

/-- Two nodes above a third one are above each other. -/
theorem Reach.chain (hf : Forest kids) {a b j : ℕ} (h : Reach kids a j) (h' : Reach kids b j) :
    Reach kids a b ∨ Reach kids b a := by
  induction h with
  | refl => exact .inr h'
  | @tail k j h hc ih =>
    by_cases hb : b = j
    · rw [hb]
      exact .inl (h.tail hc)
    · exact ih (h'.through hf hc hb)

/-- Replacing a node by its children keeps the list apart. -/
theorem Apart.step (hf : Forest kids) {id : ℕ} {fr : List ℕ} (h : Apart kids (id :: fr)) :
    Apart kids (kids id ++ fr) := by
  obtain ⟨h1, h2⟩ := h
  have h3 : id ∉ fr := (List.nodup_cons.1 h1).1
  have hcf : ∀ c ∈ kids id, ∀ f ∈ fr, ¬ Reach kids c f := by
    intro c hc f hf' hr
    have := h2 id (by simp) f (by simp [hf']) (Reach.head hc hr)
    exact h3 (this ▸ hf')
  have hfc : ∀ c ∈ kids id, ∀ f ∈ fr, ¬ Reach kids f c := by
    intro c hc f hf' hr
    by_cases he : f = c
    · subst he
      exact hcf f hc f hf' (Reach.refl f)
    · have := h2 f (by simp [hf']) id (by simp) (hr.through hf hc he)
      exact h3 (this ▸ hf')
  refine ⟨?_, ?_⟩
  · rw [List.nodup_append]
    refine ⟨hf.nodup id, (List.nodup_cons.1 h1).2, ?_⟩
    rintro a ha b hb rfl
    exact hcf a ha a hb (Reach.refl a)
  · intro a ha b hb hr
    rcases List.mem_append.1 ha with ha | ha <;> rcases List.mem_append.1 hb with hb | hb
    · by_contra hne
      have h4 := (hr.through hf hb hne).le hf
      have h5 := hf.lt _ _ ha
      omega
    · exact absurd hr (hcf a ha b hb)
    · exact absurd hr (hfc b hb a ha)
    · exact h2 a (by simp [ha]) b (by simp [hb]) hr

/-- What is below the list is the first node and what is below its children and the others. -/
theorem below_step {id : ℕ} {fr : List ℕ} (j : ℕ) :
    (∃ a ∈ id :: fr, Reach kids a j) ↔ j = id ∨ ∃ a ∈ kids id ++ fr, Reach kids a j := by
  constructor
  · rintro ⟨a, ha, h⟩
    rcases List.mem_cons.1 ha with rfl | ha
    · rcases h.cases_head with h | ⟨b, h1, h2⟩
      · exact .inl h.symm
      · exact .inr ⟨b, by simp [h1], h2⟩
    · exact .inr ⟨a, by simp [ha], h⟩
  · rintro (rfl | ⟨a, ha, h⟩)
    · exact ⟨j, by simp, Reach.refl j⟩
    · rcases List.mem_append.1 ha with ha | ha
      · exact ⟨id, by simp, Reach.head ha h⟩
      · exact ⟨a, by simp [ha], h⟩

theorem not_below_step (hf : Forest kids) {id : ℕ} {fr : List ℕ} (h : Apart kids (id :: fr)) :
    ¬ ∃ a ∈ kids id ++ fr, Reach kids a id := by
  rintro ⟨a, ha, hr⟩
  rcases List.mem_append.1 ha with ha | ha
  · have := hr.le hf
    have := hf.lt _ _ ha
    omega
  · have := h.2 a (by simp [ha]) id (by simp) hr
    exact (List.nodup_cons.1 h.1).1 (this ▸ ha)

/-- The loop visits everything below the list once; a list `N` of all nodes below bounds it. -/
theorem dfs_spec (hf : Forest kids) : ∀ (f : ℕ) (fr N : List ℕ), Apart kids fr →
    (∀ j, (∃ a ∈ fr, Reach kids a j) → j ∈ N) → N.length < f →
    (dfs kids f fr).Nodup ∧ ∀ j, j ∈ dfs kids f fr ↔ ∃ a ∈ fr, Reach kids a j := by
  intro f
  induction f with
  | zero => intro fr N _ _ h; omega
  | succ f ih =>
    intro fr N hA hN hlen
    cases fr with
    | nil => simp [dfs]
    | cons id fr =>
      have hid : id ∈ N := hN id ⟨id, by simp, Reach.refl id⟩
      have hnb := not_below_step hf hA
      have hl := List.length_erase_of_mem hid
      have hpos := List.length_pos_of_mem hid
      obtain ⟨h1, h2⟩ := ih (kids id ++ fr) (N.erase id) (hA.step hf) (by
        intro j hj
        have hne : j ≠ id := by
          rintro rfl
          exact hnb hj
        exact (List.mem_erase_of_ne hne).2 (hN j ((below_step j).2 (.inr hj)))) (by omega)
      refine ⟨?_, ?_⟩
      · rw [dfs, List.nodup_cons]
        exact ⟨fun h => hnb ((h2 id).1 h), h1⟩
      · intro j
        rw [dfs, List.mem_cons, h2, below_step]

end Verif.Trees
