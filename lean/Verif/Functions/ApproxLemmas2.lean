import Verif.Functions.ApproxLemmas

/-!
# The candidates of the approximation as a linked list
-/

namespace Verif.Fun

open Iv Iv.FP

namespace PF

/-! ### Links -/

/-- The replacements `l` are linked in this order; before them is `p` and after them `q`. -/
def Linked (nodes : ℕ → Repl) : Option ℕ → List ℕ → Option ℕ → Prop
  | _, [], _ => True
  | p, j :: r, q => (nodes j).prev = p ∧ (nodes j).next = r.head?.or q ∧ Linked nodes (some j) r q

theorem Linked.append {nodes : ℕ → Repl} {q : Option ℕ} {Y : List ℕ} : ∀ {X : List ℕ} {p : Option ℕ},
    Linked nodes p (X ++ Y) q ↔ Linked nodes p X (Y.head?.or q) ∧ Linked nodes (X.getLast?.or p) Y q
  | [], p => by simp [Linked]
  | [x], p => by simp [Linked, and_assoc]
  | x :: y :: X, p => by
    have ih := Linked.append (nodes := nodes) (q := q) (Y := Y) (X := y :: X) (p := some x)
    simp only [List.cons_append] at ih
    simp only [Linked, List.cons_append, List.head?_cons, Option.some_or] at ih ⊢
    rw [ih]
    simp only [List.getLast?_cons, Option.some_or]
    tauto

theorem Linked.frame {nodes nodes' : ℕ → Repl} {q : Option ℕ} : ∀ {X : List ℕ} {p : Option ℕ},
    (∀ j ∈ X, (nodes' j).prev = (nodes j).prev ∧ (nodes' j).next = (nodes j).next) → Linked nodes p X q →
    Linked nodes' p X q
  | [], p, _, _ => trivial
  | x :: X, p, h, ⟨h1, h2, h3⟩ => by
    obtain ⟨e1, e2⟩ := h x (by simp)
    exact ⟨by rw [e1, h1], by rw [e2, h2], Linked.frame (fun j hj => h j (List.mem_cons_of_mem _ hj)) h3⟩

theorem setNext_core (nodes : ℕ → Repl) (j : ℕ) (n : Option ℕ) (i : ℕ) :
    (setNext nodes j n i).prev = (nodes i).prev ∧ (setNext nodes j n i).left = (nodes i).left ∧
      (setNext nodes j n i).right = (nodes i).right ∧ (setNext nodes j n i).new = (nodes i).new ∧
      (setNext nodes j n i).error = (nodes i).error ∧
      (setNext nodes j n i).next = if i = j then n else (nodes i).next := by
  unfold setNext Function.update
  by_cases h : i = j
  · subst h; simp
  · simp [h]

theorem setPrev_core (nodes : ℕ → Repl) (j : ℕ) (n : Option ℕ) (i : ℕ) :
    (setPrev nodes j n i).next = (nodes i).next ∧ (setPrev nodes j n i).left = (nodes i).left ∧
      (setPrev nodes j n i).right = (nodes i).right ∧ (setPrev nodes j n i).new = (nodes i).new ∧
      (setPrev nodes j n i).error = (nodes i).error ∧
      (setPrev nodes j n i).prev = if i = j then n else (nodes i).prev := by
  unfold setPrev Function.update
  by_cases h : i = j
  · subst h; simp
  · simp [h]

/-- Assigning `next` of the last one. -/
theorem Linked.setNext {nodes : ℕ → Repl} {p q q' : Option ℕ} {X : List ℕ} {j : ℕ} (hj : j ∉ X)
    (h : Linked nodes p (X ++ [j]) q) : Linked (PF.setNext nodes j q') p (X ++ [j]) q' := by
  rw [Linked.append] at h ⊢
  refine ⟨Linked.frame (fun i hi => ?_) h.1, ?_⟩
  · obtain ⟨e1, -, -, -, -, e2⟩ := setNext_core nodes j q' i
    refine ⟨e1, ?_⟩
    rw [e2, if_neg]
    rintro rfl; exact hj hi
  · obtain ⟨e1, -, -, -, -, e2⟩ := setNext_core nodes j q' j
    exact ⟨by rw [e1]; exact h.2.1, by rw [e2]; simp, trivial⟩

/-- Assigning `prev` of the first one. -/
theorem Linked.setPrev {nodes : ℕ → Repl} {p p' q : Option ℕ} {X : List ℕ} {j : ℕ} (hj : j ∉ X)
    (h : Linked nodes p (j :: X) q) : Linked (PF.setPrev nodes j p') p' (j :: X) q := by
  obtain ⟨h1, h2, h3⟩ := h
  obtain ⟨e1, -, -, -, -, e2⟩ := setPrev_core nodes j p' j
  refine ⟨by rw [e2, if_pos rfl], by rw [e1, h2], Linked.frame (fun i hi => ?_) h3⟩
  obtain ⟨e1, -, -, -, -, e2⟩ := setPrev_core nodes j p' i
  refine ⟨?_, e1⟩
  rw [e2, if_neg]
  rintro rfl; exact hj hi

/-! ### What the replacements are -/

variable {B : ℤ → ℤ → Fn → Prop} {Er : ℤ → ℤ → ℚ → Prop}

/-- The replacement of the blocks between `a`, `b` and `c`. -/
structure NodeOk (B : ℤ → ℤ → Fn → Prop) (Er : ℤ → ℤ → ℚ → Prop) (n : Repl) (a b c : ℤ) : Prop where
  left : n.left.i = co a b ∧ B a b n.left.f
  right : n.right.i = co b c ∧ B b c n.right.f
  new : n.new.i = co a c ∧ B a c n.new.f
  error : ∃ e : ℚ, n.error = some (.fin e) ∧ Er a c e

/-- The replacements of all neighbouring blocks between the given knots. -/
inductive Nodes (B : ℤ → ℤ → Fn → Prop) (Er : ℤ → ℤ → ℚ → Prop) (nodes : ℕ → Repl) : List ℤ → List ℕ → Prop
  | one (a : ℤ) : Nodes B Er nodes [a] []
  | two (a b : ℤ) : Nodes B Er nodes [a, b] []
  | cons {a b c : ℤ} {ks : List ℤ} {j : ℕ} {ord : List ℕ} : NodeOk B Er (nodes j) a b c →
      Nodes B Er nodes (b :: c :: ks) ord → Nodes B Er nodes (a :: b :: c :: ks) (j :: ord)

variable {nodes nodes' : ℕ → Repl}

theorem Nodes.frame {ks : List ℤ} {ord : List ℕ} (hn : Nodes B Er nodes ks ord)
    (h : ∀ j ∈ ord, (nodes' j).left = (nodes j).left ∧ (nodes' j).right = (nodes j).right ∧
      (nodes' j).new = (nodes j).new ∧ (nodes' j).error = (nodes j).error) : Nodes B Er nodes' ks ord := by
  induction hn with
  | one a => exact .one a
  | two a b => exact .two a b
  | @cons a b c ks j ord h1 h2 ih =>
    obtain ⟨e1, e2, e3, e4⟩ := h j (by simp)
    exact .cons ⟨by rw [e1]; exact h1.left, by rw [e2]; exact h1.right, by rw [e3]; exact h1.new,
      by rw [e4]; exact h1.error⟩ (ih (fun i hi => h i (List.mem_cons_of_mem _ hi)))

theorem Nodes.join {a c : ℤ} {Q : List ℤ} {Y : List ℕ} (hY : Nodes B Er nodes (a :: c :: Q) Y) :
    ∀ {P : List ℤ} {X : List ℕ}, Nodes B Er nodes (P ++ [a, c]) X → Nodes B Er nodes (P ++ a :: c :: Q) (X ++ Y)
  | [], X, h => by cases h; exact hY
  | [p], X, h => by
    cases h with
    | cons h1 h2 => cases h2; exact .cons h1 hY
  | p :: q :: P, X, h => by
    cases P with
    | nil =>
      cases h with
      | cons h1 h2 => exact .cons h1 (Nodes.join hY (P := [q]) h2)
    | cons r P =>
      cases h with
      | cons h1 h2 => exact .cons h1 (Nodes.join hY (P := q :: r :: P) h2)

theorem Nodes.split {a c : ℤ} {Q : List ℤ} : ∀ {P : List ℤ} {ord : List ℕ}, Nodes B Er nodes (P ++ a :: c :: Q) ord →
    ∃ X Y, ord = X ++ Y ∧ X.length = P.length ∧ Nodes B Er nodes (P ++ [a, c]) X ∧ Nodes B Er nodes (a :: c :: Q) Y
  | [], ord, h => ⟨[], ord, rfl, rfl, .two a c, h⟩
  | [p], ord, h => by
    cases h with
    | cons h1 h2 => exact ⟨[_], _, rfl, rfl, .cons h1 (.two a c), h2⟩
  | p :: q :: P, ord, h => by
    cases P with
    | nil =>
      cases h with
      | cons h1 h2 =>
        obtain ⟨X, Y, rfl, e, h3, h4⟩ := Nodes.split (P := [q]) h2
        exact ⟨_ :: X, Y, rfl, by simp [e], .cons h1 h3, h4⟩
    | cons r P =>
      cases h with
      | cons h1 h2 =>
        obtain ⟨X, Y, rfl, e, h3, h4⟩ := Nodes.split (P := q :: r :: P) h2
        exact ⟨_ :: X, Y, rfl, by simp [e], .cons h1 h3, h4⟩

theorem Nodes.length : ∀ {ks : List ℤ} {ord : List ℕ}, Nodes B Er nodes ks ord → ord.length = ks.length - 2
  | _, _, .one a => rfl
  | _, _, .two a b => rfl
  | _, _, .cons _ h => by simpa using h.length

/-- The knots of one of the replacements. -/
theorem Nodes.at {j : ℕ} {Y : List ℕ} : ∀ {X : List ℕ} {ks : List ℤ}, Nodes B Er nodes ks (X ++ j :: Y) →
    ∃ P a b c Q, ks = P ++ a :: b :: c :: Q ∧ X.length = P.length ∧ NodeOk B Er (nodes j) a b c ∧
      Nodes B Er nodes (P ++ [a, b]) X ∧ Nodes B Er nodes (b :: c :: Q) Y
  | [], ks, h => by
    cases h with
    | cons h1 h2 => exact ⟨[], _, _, _, _, rfl, rfl, h1, .two _ _, h2⟩
  | x :: X, ks, h => by
    cases h with
    | cons h1 h2 =>
      rename_i p q r ks
      obtain ⟨P, a, b, c, Q, e1, e2, e3, e4, e5⟩ := Nodes.at h2
      refine ⟨p :: P, a, b, c, Q, by rw [e1]; rfl, by simp [e2], e3, ?_, e5⟩
      cases P with
      | nil =>
        simp only [List.nil_append, List.cons.injEq] at e1
        obtain ⟨rfl, rfl, rfl⟩ := e1
        exact .cons h1 e4
      | cons s P =>
        simp only [List.cons_append, List.cons.injEq] at e1
        obtain ⟨rfl, e1⟩ := e1
        cases P with
        | nil =>
          simp only [List.nil_append, List.cons.injEq] at e1
          obtain ⟨rfl, e1⟩ := e1
          exact .cons h1 e4
        | cons t P =>
          simp only [List.cons_append, List.cons.injEq] at e1
          obtain ⟨rfl, e1⟩ := e1
          exact .cons h1 e4

end PF

end Verif.Fun
