import Verif.Trees.Report
import Verif.Trees.Props11

/-!
# C115: the text of an assignment and the errors for unsatisfiable evidence

What `format_path` prints is true of exactly the rows the assignment describes if the assignment holds internal values, or
labels that cannot be confused with values; the errors for unsatisfiable evidence print labels as if they were values.
-/

namespace Verif.Vars

open Trees (RIMem)

/-! ## Specification -/

/-- What the printed part says of a number or string. -/
def Part.Holds : Part → Atom → Prop
  | .equal _ b, a => a = b
  | .range _ lo hi, a => ∃ x : ℚ, a = .num (.fin x) ∧
      (∀ l, lo = some l → l.1 < .fin x ∨ l.1 = .fin x ∧ l.2 = .inc) ∧
      (∀ u, hi = some u → .fin x < u.1 ∨ .fin x = u.1 ∧ u.2 = .inc)

/-- The variable a part speaks of. -/
def Part.name : Part → String
  | .equal n _ => n
  | .range n _ _ => n

/-- A number that is not infinite, or a string. -/
def Atom.Finite (a : Atom) : Prop := a ≠ .num .ninf ∧ a ≠ .num .pinf

/-- The text is a disjunction about the variable that is true of exactly those with the property. -/
def SaysThat (name : String) (t : List Part) (S : Atom → Prop) : Prop :=
  (∀ p ∈ t, p.name = name) ∧ ∀ a, a.Finite → ((∃ p ∈ t, p.Holds a) ↔ S a)

/-- The conjunction of the texts holds for a row. -/
def PathHolds (t : List (List Part)) (row : String → Atom) : Prop :=
  ∀ ps ∈ t, ∃ p ∈ ps, p.Holds (row p.name)

/-- Labels that cannot be confused with internal values: a label is a string or the same as its value, and a numeric
variable is not scaled. -/
def Domain.Plain (d : Domain) : Prop :=
  (∀ n m s, d ≠ .scaled n m s) ∧ ∀ (i : ℕ) a, d.labels[i]? = some a → (∃ s, a = .str s) ∨ a = .int i

/-- A number or number set for a numeric variable, a scalar or a set for a symbolic or integer variable. -/
def Val.Bound (d : Domain) (s : List Atom) (x : Val) : Prop :=
  match d with
  | .numeric _ | .scaled _ _ _ => x.Number
  | .symbolic _ _ | .integer _ _ _ => x.Symbol s

/-! ## Lemmas -/

theorem toLabel_scaled {d : Domain} {x y : XQ} (h : d.Scaled x y) : d.toLabel y = x := by
  cases d with
  | scaled n m s =>
    rcases h with ⟨rfl, rfl⟩ | ⟨rfl, rfl⟩ | ⟨p, q, rfl, rfl, h⟩
    · rfl
    · rfl
    · simp [Domain.toLabel, XQ.map, h]
  | _ => exact h.symm

theorem scaled_inf {d : Domain} {x y : XQ} (h : d.Scaled x y) : (y = .ninf ↔ x = .ninf) ∧ (y = .pinf ↔ x = .pinf) := by
  cases d with
  | scaled n m s =>
    rcases h with ⟨rfl, rfl⟩ | ⟨rfl, rfl⟩ | ⟨p, q, rfl, rfl, h⟩ <;> simp
  | _ => cases (show x = y from h); simp

theorem scaled_inj {d : Domain} (hd : d.OK) {x y x' y' : XQ} (h : d.Scaled x y) (h' : d.Scaled x' y') :
    y = y' ↔ x = x' := by
  constructor
  · rintro rfl
    rw [← toLabel_scaled h, ← toLabel_scaled h']
  · rintro rfl
    cases d with
    | scaled n m s =>
      have hs : (0 : ℚ) < s := hd
      rcases h with ⟨rfl, rfl⟩ | ⟨rfl, rfl⟩ | ⟨p, q, rfl, rfl, h⟩ <;>
        rcases h' with ⟨h1, rfl⟩ | ⟨h1, rfl⟩ | ⟨p', q', h1, rfl, h'⟩ <;> cases h1 <;> try rfl
      have : q * s = q' * s := by linarith
      rw [mul_right_cancel₀ hs.ne' this]
    | _ => rw [← show x = y from h, ← show x = y' from h']

theorem partOf_holds {d : Domain} (hd : d.OK) (name : String) {c e : RI} (h : d.CorrRI c e) {a : Atom} (ha : a.Finite) :
    (partOf d name e).name = name ∧ ((partOf d name e).Holds a ↔ ∃ x, a = .num x ∧ RIMem c x) := by
  obtain ⟨h1, h2, h3, h4⟩ := h
  have e1 : partOf d name e = partOf (.numeric "") name c := by
    simp only [partOf, toLabel_scaled h1, toLabel_scaled h2, scaled_inj hd h1 h2, ← h3, ← h4, ne_eq, (scaled_inf h1).1,
      (scaled_inf h2).2, toLabel_scaled (d := .numeric "") (x := c.lower) (y := c.lower) rfl,
      toLabel_scaled (d := .numeric "") (x := c.upper) (y := c.upper) rfl]
  rw [e1]
  unfold partOf
  obtain ⟨lo, hi, l, r⟩ := c
  clear h1 h2 h3 h4 e1 e
  simp only [Domain.toLabel, id]
  by_cases hp : lo = hi ∧ l = .inc ∧ r = .inc
  · rw [if_pos hp]
    obtain ⟨rfl, rfl, rfl⟩ := hp
    refine ⟨rfl, ?_⟩
    simp only [Part.Holds, RIMem]
    constructor
    · rintro rfl
      exact ⟨lo, rfl, by simp, by simp⟩
    · rintro ⟨x, rfl, h1, h2⟩
      congr 1
      rcases h1 with h1 | h1
      · rcases h2 with h2 | h2
        · exact absurd h1 (lt_asymm h2)
        · exact h2.1
      · exact h1.1.symm
  · rw [if_neg hp]
    refine ⟨rfl, ?_⟩
    simp only [Part.Holds, RIMem]
    constructor
    · rintro ⟨x, rfl, h1, h2⟩
      refine ⟨_, rfl, ?_, ?_⟩
      · by_cases hl : lo = .ninf
        · exact Or.inl (by rw [hl]; simp)
        · exact h1 _ (by rw [if_pos hl])
      · by_cases hh : hi = .pinf
        · exact Or.inl (by rw [hh]; simp)
        · exact h2 _ (by rw [if_pos hh])
    · rintro ⟨x, rfl, h1, h2⟩
      cases x with
      | ninf => exact absurd rfl ha.1
      | pinf => exact absurd rfl ha.2
      | fin q =>
        refine ⟨q, rfl, ?_, ?_⟩
        · intro u hu
          split_ifs at hu with hl
          cases hu
          exact h1
        · intro u hu
          split_ifs at hu with hl
          cases hu
          exact h2

theorem strNum_says {d : Domain} (hd : d.OK) (name : String) {x y : Val} (h : d.CorrNum x y) :
    ∃ t, strNum d name y = .ok t ∧ SaysThat name t x.Has := by
  match x, y, h with
  | .ev (.atom (.num u)), .ev (.atom (.num v)), h =>
    refine ⟨_, rfl, by simp [Part.name], ?_⟩
    intro a _
    rw [toLabel_scaled h]
    simp [Part.Holds, Val.Has]
  | .cs c, .cs e, h =>
    refine ⟨_, rfl, ?_, ?_⟩
    · intro p hp
      rw [List.mem_singleton.1 hp]
      exact (partOf_holds hd name h (a := .str "") (by simp [Atom.Finite])).1
    · intro a ha
      simpa [Val.Has] using (partOf_holds hd name h ha).2
  | .rs l, .rs k, h =>
    refine ⟨_, rfl, ?_, ?_⟩
    · intro p hp
      obtain ⟨e, he, rfl⟩ := List.mem_map.1 hp
      obtain ⟨i, hi, rfl⟩ := List.getElem_of_mem he
      have h' : List.Forall₂ d.CorrRI l k := h
      exact (partOf_holds hd name (h'.get (by rw [h'.length_eq]; exact hi) hi) (a := .str "") (by simp [Atom.Finite])).1
    · intro a ha
      have h' : List.Forall₂ d.CorrRI l k := h
      simp only [Val.Has, List.mem_map, exists_exists_and_eq_and]
      clear h
      induction h' with
      | nil => simp
      | @cons c e l k hc _ ih =>
        have h1 := (partOf_holds hd name hc ha).2
        simp only [List.mem_cons, exists_eq_or_imp, h1, ih]
        constructor
        · rintro (⟨x, h1, h2⟩ | ⟨x, h1, c', h2, h3⟩)
          · exact ⟨x, h1, Or.inl h2⟩
          · exact ⟨x, h1, Or.inr ⟨c', h2, h3⟩⟩
        · rintro ⟨x, h1, h2 | ⟨c', h2, h3⟩⟩
          · exact Or.inl ⟨x, h1, h2⟩
          · exact Or.inr ⟨x, h1, c', h2, h3⟩

theorem strSym_set (d : Domain) (name : String) (l : List Atom) :
    strSym d name (.ev (.set l)) = l.mapM (strAtom d name) := by
  match l with
  | [] => rfl
  | [a] => simp only [strSym, List.mapM_cons, List.mapM_nil, bind, Except.bind, pure, Except.pure]
  | a :: b :: l => rfl

/-- What is printed for an element: the label at that position, or the string. -/
def Printed (d : Domain) (b a : Atom) : Prop := (∃ x, b = .num x ∧ d.At a b) ∨ ((∃ s, b = .str s) ∧ a = b)

theorem strAtom_ok (d : Domain) (name : String) (b : Atom) (p : Part) :
    strAtom d name b = .ok p ↔ ∃ a, p = .equal name a ∧ Printed d b a := by
  unfold strAtom Printed
  cases b with
  | num x =>
    simp only [Atom.num.injEq, exists_eq_left', reduceCtorEq, exists_false, false_and, or_false]
    cases h : d.labelOf (.num x) with
    | none =>
      simp only [reduceCtorEq, false_iff, not_exists, not_and]
      intro a _ ha
      rw [(Domain.labelOf_iff d a _).2 ha] at h
      cases h
    | some c =>
      simp only [Except.ok.injEq]
      constructor
      · rintro rfl
        exact ⟨c, rfl, (Domain.labelOf_iff d c _).1 h⟩
      · rintro ⟨a, rfl, ha⟩
        rw [(Domain.labelOf_iff d a _).2 ha] at h
        cases h
        rfl
  | str s =>
    simp only [Except.ok.injEq, reduceCtorEq, false_and, exists_false, Atom.str.injEq, exists_eq', true_and, false_or]
    exact ⟨fun h => ⟨_, h.symm, rfl⟩, fun ⟨a, h1, h2⟩ => by rw [h1, h2]⟩

theorem strAtom_error (d : Domain) (name : String) (b : Atom) :
    (∃ p, strAtom d name b = .ok p) ∨ strAtom d name b = .error .keyError ∧ ∃ x, b = .num x ∧ ∀ a, ¬ d.At a b := by
  cases b with
  | str s => exact Or.inl ⟨_, rfl⟩
  | num x =>
    cases h : d.labelOf (.num x) with
    | some c => exact Or.inl ⟨.equal name c, by simp [strAtom, h]⟩
    | none =>
      refine Or.inr ⟨by simp [strAtom, h], x, rfl, ?_⟩
      intro a ha
      rw [(Domain.labelOf_iff d a _).2 ha] at h
      cases h

theorem strAtoms_says (d : Domain) (name : String) (l : List Atom) :
    (∃ t, l.mapM (strAtom d name) = .ok t ∧ SaysThat name t (fun a => ∃ b ∈ l, Printed d b a)) ∨
    l.mapM (strAtom d name) = .error .keyError ∧ ∃ x, Atom.num x ∈ l ∧ ∀ a, ¬ d.At a (.num x) := by
  induction l with
  | nil => exact Or.inl ⟨[], rfl, by simp [SaysThat]⟩
  | cons b l ih =>
    rcases strAtom_error d name b with ⟨p, hp⟩ | ⟨he, x, rfl, hx⟩
    · rcases ih with ⟨t, ht, h1, h2⟩ | ⟨ht, x, h1, h2⟩
      · refine Or.inl ⟨p :: t, ?_, ?_, ?_⟩
        · simp only [List.mapM_cons, hp, ht, bind, Except.bind, pure, Except.pure]
        · intro q hq
          rcases List.mem_cons.1 hq with rfl | hq
          · obtain ⟨a, rfl, -⟩ := (strAtom_ok d name b _).1 hp
            rfl
          · exact h1 q hq
        · intro a ha
          simp only [List.mem_cons, exists_eq_or_imp, h2 a ha]
          refine or_congr ?_ Iff.rfl
          obtain ⟨c, rfl, hc⟩ := (strAtom_ok d name b _).1 hp
          show a = c ↔ _
          constructor
          · rintro rfl; exact hc
          · intro ha
            have := (strAtom_ok d name b (.equal name a)).2 ⟨a, rfl, ha⟩
            rw [hp] at this
            cases this
            rfl
      · refine Or.inr ⟨?_, x, List.mem_cons_of_mem _ h1, h2⟩
        simp only [List.mapM_cons, hp, ht, bind, Except.bind]
    · refine Or.inr ⟨?_, x, by simp, hx⟩
      simp only [List.mapM_cons, he, bind, Except.bind]

/-! ## Theorems -/

/-- C115: printing a set for a symbolic or integer variable raises `KeyError` exactly if it contains a number that is not one
of the internal values; otherwise the text is true of the strings in the set and of the labels at the positions in the
set. -/
theorem C115_discrete (d : Domain) (name : String) (hd : (∃ n ls, d = .symbolic n ls) ∨ ∃ n a b, d = .integer n a b)
    (l : List Atom) :
    ((∃ x, Atom.num x ∈ l ∧ ∀ a, ¬ d.At a (.num x)) → strVar d name (.ev (.set l)) = .error .keyError) ∧
    ((¬ ∃ x, Atom.num x ∈ l ∧ ∀ a, ¬ d.At a (.num x)) → ∃ t, strVar d name (.ev (.set l)) = .ok t ∧
      SaysThat name t (fun a => ((∃ s, a = .str s) ∧ a ∈ l) ∨ ∃ x, Atom.num x ∈ l ∧ d.At a (.num x))) := by
  have hs : strVar d name (.ev (.set l)) = l.mapM (strAtom d name) := by
    rw [← strSym_set]
    rcases hd with ⟨n, ls, rfl⟩ | ⟨n, a, b, rfl⟩ <;> rfl
  rw [hs]
  constructor
  · rintro ⟨x, hx, h⟩
    rcases strAtoms_says d name l with ⟨t, ht, -⟩ | ⟨ht, -⟩
    · exfalso
      have h3 := (mapM_ok_iff _ _ _).1 ht
      obtain ⟨i, hi, e⟩ := List.getElem_of_mem hx
      have h4 := h3.get hi (by rw [← h3.length_eq]; exact hi)
      rw [List.get_eq_getElem, e] at h4
      obtain ⟨a, -, ha⟩ := (strAtom_ok d name _ _).1 h4
      rcases ha with ⟨y, -, ha⟩ | ⟨⟨s, hs⟩, -⟩
      · exact h a ha
      · cases hs
    · exact ht
  · intro h
    rcases strAtoms_says d name l with ⟨t, ht, h1, h2⟩ | ⟨-, h'⟩
    · refine ⟨t, ht, h1, ?_⟩
      intro a ha
      rw [h2 a ha]
      unfold Printed
      constructor
      · rintro ⟨b, hb, ⟨x, rfl, h3⟩ | ⟨h3, rfl⟩⟩
        · exact Or.inr ⟨x, hb, h3⟩
        · exact Or.inl ⟨h3, hb⟩
      · rintro (⟨h3, h4⟩ | ⟨x, h3, h4⟩)
        · exact ⟨a, h4, Or.inr ⟨h3, rfl⟩⟩
        · exact ⟨_, h3, Or.inl ⟨x, rfl, h4⟩⟩
    · exact absurd h' h

/-- C115: the text of an internal value is true of exactly the labels the value stands for. -/
theorem C115_values (d : Domain) (hd : d.OK) (name : String) (x y : Val) (hy : y.Bound d d.values) (h : d.Corr x y) :
    ∃ t, strVar d name y = .ok t ∧ SaysThat name t x.Has := by
  have hnum : d.CorrNum x y → ∃ t, strNum d name y = .ok t ∧ SaysThat name t x.Has := strNum_says hd name
  have hsym : ((∃ n ls, d = .symbolic n ls) ∨ ∃ n a b, d = .integer n a b) → y.Symbol d.values → d.CorrSym x y →
      ∃ t, strVar d name y = .ok t ∧ SaysThat name t x.Has := by
    intro hk hy h
    have key : ∀ l k : List Atom, List.Forall₂ d.At l k → ∃ t, strVar d name (.ev (.set k)) = .ok t ∧
        SaysThat name t (fun a => a ∈ l) := by
      intro l k hlk
      have hall : ∀ b ∈ k, (∃ x, b = Atom.num x) ∧ ∃ a ∈ l, d.At a b := by
        intro b hb
        obtain ⟨i, hi, rfl⟩ := List.getElem_of_mem hb
        have h1 := hlk.get (by rw [hlk.length_eq]; exact hi) hi
        obtain ⟨j, -, hj⟩ := h1
        exact ⟨⟨_, hj⟩, _, List.get_mem _ _, hlk.get (by rw [hlk.length_eq]; exact hi) hi⟩
      have hall' : ∀ a ∈ l, ∃ b ∈ k, d.At a b := by
        intro a ha
        obtain ⟨i, hi, rfl⟩ := List.getElem_of_mem ha
        exact ⟨_, List.get_mem _ _, hlk.get hi (by rw [← hlk.length_eq]; exact hi)⟩
      obtain ⟨t, ht, h1, h2⟩ := (C115_discrete d name hk k).2 (by
        rintro ⟨x, hx, hn⟩
        obtain ⟨-, a, -, ha⟩ := hall _ hx
        exact hn a ha)
      refine ⟨t, ht, h1, ?_⟩
      intro a ha
      rw [h2 a ha]
      constructor
      · rintro (⟨⟨s, rfl⟩, h3⟩ | ⟨x, h3, h4⟩)
        · obtain ⟨⟨x, hx⟩, -⟩ := hall _ h3
          cases hx
        · obtain ⟨-, a', ha', h5⟩ := hall _ h3
          rw [Option.some.inj (((Domain.labelOf_iff d a _).2 h4).symm.trans ((Domain.labelOf_iff d a' _).2 h5))]
          exact ha'
      · intro h3
        obtain ⟨b, hb, h4⟩ := hall' a h3
        obtain ⟨⟨x, rfl⟩, -⟩ := hall b hb
        exact Or.inr ⟨x, hb, h4⟩
    match x, y, h, hy with
    | .ev (.atom a), .ev (.atom b), h, _ =>
      obtain ⟨t, ht, h1, h2⟩ := key [a] [b] (List.Forall₂.cons h List.Forall₂.nil)
      refine ⟨t, ?_, h1, ?_⟩
      · rw [← ht]
        rcases hk with ⟨n, ls, rfl⟩ | ⟨n, a, b, rfl⟩ <;> rfl
      · intro a ha
        rw [h2 a ha]
        simp [Val.Has]
    | .ev (.set l), .ev (.set k), h, _ => exact key l k h
  cases d with
  | numeric n => exact hnum h
  | scaled n m s => exact hnum h
  | symbolic n ls => exact hsym (Or.inl ⟨n, ls, rfl⟩) hy h
  | integer n a b => exact hsym (Or.inr ⟨n, a, b, rfl⟩) hy h

/-- C115, the part that holds for labels: if labels cannot be confused with internal values, the text of a label assignment
is true of exactly the labels in it.  Missing are scaled variables and numbers as labels that are not their own positions,
see `C115_violated_text`. -/
theorem C115_labels_partial (d : Domain) (hd : d.OK) (hp : d.Plain) (name : String) (x : Val) (hx : x.Bound d d.labels) :
    ∃ t, strVar d name x = .ok t ∧ SaysThat name t x.Has := by
  have hsym : ((∃ n ls, d = .symbolic n ls) ∨ ∃ n a b, d = .integer n a b) → x.Symbol d.labels →
      ∃ t, strVar d name x = .ok t ∧ SaysThat name t x.Has := by
    intro hk hx
    have key : ∀ l : List Atom, (∀ a ∈ l, a ∈ d.labels) → ∃ t, strVar d name (.ev (.set l)) = .ok t ∧
        SaysThat name t (fun a => a ∈ l) := by
      intro l hl
      have hat : ∀ x, Atom.num x ∈ l → d.At (.num x) (.num x) := by
        intro x hx
        obtain ⟨i, hi⟩ := List.mem_iff_getElem?.1 (hl _ hx)
        rcases hp.2 i _ hi with ⟨s, hs⟩ | h
        · cases hs
        · exact ⟨i, hi, h⟩
      obtain ⟨t, ht, h1, h2⟩ := (C115_discrete d name hk l).2 (by
        rintro ⟨x, hx, hn⟩
        exact hn _ (hat x hx))
      refine ⟨t, ht, h1, ?_⟩
      intro a ha
      rw [h2 a ha]
      constructor
      · rintro (h3 | ⟨x, h3, h4⟩)
        · exact h3.2
        · rw [Option.some.inj (((Domain.labelOf_iff d a _).2 h4).symm.trans ((Domain.labelOf_iff d _ _).2 (hat x h3)))]
          exact h3
      · intro h3
        cases a with
        | str s => exact Or.inl ⟨⟨s, rfl⟩, h3⟩
        | num x => exact Or.inr ⟨x, h3, hat x h3⟩
    match x, hx with
    | .ev (.atom a), hx =>
      obtain ⟨t, ht, h1, h2⟩ := key [a] (by intro b hb; rw [List.mem_singleton.1 hb]; exact hx)
      refine ⟨t, ?_, h1, ?_⟩
      · rw [← ht]
        rcases hk with ⟨n, ls, rfl⟩ | ⟨n, a, b, rfl⟩ <;> rfl
      · intro a ha
        rw [h2 a ha]
        simp [Val.Has]
    | .ev (.set l), hx => exact key l hx.2
  cases d with
  | numeric n =>
    refine C115_values (.numeric n) hd name x x hx ?_
    match x, hx with
    | .ev (.atom (.num u)), _ => rfl
    | .cs c, _ => exact ⟨rfl, rfl, rfl, rfl⟩
    | .rs l, _ => exact List.forall₂_same.2 fun c _ => ⟨rfl, rfl, rfl, rfl⟩
  | scaled n m s => exact absurd rfl (hp.1 n m s)
  | symbolic n ls => exact hsym (Or.inl ⟨n, ls, rfl⟩) hx
  | integer n a b => exact hsym (Or.inr ⟨n, a, b, rfl⟩) hx

/-- C115, the part that holds for label assignments: with labels that cannot be confused with internal values, `format_path`
succeeds and its text is true of exactly the rows whose entries are among the assigned ones. -/
theorem C115_path_partial (m : Asg) (hm : VMap.WF m)
    (h : ∀ n v x, (VMap.view m).decl n = some v → (VMap.view m).val n = some x →
      v.info.OK ∧ v.info.Plain ∧ x.Bound v.info v.info.labels) :
    ∃ t, formatPath m = .ok t ∧ t.length = (VMap.view m).order.length ∧
      ∀ row : String → Atom, (∀ n, (row n).Finite) →
        (PathHolds t row ↔ ∀ n x, (VMap.view m).val n = some x → x.Has (row n)) := by
  obtain ⟨-, -, -, ho1, ho2, -, is, hi1, hi2, -, -, hi3⟩ := C54_observe m hm
  have key : ∀ is : List (Var Domain × Val), (∀ i ∈ is, i.1.info.OK ∧ i.1.info.Plain ∧ i.2.Bound i.1.info i.1.info.labels) →
      ∃ t, is.mapM (fun p => strVar p.1.info p.1.name p.2) = .ok t ∧ t.length = is.length ∧
        ∀ row : String → Atom, (∀ n, (row n).Finite) → (PathHolds t row ↔ ∀ i ∈ is, i.2.Has (row i.1.name)) := by
    intro is
    induction is with
    | nil => intro _; exact ⟨[], rfl, rfl, by simp [PathHolds]⟩
    | cons i is ih =>
      intro his
      obtain ⟨t, ht, hl, h1⟩ := ih (fun j hj => his j (List.mem_cons_of_mem _ hj))
      obtain ⟨a1, a2, a3⟩ := his i (by simp)
      obtain ⟨s, hs, h2, h3⟩ := C115_labels_partial i.1.info a1 a2 i.1.name i.2 a3
      refine ⟨s :: t, ?_, by simp [hl], ?_⟩
      · simp only [List.mapM_cons, hs, ht, bind, Except.bind, pure, Except.pure]
      · intro row hrow
        have h4 := h1 row hrow
        unfold PathHolds at h4 ⊢
        simp only [List.mem_cons, forall_eq_or_imp, h4]
        refine and_congr ?_ Iff.rfl
        rw [← h3 _ (hrow _)]
        constructor
        · rintro ⟨p, hp, h⟩
          exact ⟨p, hp, by rw [h2 p hp] at h; exact h⟩
        · rintro ⟨p, hp, h⟩
          exact ⟨p, hp, by rw [h2 p hp]; exact h⟩
  obtain ⟨t, ht, hl, h1⟩ := key is (fun i hi => h _ _ _ (hi3 i hi).1 (hi3 i hi).2)
  refine ⟨t, ?_, ?_, ?_⟩
  · unfold formatPath
    rw [hi1]
    exact ht
  · rw [hl, ← hi2, List.length_map]
  · intro row hrow
    rw [h1 row hrow]
    constructor
    · intro h n x hx
      have : n ∈ is.map (fun i => i.1.name) := by
        rw [hi2]; exact (ho1 n).2 (by rw [hx]; simp)
      obtain ⟨i, hi, rfl⟩ := List.mem_map.1 this
      rw [(hi3 i hi).2] at hx
      cases hx
      exact h i hi
    · intro h i hi
      exact h _ _ (hi3 i hi).2

example : (do formatPath (← bindQuery [⟨"s", .symbolic "S" [.str "a", .str "b"]⟩, ⟨"x", .numeric "N"⟩] (fun _ => none)
    [.dict [(.name "x", .list [none, some (.int 2)]), (.name "s", .atom (.str "b"))]] [])) =
    .ok [[.range "x" none (some (.fin 2, .inc))], [.equal "s" (.str "b")]] := by decide +kernel

example : (strVar (.symbolic "S" [.str "a", .str "b", .str "c"]) "s" (.ev (.set [.str "c", .str "a"]))) =
    .ok [.equal "s" (.str "c"), .equal "s" (.str "a")] ∧
    Domain.Plain (.symbolic "S" [.str "a", .str "b", .str "c"]) ∧ Domain.Plain (.integer "I" 0 4) ∧
    strVar (.integer "I" 0 4) "i" (.ev (.set [.int 4])) = .ok [.equal "i" (.int 4)] ∧
    strVar (.numeric "N") "x" (.rs [⟨.ninf, .fin 1, .exc, .inc⟩, ⟨.fin 2, .fin 2, .inc, .inc⟩]) =
      .ok [.range "x" none (some (.fin 1, .inc)), .equal "x" (.num (.fin 2))] ∧
    strVar (.scaled "X" 3 2) "x" (.cs ⟨.fin 0, .pinf, .inc, .exc⟩) = .ok [.range "x" (some (.fin 3, .inc)) none] := by
  refine ⟨by decide +kernel, ⟨by simp, ?_⟩, ⟨by simp, ?_⟩, by decide +kernel, by decide +kernel, by decide +kernel⟩
  · intro i a h
    match i, h with
    | 0, h => cases h; exact Or.inl ⟨_, rfl⟩
    | 1, h => cases h; exact Or.inl ⟨_, rfl⟩
    | 2, h => cases h; exact Or.inl ⟨_, rfl⟩
  · intro i a h
    have h5 : ((List.range 5).map (fun i : ℕ => Atom.int i))[i]? = some a := h
    simp only [List.getElem?_map, Option.map_eq_some_iff] at h5
    obtain ⟨j, hj, rfl⟩ := h5
    have hj' := List.getElem?_range (n := 5) (i := i) (by
      obtain ⟨h1, -⟩ := List.getElem?_eq_some_iff.1 hj
      simpa using h1)
    rw [hj] at hj'
    cases hj'
    exact Or.inr rfl

/-- Disagreement: the error for unsatisfiable evidence shows labels as if they were internal values.  Evidence `x = 1` on an
integer variable with the labels 1 to 3 is printed as `x = 2`, `x = 3` raises a `KeyError` in place of the announced error,
and the bounds of an interval on a scaled variable are scaled again. -/
theorem C115_violated_text :
    (do formatPath (← bindQuery [⟨"x", .integer "I" 1 3⟩] (fun _ => none) [.dict [(.name "x", .atom (.int 1))]] [])) =
      .ok [[.equal "x" (.int 2)]] ∧
    (do formatPath (← bindQuery [⟨"x", .integer "I" 1 3⟩] (fun _ => none) [.dict [(.name "x", .atom (.int 3))]] [])) =
      .error .keyError ∧
    (do formatPath (← bindQuery [⟨"x", .scaled "X" 3 2⟩] (fun _ => none)
      [.dict [(.name "x", .list [some (.int 1), some (.int 2)])]] [])) =
      .ok [[.range "x" (some (.fin 5, .inc)) (some (.fin 7, .inc))]] := by decide +kernel

end Verif.Vars

namespace Verif.Trees

open Vars

variable {D E : Type}

/-- C115: if the evidence can be printed, `infer` on label assignments is `infer` on the internal values; if it cannot, the
error of printing takes the place of the `ValueError` for unsatisfiable evidence. -/
theorem C115_infer (o : DistOps D E) (vs : List (Var Domain)) (full : ℕ → Region) (h : Heap D) (q e qv ev : Asg)
    (qs es : Query) (hq : q.valueAssignment = .ok qv) (he : e.valueAssignment = .ok ev) (hqs : queryOf vs qv = .ok qs)
    (hes : queryOf vs ev = .ok es) :
    (∀ t, formatPath e = .ok t → ∀ fail, inferLabels o vs full h q e fail = infer o vs.length full h qs es fail) ∧
    (infer o vs.length full h qs es false = .ok none → ∀ err, formatPath e = .error err →
      inferLabels o vs full h q e true = .error err ∧ infer o vs.length full h qs es true = .error .valueError) := by
  have hfail : infer o vs.length full h qs es true = match infer o vs.length full h qs es false with
      | .ok none => .error .valueError
      | r => r := by
    unfold infer
    simp only [bind, Except.bind, pure, Except.pure]
    cases checkQuery vs.length qs with
    | error _ => rfl
    | ok _ =>
      cases checkQuery vs.length es with
      | error _ => rfl
      | ok _ =>
        cases apply vs.length h es with
        | error _ => rfl
        | ok ls =>
          simp only
          cases ls.mapM (fun l => l.2.infer o full qs es) with
          | error _ => rfl
          | ok ps =>
            simp only
            split_ifs <;> rfl
  have hi : ∀ fail, inferLabels o vs full h q e fail = match infer o vs.length full h qs es false with
      | .ok (some x) => .ok (some x)
      | .ok none => if fail then (match formatPath e with | .ok _ => .error .valueError | .error err => .error err) else .ok none
      | .error err => .error err := by
    intro fail
    unfold inferLabels
    simp only [hq, he, hqs, hes, bind, Except.bind, pure, Except.pure]
    cases infer o vs.length full h qs es false with
    | error _ => rfl
    | ok r =>
      cases r with
      | some x => rfl
      | none =>
        cases fail
        · rfl
        · cases formatPath e <;> rfl
  constructor
  · intro t ht fail
    rw [hi, ht]
    cases fail
    · cases infer o vs.length full h qs es false with
      | error _ => rfl
      | ok r => cases r <;> rfl
    · rw [hfail]
      cases infer o vs.length full h qs es false with
      | error _ => rfl
      | ok r => cases r <;> rfl
  · intro hn err herr
    rw [hi, hfail, hn, herr]
    exact ⟨rfl, rfl⟩

/-- C115: if the evidence can be printed, `posterior` on label assignments is `posterior` on the internal values; the error of
printing replaces at most the error for unsatisfiable evidence. -/
theorem C115_posterior (o : DistOps D E) (vs : List (Var Domain)) (full : ℕ → Region) (h : Heap D) (xs : List ℕ) (e ev : Asg)
    (es : Query) (he : e.valueAssignment = .ok ev) (hes : queryOf vs ev = .ok es) :
    (∀ t, formatPath e = .ok t → posteriorLabels o vs full h xs e = (posterior o vs.length full h xs es).map some) ∧
    (posteriorLabels o vs full h xs e false = .ok none → ∀ err, formatPath e = .error err →
      posteriorLabels o vs full h xs e true = .error err ∧ posterior o vs.length full h xs es = .error .unsatisfiable) := by
  unfold posteriorLabels posterior weightsOf
  simp only [he, hes, bind, Except.bind, pure, Except.pure]
  cases checkQuery vs.length es with
  | error _ => exact ⟨fun _ _ => rfl, fun h => by cases h⟩
  | ok _ =>
    cases apply vs.length h es with
    | error _ => exact ⟨fun _ _ => rfl, fun h => by cases h⟩
    | ok ls =>
      simp only
      cases ls.mapM (fun l => l.2.contribution o full xs es) with
      | error _ => exact ⟨fun _ _ => rfl, fun h => by cases h⟩
      | ok cs =>
        simp only
        cases hn : Ut.normValues false false 0 ((cs.filterMap id).map Prod.fst) with
        | error er =>
          cases er with
          | valueError =>
            simp only [if_true]
            refine ⟨fun t ht => ?_, fun _ err herr => ?_⟩
            · rw [ht]; rfl
            · rw [herr]; simp
          | _ => exact ⟨fun _ _ => rfl, fun h => by cases h⟩
        | ok ws =>
          simp only
          refine ⟨fun _ _ => ?_, fun h => ?_⟩
          · cases (xs.zipIdx.mapM _ : Except Err (List (ℕ × D))) <;> rfl
          · revert h
            cases (xs.zipIdx.mapM _ : Except Err (List (ℕ × D))) <;> intro h <;> cases h

/-- A tree with a single leaf over an integer variable with the labels 5 and 6, all of whose samples are 5. -/
def exReport : Heap (DD Atom) :=
  ⟨[], [(0, ⟨none, [], [(true, ⟨⟨"I", [.int 5, .int 6]⟩, [1, 0]⟩)], 1, 4, []⟩)], some 0⟩

/-- The variable of the example. -/
def exReportVars : List (Var Domain) := [⟨"x", .integer "I" 5 6⟩]

/-- Disagreement: asking for a probability or a posterior given evidence of probability zero raises a `KeyError` instead of
the `ValueError` or the `Unsatisfiability` that is announced, if the evidence is on an integer variable whose labels are not
`0, …, n-1`; on internal values the announced error is raised. -/
theorem C115_violated_error :
    (do
      let e ← bindQuery exReportVars (fun _ => none) [.dict [(.name "x", .atom (.int 6))]] []
      inferLabels (discOps Atom) exReportVars (fun _ => .set [0, 1]) exReport ⟨[], []⟩ e) = .error .keyError ∧
    infer (discOps Atom) 1 (fun _ => .set [0, 1]) exReport [] [(0, .set [1])] = .error .valueError ∧
    (do
      let e ← bindQuery exReportVars (fun _ => none) [.dict [(.name "x", .atom (.int 6))]] []
      let r ← posteriorLabels (discOps Atom) exReportVars (fun _ => .set [0, 1]) exReport [0] e
      return r.isNone) = .error .keyError ∧
    (do
      let r ← posterior (discOps Atom) 1 (fun _ => .set [0, 1]) exReport [0] [(0, .set [1])]
      return r.isEmpty) = .error .unsatisfiable ∧
    (do
      let e ← bindQuery exReportVars (fun _ => none) [.dict [(.name "x", .atom (.int 5))]] []
      inferLabels (discOps Atom) exReportVars (fun _ => .set [0, 1]) exReport ⟨[], []⟩ e) = .ok (some 1) := by
  decide +kernel

end Verif.Trees
