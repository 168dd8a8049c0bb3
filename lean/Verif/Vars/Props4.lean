import Verif.Vars.Sets
import Verif.Vars.Props
import Verif.Vars.Props2
import Verif.Vars.BindSpec

/-!
# C116: turning scalars into sets
-/

namespace Verif.Vars

open Trees (RIMem)

/-! ## Specification -/

/-- A scalar or a set of labels (values) of the variable's type; for numeric variables a number or a number set. -/
def Val.Entry (d : Domain) (s : List Atom) (x : Val) : Prop :=
  match d with
  | .numeric _ | .scaled _ _ _ => x.Number
  | .symbolic _ _ | .integer _ _ _ => x.Symbol s

/-- A set in the representation of the variable's type. -/
def Val.IsSet (d : Domain) (x : Val) : Prop :=
  match d with
  | .numeric _ | .scaled _ _ _ => (∃ c, x = .cs c) ∨ ∃ l, x = .rs l
  | .symbolic _ _ | .integer _ _ _ => ∃ l, x = .ev (.set l)

/-! ## Lemmas -/

theorem mem_values_int {d : Domain} {a : Atom} (h : a ∈ d.values) : ∃ q : ℚ, a = .num (.fin q) ∧ q.den = 1 := by
  obtain ⟨i, -, rfl⟩ := List.mem_map.1 h
  exact ⟨(i : ℤ), rfl, by simp⟩

theorem mem_int_labels {n : String} {x y : ℤ} {a : Atom} (h : a ∈ (Domain.integer n x y).labels) :
    ∃ q : ℚ, a = .num (.fin q) ∧ q.den = 1 := by
  obtain ⟨z, -, rfl⟩ := List.mem_map.1 h
  exact ⟨z, rfl, by simp⟩

/-- The conversion of one entry, where all entries of integer variables are integers. -/
theorem assignment2set_spec {d : Domain} {s : List Atom} {x : Val} (hx : x.Entry d s)
    (hs : ∀ n a b, d = .integer n a b → ∀ a ∈ s, ∃ q : ℚ, a = .num (.fin q) ∧ q.den = 1) :
    ∃ y, assignment2set d x = .ok y ∧ y.Entry d s ∧ y.IsSet d ∧ (∀ a, y.Has a ↔ x.Has a) ∧ (x.IsSet d → y = x) := by
  have hnum : x.Number → ∃ y, (match x with
      | .ev (.atom (.num q)) => (do return .cs (← RI.mk? q q .inc .inc) : Except Err Val)
      | x => .ok x) = .ok y ∧ y.Number ∧ ((∃ c, y = .cs c) ∨ ∃ l, y = .rs l) ∧ (∀ a, y.Has a ↔ x.Has a) ∧
      (((∃ c, x = .cs c) ∨ ∃ l, x = .rs l) → y = x) := by
    intro hx
    match x, hx with
    | .ev (.atom (.num q)), _ =>
      have hq : q.le q = true := le_refl q
      refine ⟨.cs ⟨q, q, .inc, .inc⟩, ?_, hq, Or.inl ⟨_, rfl⟩, ?_, ?_⟩
      · simp [RI.mk?, hq, bind, Except.bind, pure, Except.pure]
      · intro a
        simp only [Val.Has, RIMem]
        constructor
        · rintro ⟨x, rfl, h1, h2⟩
          congr 1
          rcases h1 with h1 | h1
          · rcases h2 with h2 | h2
            · exact absurd h1 (lt_asymm h2)
            · exact h2.1
          · exact h1.1.symm
        · rintro rfl
          exact ⟨q, rfl, by simp, by simp⟩
      · rintro (⟨c, h⟩ | ⟨l, h⟩) <;> cases h
    | .cs c, hx => exact ⟨_, rfl, hx, Or.inl ⟨c, rfl⟩, fun _ => Iff.rfl, fun _ => rfl⟩
    | .rs l, hx => exact ⟨_, rfl, hx, Or.inr ⟨l, rfl⟩, fun _ => Iff.rfl, fun _ => rfl⟩
  cases d with
  | numeric n => exact hnum hx
  | scaled n m sc => exact hnum hx
  | symbolic n ls =>
    match x, hx with
    | .ev (.atom a), hx =>
      refine ⟨.ev (.set [a]), rfl, ⟨by simp, fun b hb => by rw [List.mem_singleton.1 hb]; exact hx⟩, ⟨_, rfl⟩, by simp [Val.Has], ?_⟩
      rintro ⟨l, h⟩
      cases h
    | .ev (.set l), hx => exact ⟨_, rfl, hx, ⟨_, rfl⟩, fun _ => Iff.rfl, fun _ => rfl⟩
  | integer n u v =>
    match x, hx with
    | .ev (.atom a), hx =>
      obtain ⟨q, rfl, hq⟩ := hs n u v rfl a hx
      refine ⟨.ev (.set [.num (.fin q)]), by simp [assignment2set, hq], ⟨by simp, fun b hb => by rw [List.mem_singleton.1 hb]; exact hx⟩, ⟨_, rfl⟩,
        by simp [Val.Has], ?_⟩
      rintro ⟨l, h⟩
      cases h
    | .ev (.set l), hx => exact ⟨_, rfl, hx, ⟨_, rfl⟩, fun _ => Iff.rfl, fun _ => rfl⟩

/-- Setting entries that pass the check. -/
theorem asg_set_ok {check : Domain → Val → Except Err Unit} {m : Asg} {v : Var Domain} {x : Val}
    (h : check v.info x = .ok ()) : Asg.set check m (.var v) x = .ok (VMap.setVar m v x) := by
  simp only [Asg.set, h, bind, Except.bind, VMap.set]

theorem asg_mk_eq {check : Domain → Val → Except Err Unit} (is : List (Var Domain × Val)) (m0 : Asg)
    (h : ∀ p ∈ is, check p.1.info p.2 = .ok ()) :
    (is.map fun p => (Key.var p.1, p.2)).foldlM (fun m p => Asg.set check m p.1 p.2) m0 =
      (is.map fun p => (Key.var p.1, p.2)).foldlM (fun m p => VMap.set m p.1 p.2) m0 := by
  induction is generalizing m0 with
  | nil => rfl
  | cons p is ih =>
    simp only [List.map_cons, List.foldlM_cons, asg_set_ok (h p (by simp)), VMap.set, bind, Except.bind]
    exact ih _ (fun q hq => h q (List.mem_cons_of_mem _ hq))

/-- Replacing items one after the other. -/
theorem replace_all {check : Domain → Val → Except Err Unit} (f : Domain → Val → Except Err Val)
    (R : Domain → Val → Val → Prop) (is : List (Var Domain × Val)) (m : Asg) (hm : VMap.WF m)
    (hnd : (is.map fun p => p.1.name).Nodup)
    (hdecl : ∀ p ∈ is, (VMap.view m).decl p.1.name = some p.1 ∧ p.1.name ∈ (VMap.view m).order)
    (hf : ∀ p ∈ is, ∃ y, f p.1.info p.2 = .ok y ∧ check p.1.info y = .ok () ∧ R p.1.info p.2 y) :
    ∃ r, is.foldlM (fun c p => do Asg.set check c (.var p.1) (← f p.1.info p.2)) m = .ok r ∧ VMap.WF r ∧
      (VMap.view r).order = (VMap.view m).order ∧ (VMap.view r).decl = (VMap.view m).decl ∧
      (∀ n, n ∉ is.map (fun p => p.1.name) → (VMap.view r).val n = (VMap.view m).val n) ∧
      ∀ p ∈ is, ∃ y, (VMap.view r).val p.1.name = some y ∧ R p.1.info p.2 y := by
  induction is generalizing m with
  | nil => exact ⟨m, rfl, hm, rfl, rfl, fun _ _ => rfl, by simp⟩
  | cons p is ih =>
    obtain ⟨y, hy, hc, hR⟩ := hf p (by simp)
    obtain ⟨hd, ho⟩ := hdecl p (by simp)
    rw [List.map_cons, List.nodup_cons] at hnd
    have hv := VMap.setVar_view m p.1 y
    have hv1 : (VMap.view (VMap.setVar m p.1 y)).decl = (VMap.view m).decl := by rw [hv, hd]; simp
    have hv2 : (VMap.view (VMap.setVar m p.1 y)).order = (VMap.view m).order := by rw [hv]; simp [View.touch, ho]
    have hv3 : (VMap.view (VMap.setVar m p.1 y)).val = Function.update (VMap.view m).val p.1.name (some y) := by rw [hv]
    obtain ⟨r, hr, h1, h2, h3, h4, h5⟩ := ih (VMap.setVar m p.1 y) (VMap.setVar_wf hm p.1 y) hnd.2
      (fun q hq => by rw [hv1, hv2]; exact hdecl q (List.mem_cons_of_mem _ hq))
      (fun q hq => hf q (List.mem_cons_of_mem _ hq))
    refine ⟨r, ?_, h1, h2.trans hv2, h3.trans hv1, ?_, ?_⟩
    · simp only [List.foldlM_cons, hy, asg_set_ok hc, bind, Except.bind]
      exact hr
    · intro n hn
      rw [List.map_cons, List.mem_cons, not_or] at hn
      rw [h4 n hn.2, hv3, Function.update_of_ne hn.1]
    · intro q hq
      rcases List.mem_cons.1 hq with rfl | hq
      · refine ⟨y, ?_, hR⟩
        rw [h4 _ hnd.1, hv3, Function.update_self]
      · exact h5 q hq

theorem sets_of {check : Domain → Val → Except Err Unit} (s : Domain → List Atom)
    (hs : ∀ n a b, ∀ c ∈ s (.integer n a b), ∃ q : ℚ, c = .num (.fin q) ∧ q.den = 1)
    (hcheck : ∀ d x, x.Entry d (s d) → check d x = .ok ()) (m : Asg) (hm : VMap.WF m)
    (h : ∀ n v x, (VMap.view m).decl n = some v → (VMap.view m).val n = some x → x.Entry v.info (s v.info)) :
    ∃ r, m.scalar2sets check = .ok r ∧ VMap.WF r ∧ (VMap.view r).order = (VMap.view m).order ∧
      (VMap.view r).decl = (VMap.view m).decl ∧
      ∀ n v x, (VMap.view m).decl n = some v → (VMap.view m).val n = some x →
        ∃ y, (VMap.view r).val n = some y ∧ y.Entry v.info (s v.info) ∧ y.IsSet v.info ∧ (∀ a, y.Has a ↔ x.Has a) ∧
          (x.IsSet v.info → y = x) := by
  obtain ⟨-, -, -, -, -, -, is, hi1, hi2, -, -, hi3⟩ := C54_observe m hm
  obtain ⟨c, hc1, hc2⟩ := C54_copy m hm
  have hc3 : Asg.mk? check (is.map fun p => (Key.var p.1, p.2)) (m.vars.map Prod.snd) = .ok c := by
    rw [← hc1]
    unfold Asg.mk? VMap.copy VMap.mk?
    rw [hi1]
    exact asg_mk_eq is _ (fun p hp => hcheck _ _ (h _ _ _ (hi3 p hp).1 (hi3 p hp).2))
  have hcwf : VMap.WF c := by
    unfold VMap.copy at hc1
    rw [hi1] at hc1
    exact (C54_constructor _ _ _ hc1).1
  obtain ⟨-, -, -, ho1, ho2, -, cs, hs1, hs2, -, -, hs3⟩ := C54_observe c hcwf
  obtain ⟨r, hr, hwf, h1, h2, -, h5⟩ := replace_all (check := check) assignment2set
    (fun d x y => y.Entry d (s d) ∧ y.IsSet d ∧ (∀ a, y.Has a ↔ x.Has a) ∧ (x.IsSet d → y = x)) cs c hcwf
    (by rw [hs2]; exact ho2)
    (fun p hp => ⟨(hs3 p hp).1, (ho1 _).2 (by rw [(hs3 p hp).2]; simp)⟩)
    (by
      intro p hp
      obtain ⟨e1, e2⟩ := hs3 p hp
      rw [hc2] at e1 e2
      obtain ⟨y, hy, a1, a2, a3, a4⟩ := assignment2set_spec (h _ _ _ e1 e2)
        (fun n a b e => by rw [e]; exact hs n a b)
      exact ⟨y, hy, hcheck _ _ a1, a1, a2, a3, a4⟩)
  refine ⟨r, ?_, hwf, by rw [h1, hc2], by rw [h2, hc2], ?_⟩
  · unfold Asg.scalar2sets
    rw [hi1]
    change (Asg.mk? check (is.map fun p => (Key.var p.1, p.2)) (m.vars.map Prod.snd) >>= _) = _
    rw [hc3]
    change (VMap.items c >>= _) = _
    rw [hs1]
    exact hr
  · intro n v x hd hx
    have : n ∈ cs.map (fun i => i.1.name) := by
      rw [hs2]; exact (ho1 n).2 (by rw [hc2, hx]; simp)
    obtain ⟨p, hp, rfl⟩ := List.mem_map.1 this
    obtain ⟨e1, e2⟩ := hs3 p hp
    rw [hc2] at e1 e2
    rw [e1] at hd
    rw [e2] at hx
    cases hd
    cases hx
    exact h5 p hp

/-! ## Theorems -/

/-- C116: `scalar2sets` on a label assignment gives an assignment of the same variables in the same order, in which every
entry is a set of the variable's type that stands for the same labels; entries that are sets are kept. -/
theorem C116_labels (m : Asg) (hm : VMap.WF m)
    (h : ∀ n v x, (VMap.view m).decl n = some v → (VMap.view m).val n = some x → x.Entry v.info v.info.labels) :
    ∃ r, m.scalar2sets checkLabel = .ok r ∧ (VMap.view r).order = (VMap.view m).order ∧
      (VMap.view r).decl = (VMap.view m).decl ∧
      ∀ n v x, (VMap.view m).decl n = some v → (VMap.view m).val n = some x →
        ∃ y, (VMap.view r).val n = some y ∧ y.IsSet v.info ∧ (∀ a, y.Has a ↔ x.Has a) ∧ (x.IsSet v.info → y = x) := by
  obtain ⟨r, h1, -, h2, h3, h4⟩ := sets_of (check := checkLabel) Domain.labels (fun n a b c hc => mem_int_labels hc)
    (fun d x hx => by
      refine Domain.check_label ?_
      cases d with
      | integer n a b =>
        match x, hx with
        | .ev (.atom a), hx => exact fun b hb => by rw [List.mem_singleton.1 hb]; exact hx
        | .ev (.set l), hx => exact hx
      | _ => exact hx) m hm h
  exact ⟨r, h1, h2, h3, fun n v x hd hx => by
    obtain ⟨y, a1, -, a2⟩ := h4 n v x hd hx
    exact ⟨y, a1, a2⟩⟩

/-- C116: the same for value assignments. -/
theorem C116_values (m : Asg) (hm : VMap.WF m)
    (h : ∀ n v x, (VMap.view m).decl n = some v → (VMap.view m).val n = some x → x.Entry v.info v.info.values) :
    ∃ r, m.scalar2sets checkValue = .ok r ∧ (VMap.view r).order = (VMap.view m).order ∧
      (VMap.view r).decl = (VMap.view m).decl ∧
      ∀ n v x, (VMap.view m).decl n = some v → (VMap.view m).val n = some x →
        ∃ y, (VMap.view r).val n = some y ∧ y.IsSet v.info ∧ (∀ a, y.Has a ↔ x.Has a) ∧ (x.IsSet v.info → y = x) := by
  obtain ⟨r, h1, -, h2, h3, h4⟩ := sets_of (check := checkValue) Domain.values (fun n a b c hc => mem_values_int hc)
    (fun d x hx => by
      refine Domain.check_value ?_
      cases d with
      | integer n a b =>
        match x, hx with
        | .ev (.atom a), hx => exact fun b hb => by rw [List.mem_singleton.1 hb]; exact hx
        | .ev (.set l), hx => exact hx
      | _ => exact hx) m hm h
  exact ⟨r, h1, h2, h3, fun n v x hd hx => by
    obtain ⟨y, a1, -, a2⟩ := h4 n v x hd hx
    exact ⟨y, a1, a2⟩⟩

/-- A label assignment with a number, a string and an integer becomes one with an interval and two sets. -/
example : (do
    let m ← Asg.mk? checkLabel [(.var ⟨"x", .numeric "N"⟩, .ev (.atom (.int 2))),
      (.var ⟨"s", .symbolic "S" [.str "a", .str "b"]⟩, .ev (.atom (.str "b"))),
      (.var ⟨"i", .integer "I" 3 7⟩, .ev (.atom (.int 4)))] []
    let r ← m.scalar2sets checkLabel
    return r.map) = .ok [("x", .cs ⟨.fin 2, .fin 2, .inc, .inc⟩), ("s", .ev (.set [.str "b"])), ("i", .ev (.set [.int 4]))] := by
  decide +kernel

end Verif.Vars
