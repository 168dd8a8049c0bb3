import Verif.Vars.BindLemmas
import Verif.Vars.Props2

/-!
# C87: `bind` assigns to each variable what the user describes

The model is `Verif.Vars.Bind`, the specification `Verif.Vars.BindSpec`.
-/

namespace Verif.Vars

/-- C87: the variables the user does not mention, or only with `None`, are not assigned; every other variable has
exactly the labels that are described by the last value given for it.  The assignment knows the variables of the
tree.  `skip` ignores unknown names. -/
theorem C87_meaning {vs : List (Var Domain)} (hvs : (vs.map Var.name).Nodup) {skip : Bool} {o : BindOpts}
    {q : List (Key Domain × UArg)} (hq : ∀ p ∈ q, ∀ v, p.1 = .var v → v ∈ vs) {m : Asg}
    (hm : preprocessQuery vs noBlur skip o q = .ok m) :
    VMap.WF m ∧ (∀ v ∈ vs, (VMap.view m).decl v.name = some v) ∧
    (∀ n, (∀ p ∈ q, p.2 ≠ .none → ∀ v, Named vs p.1 v → v.name ≠ n) → (VMap.view m).val n = none) ∧
    ∀ pre k u post v, q = pre ++ (k, u) :: post → u ≠ .none → Named vs k v →
      (∀ p ∈ post, p.2 ≠ .none → ¬ Named vs p.1 v) →
      ∃ x, (VMap.view m).val v.name = some x ∧ ∀ a, x.Has a ↔ u.Describes v.info a := by
  obtain ⟨h1, h2, h3, h4, -⟩ := preprocess_last hvs hq hm
  refine ⟨h1, h2, h3, fun pre k u post v e hu hk hp => ?_⟩
  obtain ⟨x, h5, h6⟩ := h4 pre k u post v e hu hk hp
  exact ⟨x, h5, prepare_meaning h6⟩

/-- C87: a query of labels is accepted exactly if every value is `None` or belongs to a variable known by its name, or
given as an object, and is one that its domain admits: numbers, lists of two numbers or `None` in the right order,
intervals and sets of them for numeric variables, labels, lists and sets of labels for symbolic ones, lists of two
integers, sets and single values for integer ones. -/
theorem C87_accepts {vs : List (Var Domain)} (hvs : (vs.map Var.name).Nodup) (singular : Bool)
    (q : List (Key Domain × UArg)) :
    (∃ m, preprocessQuery vs noBlur false ⟨singular, true⟩ q = .ok m) ↔
      ∀ p ∈ q, p.2 = .none ∨ ∃ v, Named vs p.1 v ∧ p.2.Accepts v.info := by
  have key : ∀ (q : List (Key Domain × UArg)) (m0 : Asg),
      (∃ m, q.foldlM (prepareStep vs noBlur false ⟨singular, true⟩) m0 = .ok m) ↔
        ∀ p ∈ q, p.2 = .none ∨ ∃ v, Named vs p.1 v ∧ p.2.Accepts v.info := by
    intro q
    induction q with
    | nil => intro m0; exact ⟨fun _ p hp => by simp at hp, fun _ => ⟨m0, rfl⟩⟩
    | cons p q ih =>
      intro m0
      have hstep : (∃ m1, prepareStep vs noBlur false ⟨singular, true⟩ m0 p = .ok m1) ↔
          (p.2 = .none ∨ ∃ v, Named vs p.1 v ∧ p.2.Accepts v.info) := by
        constructor
        · rintro ⟨m1, h⟩
          rcases prepareStep_ok.1 h with ⟨h1, -⟩ | ⟨-, -, h1, -⟩ | ⟨v, x, -, h2, h3, h4, -⟩
          · exact .inl h1
          · cases h1
          · exact .inr ⟨v, (resolve_iff hvs).1 h2, prepare_accepts.1 ⟨x, h3, h4⟩⟩
        · intro h
          by_cases h0 : p.2 = .none
          · exact ⟨m0, prepareStep_ok.2 (.inl ⟨h0, rfl⟩)⟩
          · rcases h with h | ⟨v, h1, h2⟩
            · exact absurd h h0
            · obtain ⟨x, h3, h4⟩ := (prepare_accepts (singular := singular)).2 h2
              exact ⟨_, prepareStep_ok.2 (.inr (.inr ⟨v, x, h0, (resolve_iff hvs).2 h1, h3, h4, rfl⟩))⟩
      rw [List.forall_mem_cons, ← hstep, List.foldlM_cons]
      cases hs : prepareStep vs noBlur false ⟨singular, true⟩ m0 p with
      | error e => simp [bind, Except.bind]
      | ok m1 =>
        have h1 : (∃ m2, (Except.ok m1 : Except Err Asg) = .ok m2) := ⟨m1, rfl⟩
        simp only [h1, true_and]
        exact ih m1
  exact key q (VMap.empty vs)

/-- C87: names may be passed as keywords or in a dictionary; without any argument, and for `None`, nothing is
assigned; more than one argument, and arguments other than dictionaries, are refused. -/
theorem C87_forms (vs : List (Var Domain)) (blur : Var Domain → Option (XQ → Except Err RI))
    (q : List (String × UArg)) (a b : PArg) (l : List PArg) :
    bindQuery vs blur [] q = bindQuery vs blur [.dict (q.map fun p => (.name p.1, p.2))] [] ∧
    bindQuery vs blur [] [] = .ok (VMap.empty vs) ∧ bindQuery vs blur [.none] [] = .ok (VMap.empty vs) ∧
    bindQuery vs blur (a :: b :: l) q = .error .valueError ∧ bindQuery vs blur [.other] q = .error .valueError := by
  refine ⟨?_, rfl, ?_, ?_, rfl⟩
  · simp [bindQuery, optsOf, bind, Except.bind, pure, Except.pure]
  · simp [bindQuery, optsOf, bind, Except.bind, pure, Except.pure, preprocessQuery]
  · cases a <;> rfl

/-- C87: the option `allow_singular_values` counts as given unless it is `None`, 0 or empty; the option `space` must be `labels`, which
is the default, or `values`. -/
theorem C87_options (vs : List (Var Domain)) (blur : Var Domain → Option (XQ → Except Err RI))
    (q : List (Key Domain × UArg)) (a : UArg) :
    (a ∈ [.none, .atom (.num (.fin 0)), .atom (.str ""), .list [], .tuple [], .set []] →
      bindQuery vs blur [.dict q] [("allow_singular_values", a)] = bindQuery vs blur [.dict q] []) ∧
    (a ∉ [.none, .atom (.num (.fin 0)), .atom (.str ""), .list [], .tuple [], .set []] →
      bindQuery vs blur [.dict q] [("allow_singular_values", a)] =
        bindQuery vs blur [.dict q] [("allow_singular_values", .atom (.num (.fin 1)))]) ∧
    bindQuery vs blur [.dict q] [("space", .atom (.str "labels"))] = bindQuery vs blur [.dict q] [] ∧
    (a ≠ .atom (.str "labels") → a ≠ .atom (.str "values") → bindQuery vs blur [.dict q] [("space", a)] = .error .valueError) := by
  have hl1 : ∀ b : UArg, List.lookup "space" [("allow_singular_values", b)] = none := fun _ => rfl
  have hl2 : ∀ b : UArg, List.lookup "allow_singular_values" [("space", b)] = none := fun _ => rfl
  have hopt : ∀ b : UArg, bindQuery vs blur [.dict q] [("allow_singular_values", b)] =
      preprocessQuery vs blur false ⟨b.truth, true⟩ q := by
    intro b
    simp [hl1, bindQuery, optsOf, bindOptions, bind, Except.bind, pure, Except.pure]
  have hno : bindQuery vs blur [.dict q] [] = preprocessQuery vs blur false ⟨false, true⟩ q := by
    simp [bindQuery, optsOf, bind, Except.bind, pure, Except.pure]
  refine ⟨fun h => ?_, fun h => ?_, ?_, fun h1 h2 => ?_⟩
  · rw [hopt, hno]
    have : a.truth = false := by
      simp only [List.mem_cons, List.not_mem_nil, or_false] at h
      rcases h with rfl | rfl | rfl | rfl | rfl | rfl <;> simp [UArg.truth]
    rw [this]
  · rw [hopt, hopt]
    have e : (UArg.atom (.num (.fin 1))).truth = true := by decide +kernel
    have : a.truth = true := by
      simp only [List.mem_cons, List.not_mem_nil, or_false, not_or] at h
      obtain ⟨h1, h2, h3, h4, h5, h6⟩ := h
      unfold UArg.truth
      split <;> simp_all
    rw [this, e]
  · rw [hno]
    simp [hl2, bindQuery, optsOf, bindOptions, bind, Except.bind, pure, Except.pure]
  · simp [bindQuery, optsOf, bindOptions, bind, Except.bind, h1, h2]

/-- C87: a name the tree does not know raises the exception, if what is bound before it is accepted. -/
theorem C87_unknown {vs : List (Var Domain)} (hvs : (vs.map Var.name).Nodup) (n : String) (hn : n ∉ vs.map Var.name)
    (u : UArg) (hu : u ≠ .none) (pre post : List (String × UArg))
    (hpre : ∀ p ∈ pre, p.2 = .none ∨ ∃ v ∈ vs, v.name = p.1 ∧ p.2.Accepts v.info) :
    bindQuery vs noBlur [] (pre ++ (n, u) :: post) = .error .runtimeError := by
  obtain ⟨m, hm⟩ := (C87_accepts hvs false (pre.map fun p => (.name p.1, p.2))).2 (by
    intro p hp
    obtain ⟨r, hr, rfl⟩ := List.mem_map.1 hp
    rcases hpre r hr with h | ⟨v, hv, he, ha⟩
    · exact .inl h
    · exact .inr ⟨v, .inr ⟨by rw [he], hv⟩, ha⟩)
  have hres : resolve vs (.name n) = none := by
    cases h : resolve vs (.name n) with
    | none => rfl
    | some v =>
      rcases (resolve_iff hvs).1 h with h | ⟨h, hv⟩
      · cases h
      · cases h; exact absurd (List.mem_map.2 ⟨v, hv, rfl⟩) hn
  have hstep : prepareStep vs noBlur false ⟨false, true⟩ m (.name n, u) = .error .runtimeError := by
    unfold prepareStep
    rw [if_neg hu]
    simp only [hres]
    rfl
  unfold bindQuery preprocessQuery
  unfold preprocessQuery at hm
  simp only [List.map_append, List.map_cons, List.foldlM_append, hm, bind, Except.bind, List.foldlM_cons, hstep]

/-! ### Examples and violations -/

/-- A numeric, a symbolic and an integer variable. -/
abbrev exBind : List (Var Domain) :=
  [⟨"x", .numeric "X"⟩, ⟨"s", .symbolic "S" [.str "a", .str "b", .str "c"]⟩, ⟨"i", .integer "I" 1 6⟩]

/-- All kinds of values in one query; `[2, 4]` means the set of the integers from 2 to 4, and a symbol the set of it. -/
example : (bindQuery exBind noBlur [] [("x", .list [none, some (.int 3)]), ("s", .atom (.str "a")),
      ("i", .list [some (.int 2), some (.int 4)])]).map VMap.map =
    .ok [("x", .cs ⟨.ninf, .fin 3, .inc, .inc⟩), ("s", .ev (.set [.str "a"])),
      ("i", .ev (.set [.int 2, .int 3, .int 4]))] := by decide +kernel

example : (exBind.map Var.name).Nodup := by decide

example : (UArg.list [none, some (.int 3)]).Accepts (.numeric "X") ∧
    ¬ (UArg.list [some (.int 3), some (.int 1)]).Accepts (.numeric "X") ∧
    ¬ (UArg.atom (.str "d")).Accepts (.symbolic "S" [.str "a", .str "b", .str "c"]) := by
  refine ⟨⟨by simp, by simp [Atom.int], ?_⟩, ?_, by simp [UArg.Accepts]⟩
  · rintro l u (h | ⟨-, rfl⟩) -
    · cases h
    · exact (rfl : XQ.le .ninf u = true)
  · intro h
    have := h.2.2 (.fin 3) (.fin 1) (.inl rfl) (.inl rfl)
    revert this
    decide +kernel

/-- C87 is violated: the documentation of `bind` says that keyword arguments may specify additional pairs, but with a
dictionary they are refused. -/
theorem C87_violated_additional :
    bindQuery exBind noBlur [.dict [(.name "x", .atom (.int 1))]] [("s", .atom (.str "a"))] = .error .valueError := by
  decide +kernel

/-- C87 is violated: labels outside the domain of a symbolic variable are refused, but integers outside the domain of an
integer variable, and even strings, are accepted; the error comes when the assignment is used. -/
theorem C87_violated_integer :
    (bindQuery exBind noBlur [] [("s", .atom (.str "d"))]).map VMap.map = .error .typeError ∧
    (bindQuery exBind noBlur [] [("i", .atom (.int 7))]).map VMap.map = .ok [("i", .ev (.set [.int 7]))] ∧
    (bindQuery exBind noBlur [] [("i", .atom (.str "d"))]).map VMap.map = .ok [("i", .ev (.set [.str "d"]))] ∧
    (do (← bindQuery exBind noBlur [] [("i", .atom (.int 7))]).valueAssignment).map VMap.map = .error .valueError := by
  decide +kernel

/-- C87 is violated: an unknown name raises an exception, but the object of a variable the tree does not have is
accepted. -/
theorem C87_violated_foreign :
    (bindQuery exBind noBlur [] [("y", .atom (.int 1))]).map VMap.map = .error .runtimeError ∧
    (bindQuery exBind noBlur [.dict [(.var ⟨"y", .numeric "Y"⟩, .atom (.int 1))]] []).map VMap.map
      = .ok [("y", .cs ⟨.fin 1, .fin 1, .inc, .inc⟩)] := by decide +kernel

end Verif.Vars
