import Verif.Vars.Lemmas2

/-!
# Serialisation of variables: C55; label and value assignments: C56
-/

namespace Verif.Vars

/-! ## C55 -/

/-- C55: a domain written to JSON and read back is the same domain. -/
theorem C55_domain (d : Domain) (h : d.Serialisable) : Domain.ofJson d.toJson = .ok d := by
  cases d with
  | numeric name =>
    have h : name = "Numeric" := h
    subst h
    rfl
  | scaled name mean scale => rfl
  | symbolic name labels =>
    obtain ⟨h1, h2, h3⟩ := h
    have hl : (labels.map Atom.toJson).mapM Atom.ofJson = .ok labels := by
      clear h1 h2
      induction labels with
      | nil => rfl
      | cons a l ih =>
        rw [List.map_cons, List.mapM_cons, ih fun b hb => h3 b (List.mem_cons_of_mem _ hb)]
        have ha := h3 a List.mem_cons_self
        cases a with
        | str s => rfl
        | num x =>
          cases x with
          | fin q => rfl
          | ninf => exact (ha.1 rfl).elim
          | pinf => exact (ha.2 rfl).elim
    have hs : Disc.symbolicType name labels = .ok ⟨name, labels⟩ := by
      unfold Disc.symbolicType
      rw [if_neg, if_neg]
      · rw [List.Nodup.dedup h2]; simp
      · have := List.length_pos_iff.2 h1; omega
    have : Domain.ofJson (Domain.symbolic name labels).toJson
        = (do let ls ← (labels.map Atom.toJson).mapM Atom.ofJson
              let d ← Disc.symbolicType name ls
              return .symbolic d.name d.labels) := rfl
    rw [this, hl]
    simp only [bind, Except.bind, hs]
    rfl
  | integer name lmin lmax =>
    have hs : Disc.integerType name lmin lmax = .ok ⟨name, Disc.intLabels lmin lmax⟩ := by
      unfold Disc.integerType
      have h : lmin ≤ lmax := h
      rw [if_neg (by omega)]
    have : Domain.ofJson (Domain.integer name lmin lmax).toJson
        = (do let _ ← Disc.integerType name (lmin : ℚ).num (lmax : ℚ).num
              return .integer name (lmin : ℚ).num (lmax : ℚ).num) := rfl
    rw [this, Rat.num_intCast, Rat.num_intCast, hs]
    rfl

example : (Domain.symbolic "Color" [.str "red", .num (.fin 2)]).Serialisable := by
  refine ⟨by simp, by decide, by decide⟩

/-- C55, partial: a variable with a domain, written to JSON and read back (which is also what `copy` and
pickling do), has the same class, name and domain.  What is missing: its settings are back at the
defaults, see `C55_violated_settings`. -/
theorem C55_roundtrip_partial (v : Variable) (d : Domain) (hd : v.domain = some d) (h : d.Serialisable) :
    Variable.ofJson v.toJson = .ok ⟨v.kind, v.name, v.domain, v.kind.settings⟩ := by
  have hj := C55_domain d h
  obtain ⟨kind, name, dom, settings⟩ := v
  simp only at hd
  subst hd
  cases kind with
  | numeric =>
    have : Variable.ofJson (Variable.mk .numeric name (some d) settings).toJson
        = (do let d ← Domain.ofJson d.toJson; numericVariable name (some d) none none none none) := rfl
    rw [this, hj]; rfl
  | integer =>
    have : Variable.ofJson (Variable.mk .integer name (some d) settings).toJson
        = (do let d ← Domain.ofJson d.toJson; integerVariable name (some d) none) := rfl
    rw [this, hj]; rfl
  | symbolic =>
    have : Variable.ofJson (Variable.mk .symbolic name (some d) settings).toJson
        = (do let d ← Domain.ofJson d.toJson; symbolicVariable name (some d) none none) := rfl
    rw [this, hj]; rfl

/-- C55, partial: a copy equals the original if and only if the original's settings are the
defaults. -/
theorem C55_copy_partial (v : Variable) (d : Domain) (hd : v.domain = some d) (h : d.Serialisable) :
    v.copy = .ok v ↔ v.settings = v.kind.settings := by
  unfold Variable.copy
  rw [C55_roundtrip_partial v d hd h]
  obtain ⟨kind, name, dom, settings⟩ := v
  simp [eq_comm]

/-- A numeric variable with its own precision. -/
def exNum : Except Err Variable :=
  numericVariable "x" (some (.scaled "X" 3 2)) none none none (some (.num (1 / 2)))

example : exNum.map (fun v => v.settings.lookup "precision") = .ok (some (.num (1 / 2))) := by decide +kernel

/-- C55 is violated: the precision of a numeric variable, the impurity inversion of a symbolic one are
lost. -/
theorem C55_violated_settings :
    (do let v ← exNum; v.copy) = numericVariable "x" (some (.scaled "X" 3 2)) none none none none ∧
    (do let v ← exNum; v.copy) ≠ exNum ∧
    (do let v ← symbolicVariable "s" (some (.symbolic "S" [.str "a"])) none (some (.bool true)); v.copy)
      = symbolicVariable "s" (some (.symbolic "S" [.str "a"])) none none := by
  decide +kernel

/-- C55: a variable without a domain can be written, but not read. -/
theorem C55_no_domain (v : Variable) (hd : v.domain = none) : Variable.ofJson v.toJson = .error .typeError := by
  obtain ⟨kind, name, dom, settings⟩ := v
  simp only at hd
  subst hd
  cases kind <;> rfl

/-- C55: the constructors set what they are given, keep the defaults otherwise, and know no other
settings. -/
theorem C55_settings (mii blur ms pr inv : Option SVal) (name : String) (d : Option Domain) :
    (numericVariable name d mii blur ms pr).map (fun v => (v.kind, v.name, v.domain, v.settings))
      = .ok (.numeric, name, d, [("min_impurity_improvement", mii.getD (.num 0)), ("blur", blur.getD (.num 0)),
        ("max_std_lbl", ms.getD (.num 0)), ("precision", pr.getD (.num (1 / 100)))]) ∧
    (integerVariable name d mii).map (fun v => (v.kind, v.name, v.domain, v.settings))
      = .ok (.integer, name, d, [("min_impurity_improvement", mii.getD (.num 0))]) ∧
    (symbolicVariable name d mii inv).map (fun v => (v.kind, v.name, v.domain, v.settings))
      = .ok (.symbolic, name, d, [("min_impurity_improvement", mii.getD (.num 0)),
        ("invert_impurity", inv.getD (.bool false))]) ∧
    (∀ (k : VKind) (s : String) (x : Option SVal), s ∉ k.settings.map Prod.fst →
      Variable.mk? k name d [(s, x)] = .error .attributeError) := by
  refine ⟨?_, ?_, ?_, ?_⟩
  · cases mii <;> cases blur <;> cases ms <;> cases pr <;> rfl
  · cases mii <;> rfl
  · cases mii <;> cases inv <;> rfl
  · intro k s x h
    unfold Variable.mk?
    rw [List.foldlM_cons]
    simp only [if_neg h]
    rfl

/-! ## C56 -/

/-- C56: a label assignment whose values are of their variables' types turns into a value assignment
with the corresponding values of the same variables in the same order, and that one turns back
into the original items. -/
theorem C56_roundtrip (m : Asg) (hm : VMap.WF m)
    (h : ∀ n v x, (VMap.view m).decl n = some v → (VMap.view m).val n = some x → v.info.OK ∧ v.info.IsLabel x) :
    ∃ va la, m.valueAssignment = .ok va ∧ va.labelAssignment = .ok la ∧
      (VMap.view va).order = (VMap.view m).order ∧ (VMap.view la).order = (VMap.view m).order ∧
      (∀ n v x, (VMap.view m).decl n = some v → (VMap.view m).val n = some x →
        (VMap.view va).decl n = some v ∧ (∃ y, (VMap.view va).val n = some y ∧ v.info.Corr x y ∧ v.info.IsValue y) ∧
        (VMap.view la).decl n = some v ∧ (VMap.view la).val n = some x) := by
  obtain ⟨va, a1, a2, a3, a4, a5⟩ := convert_all hm Domain.label2value checkValue
    (fun d x y => d.OK ∧ d.IsLabel x ∧ d.Corr x y ∧ d.IsValue y) (by
      intro n v x hv hx
      obtain ⟨h1, h2⟩ := h n v x hv hx
      obtain ⟨y, hy, hc, hy'⟩ := Domain.label_value h1 h2
      exact ⟨y, hy, Domain.check_value hy', h1, h2, hc, hy'⟩)
  have hback : ∀ n v y, (VMap.view va).decl n = some v → (VMap.view va).val n = some y →
      ∃ x, (VMap.view m).decl n = some v ∧ (VMap.view m).val n = some x ∧ v.info.OK ∧ v.info.IsLabel x ∧ v.info.Corr x y := by
    intro n v y hv hy
    rw [a4] at hv
    split_ifs at hv with hn
    obtain ⟨x, hx⟩ := Option.ne_none_iff_exists'.1 hn
    obtain ⟨y', hy', r1, r2, r3, _⟩ := a5 n v x hv hx
    rw [hy] at hy'
    cases hy'
    exact ⟨x, hv, hx, r1, r2, r3⟩
  obtain ⟨la, b1, b2, b3, b4, b5⟩ := convert_all a2 Domain.value2label checkLabel
    (fun d y x => d.value2label y = .ok x) (by
      intro n v y hv hy
      obtain ⟨x, _, _, r1, r2, r3⟩ := hback n v y hv hy
      have := Domain.corr_back r1 r3 r2
      exact ⟨x, this, Domain.check_label r2, this⟩)
  refine ⟨va, la, a1, b1, a3, b3.trans a3, ?_⟩
  intro n v x hv hx
  obtain ⟨y, hy, r1, r2, r3, r4⟩ := a5 n v x hv hx
  have hva : (VMap.view va).decl n = some v := by
    rw [a4, if_neg (by rw [hx]; simp)]; exact hv
  obtain ⟨x', hx', hc⟩ := b5 n v y hva hy
  refine ⟨hva, ⟨y, hy, r3, r4⟩, ?_, ?_⟩
  · rw [b4, if_neg (by rw [hy]; simp)]; exact hva
  · rw [hx', ← Except.ok.inj (hc.symm.trans (Domain.corr_back r1 r3 r2))]

/-- C56: and the other way round. -/
theorem C56_roundtrip_values (m : Asg) (hm : VMap.WF m)
    (h : ∀ n v y, (VMap.view m).decl n = some v → (VMap.view m).val n = some y → v.info.OK ∧ v.info.IsValue y) :
    ∃ la va, m.labelAssignment = .ok la ∧ la.valueAssignment = .ok va ∧
      (VMap.view la).order = (VMap.view m).order ∧ (VMap.view va).order = (VMap.view m).order ∧
      (∀ n v y, (VMap.view m).decl n = some v → (VMap.view m).val n = some y →
        (VMap.view la).decl n = some v ∧ (∃ x, (VMap.view la).val n = some x ∧ v.info.Corr x y ∧ v.info.IsLabel x) ∧
        (VMap.view va).decl n = some v ∧ (VMap.view va).val n = some y) := by
  obtain ⟨la, a1, a2, a3, a4, a5⟩ := convert_all hm Domain.value2label checkLabel
    (fun d y x => d.OK ∧ d.IsValue y ∧ d.Corr x y ∧ d.IsLabel x) (by
      intro n v x hv hx
      obtain ⟨h1, h2⟩ := h n v x hv hx
      obtain ⟨y, hy, hc, hy'⟩ := Domain.value_label h1 h2
      exact ⟨y, hy, Domain.check_label hy', h1, h2, hc, hy'⟩)
  have hback : ∀ n v x, (VMap.view la).decl n = some v → (VMap.view la).val n = some x →
      ∃ y, v.info.OK ∧ v.info.IsValue y ∧ v.info.Corr x y := by
    intro n v x hv hx
    rw [a4] at hv
    split_ifs at hv with hn
    obtain ⟨y, hy⟩ := Option.ne_none_iff_exists'.1 hn
    obtain ⟨x', hx', r1, r2, r3, _⟩ := a5 n v y hv hy
    rw [hx] at hx'
    cases hx'
    exact ⟨y, r1, r2, r3⟩
  obtain ⟨va, b1, b2, b3, b4, b5⟩ := convert_all a2 Domain.label2value checkValue
    (fun d x y => d.label2value x = .ok y) (by
      intro n v x hv hx
      obtain ⟨y, r1, r2, r3⟩ := hback n v x hv hx
      have := Domain.corr_forth r1 r3 r2
      exact ⟨y, this, Domain.check_value r2, this⟩)
  refine ⟨la, va, a1, b1, a3, b3.trans a3, ?_⟩
  intro n v y hv hy
  obtain ⟨x, hx, r1, r2, r3, r4⟩ := a5 n v y hv hy
  have hla : (VMap.view la).decl n = some v := by
    rw [a4, if_neg (by rw [hy]; simp)]; exact hv
  obtain ⟨y', hy', hc⟩ := b5 n v x hla hx
  refine ⟨hla, ⟨x, hx, r3, r4⟩, ?_, ?_⟩
  · rw [b4, if_neg (by rw [hx]; simp)]; exact hla
  · rw [hy', ← Except.ok.inj (hc.symm.trans (Domain.corr_forth r1 r3 r2))]

/-- Three variables and a label assignment. -/
def exVars : List (Var Domain) := [⟨"x", .scaled "X" 3 2⟩, ⟨"s", .symbolic "S" [.str "a", .str "b", .str "c"]⟩,
  ⟨"i", .integer "I" (-1) 4⟩]

/-- A label assignment over the three. -/
def exLabels : Except Err Asg := Asg.mk? checkLabel
  [(.var ⟨"x", .scaled "X" 3 2⟩, .cs ⟨.ninf, .fin 5, .exc, .inc⟩),
   (.var ⟨"s", .symbolic "S" [.str "a", .str "b", .str "c"]⟩, .ev (.set [.str "c", .str "a"])),
   (.var ⟨"i", .integer "I" (-1) 4⟩, .ev (.atom (.int 3)))] exVars

example : (do (← exLabels).valueAssignment).map VMap.map = .ok [("x", .cs ⟨.ninf, .fin 1, .exc, .inc⟩),
    ("s", .ev (.set [.int 2, .int 0])), ("i", .ev (.atom (.int 4)))] ∧
    (do (← (← exLabels).valueAssignment).labelAssignment).map VMap.map = exLabels.map VMap.map := by decide +kernel

example : (exVars.map fun v => v.info).all (fun d => match d with
    | .scaled _ _ s => decide (0 < s) | .symbolic _ l => decide l.Nodup | _ => true) = true := by decide +kernel

/-- C56, partial: a label assignment addressed by the variable object of a numeric or symbolic
variable accepts exactly the values of the variable's type, a value assignment those of a numeric
variable and single values of a symbolic one; `TypeError` otherwise.  What is missing: names, integer
variables, and sets of values (see the three violations). -/
theorem C56_accepts_partial (m : Asg) (v : Var Domain) (x : Val) (hx : x.Exists)
    (hv : ∀ n a b, v.info ≠ .integer n a b) :
    (∀ m', m.setLabel (.var v) x = .ok m' → v.info.IsLabel x ∧ (VMap.view m').val v.name = some x) ∧
    (¬ v.info.IsLabel x → m.setLabel (.var v) x = .error .typeError) ∧
    ((∀ l, x ≠ .ev (.set l)) →
      (∀ m', m.setValue (.var v) x = .ok m' → v.info.IsValue x ∧ (VMap.view m').val v.name = some x) ∧
      (¬ v.info.IsValue x → m.setValue (.var v) x = .error .typeError)) := by
  have hnum : x.isNumeric = true → x.Number := by
    intro h
    cases x with
    | cs c => exact hx
    | rs l => exact hx
    | ev e =>
      cases e with
      | atom a =>
        cases a with
        | num q => trivial
        | str s => cases h
      | list l => cases h
      | tuple l => cases h
      | set l => cases h
  have hsym : ∀ s : List Atom, (∀ a ∈ x.asSet, a ∈ s.map some) → x.Symbol s := by
    intro s h
    cases x with
    | cs c => simp [Val.asSet] at h
    | rs l => simp [Val.asSet] at h
    | ev e =>
      cases e with
      | atom a => simpa [Val.asSet, Val.Symbol] using h
      | list l => simp [Val.asSet] at h
      | tuple l => simp [Val.asSet] at h
      | set l => exact ⟨hx, by simpa [Val.asSet] using h⟩
  have hstore : ∀ m' : Asg, VMap.set m (.var v) x = .ok m' → (VMap.view m').val v.name = some x := by
    intro m' e
    cases e
    rw [VMap.setVar_view]
    simp [Function.update_self]
  have hcl : checkLabel v.info x = .ok () ∧ v.info.IsLabel x ∨
      checkLabel v.info x = .error .typeError ∧ ¬ v.info.IsLabel x := by
    by_cases hl : v.info.IsLabel x
    · exact Or.inl ⟨Domain.check_label hl, hl⟩
    · refine Or.inr ⟨?_, hl⟩
      cases hd : v.info with
      | numeric _ => rw [hd] at hl; exact if_neg fun e => hl (hnum e)
      | scaled _ _ _ => rw [hd] at hl; exact if_neg fun e => hl (hnum e)
      | symbolic _ ls => rw [hd] at hl; exact if_neg fun e => hl (hsym ls e)
      | integer n a b => exact (hv n a b hd).elim
  refine ⟨?_, ?_, ?_⟩
  · intro m' e
    rcases hcl with ⟨h1, h2⟩ | ⟨h1, h2⟩
    · refine ⟨h2, ?_⟩
      simp only [Asg.setLabel, Asg.set, h1, bind, Except.bind] at e
      exact hstore m' e
    · simp only [Asg.setLabel, Asg.set, h1, bind, Except.bind] at e
      cases e
  · intro hl
    rcases hcl with ⟨h1, h2⟩ | ⟨h1, h2⟩
    · exact (hl h2).elim
    · simp only [Asg.setLabel, Asg.set, h1, bind, Except.bind]
  · intro hset
    have hcv : checkValue v.info x = .ok () ∧ v.info.IsValue x ∨
        checkValue v.info x = .error .typeError ∧ ¬ v.info.IsValue x := by
      by_cases hl : v.info.IsValue x
      · exact Or.inl ⟨Domain.check_value hl, hl⟩
      · refine Or.inr ⟨?_, hl⟩
        cases hd : v.info with
        | numeric _ => rw [hd] at hl; exact if_neg fun e => hl (hnum e)
        | scaled _ _ _ => rw [hd] at hl; exact if_neg fun e => hl (hnum e)
        | symbolic n ls =>
          rw [hd] at hl
          have hl' : ¬ ∀ a ∈ x.asSet, a ∈ (List.range ls.length).map (fun i : ℕ => some (Atom.int i)) := by
            intro e
            refine hl (hsym (Domain.symbolic n ls).values ?_)
            unfold Domain.values
            rw [List.map_map]
            exact e
          cases x with
          | cs c => exact if_neg hl'
          | rs l => exact if_neg hl'
          | ev e =>
            cases e with
            | atom a => exact if_neg hl'
            | list l => exact if_neg hl'
            | tuple l => exact if_neg hl'
            | set l => exact (hset l rfl).elim
        | integer n a b => exact (hv n a b hd).elim
    refine ⟨?_, ?_⟩
    · intro m' e
      rcases hcv with ⟨h1, h2⟩ | ⟨h1, h2⟩
      · refine ⟨h2, ?_⟩
        simp only [Asg.setValue, Asg.set, h1, bind, Except.bind] at e
        exact hstore m' e
      · simp only [Asg.setValue, Asg.set, h1, bind, Except.bind] at e
        cases e
    · intro hl
      rcases hcv with ⟨h1, h2⟩ | ⟨h1, h2⟩
      · exact (hl h2).elim
      · simp only [Asg.setValue, Asg.set, h1, bind, Except.bind]

/-- C56, partial: whatever history of assignments to variable objects of numeric and symbolic
variables with distinct names, accepted or rejected, a label assignment holds only values of the variables' types. -/
theorem C56_history_partial (vs : List (Var Domain)) (hvs : (vs.map Var.name).Nodup)
    (hint : ∀ v ∈ vs, ∀ n a b, v.info ≠ .integer n a b) (m : Asg)
    (hdecl : ∀ n v, (VMap.view m).decl n = some v → v ∈ vs ∧ v.name = n)
    (hm : ∀ n x, (VMap.view m).val n = some x → ∃ v, (VMap.view m).decl n = some v ∧ v.info.IsLabel x)
    (ops : List (Var Domain × Val)) (hops : ∀ p ∈ ops, p.1 ∈ vs ∧ p.2.Exists) (n : String) (x : Val) :
    (VMap.view (Asg.run Asg.setLabel m (ops.map fun p => (.var p.1, p.2)))).val n = some x →
    ∃ v, (VMap.view (Asg.run Asg.setLabel m (ops.map fun p => (.var p.1, p.2)))).decl n = some v ∧
      v ∈ vs ∧ v.info.IsLabel x := by
  have key : ∀ (ops : List (Var Domain × Val)) (m : Asg), (∀ p ∈ ops, p.1 ∈ vs ∧ p.2.Exists) →
      (∀ n v, (VMap.view m).decl n = some v → v ∈ vs ∧ v.name = n) →
      (∀ n x, (VMap.view m).val n = some x → ∃ v, (VMap.view m).decl n = some v ∧ v.info.IsLabel x) →
      (∀ n v, (VMap.view (Asg.run Asg.setLabel m (ops.map fun p => (.var p.1, p.2)))).decl n = some v → v ∈ vs ∧ v.name = n) ∧
      (∀ n x, (VMap.view (Asg.run Asg.setLabel m (ops.map fun p => (.var p.1, p.2)))).val n = some x →
        ∃ v, (VMap.view (Asg.run Asg.setLabel m (ops.map fun p => (.var p.1, p.2)))).decl n = some v ∧ v.info.IsLabel x) := by
    intro ops
    induction ops with
    | nil => intro m _ h1 h2; exact ⟨h1, h2⟩
    | cons p ops ih =>
      intro m hp h1 h2
      obtain ⟨hpv, hpx⟩ := hp p List.mem_cons_self
      have ih' := fun m => ih m fun q hq => hp q (List.mem_cons_of_mem _ hq)
      show (∀ n v, (VMap.view (Asg.run Asg.setLabel (match m.setLabel (.var p.1) p.2 with | .ok m' => m' | .error _ => m)
          (ops.map fun p => (.var p.1, p.2)))).decl n = some v → _) ∧ _
      cases hs : m.setLabel (.var p.1) p.2 with
      | error e =>
        have e1 : Asg.run Asg.setLabel m ((p :: ops).map fun p => (Key.var p.1, p.2))
            = Asg.run Asg.setLabel m (ops.map fun p => (Key.var p.1, p.2)) := by
          unfold Asg.run
          rw [List.map_cons, List.foldl_cons]
          simp only [hs]
        rw [e1]
        exact ih' m h1 h2
      | ok m' =>
        have e1 : Asg.run Asg.setLabel m ((p :: ops).map fun p => (Key.var p.1, p.2))
            = Asg.run Asg.setLabel m' (ops.map fun p => (Key.var p.1, p.2)) := by
          unfold Asg.run
          rw [List.map_cons, List.foldl_cons]
          simp only [hs]
        rw [e1]
        obtain ⟨hl, _⟩ := (C56_accepts_partial m p.1 p.2 hpx (hint _ hpv)).1 m' hs
        have hm' : m' = m.setVar p.1 p.2 := by
          simp only [Asg.setLabel, Asg.set, Domain.check_label hl, bind, Except.bind, VMap.set] at hs
          exact (Except.ok.inj hs).symm
        have hd' : ∀ n v, (VMap.view m').decl n = some v → v ∈ vs ∧ v.name = n := by
          intro n v hv
          rw [hm', VMap.setVar_view] at hv
          simp only at hv
          split_ifs at hv
          · by_cases hn : n = p.1.name
            · subst hn
              rw [Function.update_self] at hv
              cases hv
              exact ⟨hpv, rfl⟩
            · rw [Function.update_of_ne hn] at hv
              exact h1 n v hv
          · exact h1 n v hv
        refine ih' m' hd' ?_
        intro n x hx
        rw [hm', VMap.setVar_view] at hx ⊢
        simp only at hx ⊢
        by_cases hn : n = p.1.name
        · subst hn
          rw [Function.update_self] at hx
          cases hx
          split_ifs with hno
          · exact ⟨p.1, Function.update_self .., hl⟩
          · obtain ⟨v, hv⟩ := Option.ne_none_iff_exists'.1 hno
            obtain ⟨hv1, hv2⟩ := h1 _ v hv
            have : v = p.1 := List.inj_on_of_nodup_map hvs hv1 hpv hv2
            exact ⟨p.1, this ▸ hv, hl⟩
        · rw [Function.update_of_ne hn] at hx
          obtain ⟨v, hv, hl⟩ := h2 n x hx
          refine ⟨v, ?_, hl⟩
          split_ifs
          · rw [Function.update_of_ne hn]; exact hv
          · exact hv
  intro hx
  obtain ⟨k1, k2⟩ := key ops m hops hdecl hm
  obtain ⟨v, hv, hl⟩ := k2 n x hx
  exact ⟨v, hv, (k1 n v hv).1, hl⟩

/-- C56 is violated: addressed by its name, a numeric variable takes a string. -/
theorem C56_violated_name :
    (Asg.setLabel (VMap.empty exVars) (.name "x") (.ev (.atom (.str "foo")))).map VMap.map
      = .ok [("x", .ev (.atom (.str "foo")))] ∧
    Asg.setLabel (VMap.empty exVars) (.var ⟨"x", .scaled "X" 3 2⟩) (.ev (.atom (.str "foo")))
      = .error .typeError := by decide +kernel

/-- C56 is violated: a value assignment takes any set for a symbolic variable; converting it then
fails. -/
theorem C56_violated_valueset :
    (Asg.setValue (VMap.empty exVars) (.var ⟨"s", .symbolic "S" [.str "a", .str "b", .str "c"]⟩)
      (.ev (.set [.int 7]))).map VMap.map = .ok [("s", .ev (.set [.int 7]))] ∧
    (do (← Asg.setValue (VMap.empty exVars) (.var ⟨"s", .symbolic "S" [.str "a", .str "b", .str "c"]⟩)
      (.ev (.set [.int 7]))).labelAssignment) = .error .valueError := by decide +kernel

/-- C56 is violated: integer variables take anything. -/
theorem C56_violated_integer :
    (Asg.setLabel (VMap.empty exVars) (.var ⟨"i", .integer "I" (-1) 4⟩) (.ev (.atom (.str "foo")))).map VMap.map
      = .ok [("i", .ev (.atom (.str "foo")))] ∧
    (Asg.setLabel (VMap.empty exVars) (.var ⟨"i", .integer "I" (-1) 4⟩) (.ev (.atom (.int 17)))).map VMap.map
      = .ok [("i", .ev (.atom (.int 17)))] := by decide +kernel

end Verif.Vars
