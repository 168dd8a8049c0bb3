import Verif.Vars.Settings

/-!
# C129: settings of variables and distributions
-/

namespace Verif.Opts

variable {K V : Type} [DecidableEq K]

/-! ## Specification -/

/-- A class as those of the library: no setting twice, no setting with the name of an attribute. -/
structure Proper (c : Cls K V) : Prop where
  once : (c.defaults.map Prod.fst).Nodup
  free : ∀ p ∈ c.defaults, c.taken p.1 = false

/-! ## Lemmas -/

theorem keys_setAll {keep : Bool} : ∀ {given d r : List (K × Option V)}, setAll keep d given = .ok r →
    r.map Prod.fst = d.map Prod.fst
  | [], d, r, h => by simp only [setAll, Except.ok.injEq] at h; rw [h]
  | (k, v) :: given, d, r, h => by
    simp only [setAll] at h
    split_ifs at h with hk hv
    · rw [keys_setAll h, Dict.keys_set, if_pos hk]
    · exact keys_setAll h

theorem setAll_ok_iff {keep : Bool} : ∀ {given d : List (K × Option V)},
    (∃ r, setAll keep d given = .ok r) ↔ ∀ p ∈ given, p.1 ∈ d.map Prod.fst
  | [], d => by simp [setAll]
  | (k, v) :: given, d => by
    simp only [setAll]
    split_ifs with hk hv
    · rw [setAll_ok_iff, Dict.keys_set, if_pos hk]
      simp only [List.mem_cons, forall_eq_or_imp]
      exact ⟨fun h => ⟨hk, h⟩, fun h => h.2⟩
    · rw [setAll_ok_iff]
      simp only [List.mem_cons, forall_eq_or_imp]
      exact ⟨fun h => ⟨hk, h⟩, fun h => h.2⟩
    · constructor
      · rintro ⟨r, hr⟩; cases hr
      · intro h; exact absurd (h _ List.mem_cons_self) hk

theorem lookup_setAll {keep : Bool} : ∀ {given d r : List (K × Option V)}, setAll keep d given = .ok r →
    (given.map Prod.fst).Nodup → ∀ k, r.lookup k = match given.lookup k with
      | some v => if keep || v.isSome then some v else d.lookup k
      | none => d.lookup k
  | [], d, r, h, _, k => by simp only [setAll, Except.ok.injEq] at h; simp [h]
  | (j, v) :: given, d, r, h, hn, k => by
    simp only [setAll] at h
    rw [List.map_cons, List.nodup_cons] at hn
    split_ifs at h with hk hv
    · rw [lookup_setAll h hn.2 k, Dict.lookup_set]
      by_cases hkj : k = j
      · subst hkj
        rw [Dict.lookup_none.2 hn.1]
        simp [hv]
      · have : (k == j) = false := by simpa using hkj
        simp [List.lookup_cons, this, hkj]
    · rw [lookup_setAll h hn.2 k]
      by_cases hkj : k = j
      · subst hkj
        rw [Dict.lookup_none.2 hn.1]
        simp [hv]
      · have : (k == j) = false := by simpa using hkj
        simp [List.lookup_cons, this]

theorem create_ok {keep : Bool} {c : Cls K V} {given : List (K × Option V)} {o : Obj K V} (h : create keep c given = .ok o) :
    o.cls = c ∧ o.attrs = [] ∧ setAll keep c.defaults given = .ok o.settings ∧ ∀ p ∈ c.defaults, c.taken p.1 = false := by
  simp only [create] at h
  split_ifs at h with ht
  cases hs : setAll keep c.defaults given with
  | error e => simp [hs, bind, Except.bind] at h
  | ok s =>
    simp only [hs, bind, Except.bind, pure, Except.pure, Except.ok.injEq] at h
    subst h
    refine ⟨rfl, rfl, rfl, ?_⟩
    intro p hp
    by_contra hc
    exact ht (List.any_eq_true.2 ⟨p, hp, by simpa using hc⟩)

/-! ## Theorems -/

/-- C129: an object can be made exactly if all given settings are settings of its class and no setting has the name of an
attribute; otherwise an `AttributeError` is raised. -/
theorem C129_accepted (keep : Bool) (c : Cls K V) (given : List (K × Option V)) :
    ((∃ o, create keep c given = .ok o) ↔
      (∀ p ∈ given, p.1 ∈ c.defaults.map Prod.fst) ∧ ∀ p ∈ c.defaults, c.taken p.1 = false) ∧
    ((¬ ∃ o, create keep c given = .ok o) → create keep c given = .error .attributeError) := by
  constructor
  · constructor
    · rintro ⟨o, ho⟩
      obtain ⟨-, -, h, ht⟩ := create_ok ho
      exact ⟨setAll_ok_iff.1 ⟨_, h⟩, ht⟩
    · rintro ⟨hg, ht⟩
      obtain ⟨r, hr⟩ := (setAll_ok_iff (keep := keep)).2 hg
      have : ¬ c.defaults.any (fun p => c.taken p.1) = true := by
        rw [List.any_eq_true]
        rintro ⟨p, hp, h⟩
        simp [ht p hp] at h
      exact ⟨⟨c, [], r⟩, by simp [create, this, hr, bind, Except.bind, pure, Except.pure]⟩
  · intro h
    have err : ∀ (given d : List (K × Option V)), (∃ r, setAll keep d given = .ok r) ∨ setAll keep d given = .error .attributeError := by
      intro given
      induction given with
      | nil => intro d; exact .inl ⟨d, rfl⟩
      | cons p given ih =>
        intro d
        simp only [setAll]
        split_ifs
        · exact ih _
        · exact ih _
        · exact .inr rfl
    simp only [create] at h ⊢
    split_ifs with ht
    · rfl
    · rcases err given c.defaults with ⟨r, hr⟩ | hr
      · exact absurd ⟨⟨c, [], r⟩, by simp [ht, hr, bind, Except.bind, pure, Except.pure]⟩ h
      · simp [hr, bind, Except.bind]

/-- C129: a new object has the given value of a setting, and the default if none is given.  For variables `None` stands for the
default, for distributions (`keep`) it is a value. -/
theorem C129_read (keep : Bool) (c : Cls K V) (given : List (K × Option V)) (o : Obj K V) (hc : (c.defaults.map Prod.fst).Nodup)
    (hg : (given.map Prod.fst).Nodup) (h : create keep c given = .ok o) (k : K) (dflt : Option V) (hk : (k, dflt) ∈ c.defaults) :
    (∀ v, (k, some v) ∈ given → o.read k = .ok (.val (some v))) ∧
    ((k, none) ∈ given → o.read k = .ok (.val (if keep then none else dflt))) ∧
    (k ∉ given.map Prod.fst → o.read k = .ok (.val dflt)) := by
  obtain ⟨h1, h2, h3, h4⟩ := create_ok h
  have hl := lookup_setAll h3 hg k
  have hd := Dict.mem_lookup hc hk
  have hkm : k ∈ c.defaults.map Prod.fst := List.mem_map.2 ⟨_, hk, rfl⟩
  have hr : ∀ v, o.settings.lookup k = some v → o.read k = .ok (.val v) := by
    intro v hv
    simp [Obj.read, h1, h2, h4 _ hk, hkm, Dict.get, hv, bind, Except.bind, pure, Except.pure]
  refine ⟨?_, ?_, ?_⟩
  · intro v hv
    rw [Dict.mem_lookup hg hv] at hl
    exact hr _ (by simpa using hl)
  · intro hv
    rw [Dict.mem_lookup hg hv] at hl
    cases keep
    · exact hr _ (by simpa [hd] using hl)
    · exact hr _ (by simpa using hl)
  · intro hv
    rw [Dict.lookup_none.2 hv] at hl
    exact hr _ (by simpa [hd] using hl)

/-- C129 for variables whose attributes were not assigned: the distribution that a variable makes has the same value as the variable
for each setting they both have, and the default of the domain for the others.  Missing: variables with assigned attributes; for them
this is false. -/
theorem C129_distribution_partial (c dom : Cls K V) (given : List (K × Option V)) (o : Obj K V) (hc : Proper c) (hd : Proper dom)
    (h : create false c given = .ok o) :
    ∃ q, o.distribution dom = .ok q ∧ ∀ k dflt, (k, dflt) ∈ dom.defaults →
      q.read k = if k ∈ c.defaults.map Prod.fst then o.read k else .ok (.val dflt) := by
  obtain ⟨h1, h2, h3, h4⟩ := create_ok h
  have hkeys := keys_setAll h3
  have hwf : Dict.WF o.settings := by unfold Dict.WF; rw [hkeys]; exact hc.once
  have hmem : ∀ k v, (k, v) ∈ dom.defaults.filterMap (fun p => (o.settings.lookup p.1).map (fun v => (p.1, v))) ↔
      k ∈ dom.defaults.map Prod.fst ∧ o.settings.lookup k = some v := by
    intro k v
    simp only [List.mem_filterMap, Option.map_eq_some_iff, Prod.mk.injEq, List.mem_map]
    constructor
    · rintro ⟨p, hp, w, hw, rfl, rfl⟩; exact ⟨⟨p, hp, rfl⟩, hw⟩
    · rintro ⟨⟨p, hp, rfl⟩, hw⟩; exact ⟨p, hp, v, hw, rfl, rfl⟩
  have hnodup : ((dom.defaults.filterMap (fun p => (o.settings.lookup p.1).map (fun v => (p.1, v)))).map Prod.fst).Nodup := by
    have hsub : ((dom.defaults.filterMap (fun p => (o.settings.lookup p.1).map (fun v => (p.1, v)))).map Prod.fst).Sublist
        (dom.defaults.map Prod.fst) := by
      generalize dom.defaults = l
      induction l with
      | nil => simp
      | cons p l ih =>
        cases hp : o.settings.lookup p.1 with
        | none => simpa [List.filterMap_cons, hp] using ih.cons p.1
        | some w => simpa [List.filterMap_cons, hp] using ih.cons_cons p.1
    exact hd.once.sublist hsub
  obtain ⟨q, hq⟩ := ((C129_accepted true dom (dom.defaults.filterMap (fun p => (o.settings.lookup p.1).map (fun v => (p.1, v))))).1).2
    ⟨by rintro ⟨k, v⟩ hp; exact ((hmem k v).1 hp).1, hd.free⟩
  refine ⟨q, hq, ?_⟩
  intro k dflt hk
  have hkm : k ∈ dom.defaults.map Prod.fst := List.mem_map.2 ⟨_, hk, rfl⟩
  obtain ⟨r1, r2, r3⟩ := C129_read true dom _ q hd.once hnodup hq k dflt hk
  split_ifs with hkc
  · obtain ⟨v, hv⟩ := Dict.lookup_isSome.2 (hkeys ▸ hkc : k ∈ o.settings.map Prod.fst)
    obtain ⟨p, hp, rfl⟩ := List.mem_map.1 hkc
    have : o.read p.1 = .ok (.val v) := by
      simp [Obj.read, h1, h2, h4 _ hp, hkc, Dict.get, hv, bind, Except.bind, pure, Except.pure]
    rw [this]
    cases v with
    | none => exact r2 ((hmem _ _).2 ⟨hkm, hv⟩)
    | some v => exact r1 v ((hmem _ _).2 ⟨hkm, hv⟩)
  · refine r3 ?_
    intro hc'
    obtain ⟨⟨j, v⟩, hp, rfl⟩ := List.mem_map.1 hc'
    have := ((hmem _ _).1 hp).2
    exact hkc (hkeys ▸ Dict.lookup_isSome.1 ⟨v, this⟩)

/-- C129: after an attribute was assigned, it has the assigned value, and the others have theirs. -/
theorem C129_assigned (o o' : Obj K V) (k : K) (v : Option V) (h : o.assign k v = .ok o') :
    o'.read k = .ok (.val v) ∧ (∀ j, j ≠ k → o'.read j = o.read j) ∧ o'.settings = o.settings := by
  simp only [Obj.assign] at h
  split_ifs at h
  simp only [Except.ok.injEq] at h
  subst h
  refine ⟨by simp [Obj.read, Dict.lookup_set], ?_, rfl⟩
  intro j hj
  simp [Obj.read, Dict.lookup_set, hj]

/-- C129: a name that is not assigned and not a setting is what it is without settings: an attribute of the object, or an
`AttributeError`. -/
theorem C129_attributes (keep : Bool) (c : Cls K V) (given : List (K × Option V)) (o : Obj K V) (h : create keep c given = .ok o) (k : K)
    (hk : k ∉ c.defaults.map Prod.fst) : o.read k = if c.taken k then .ok .fixed else .error .attributeError := by
  obtain ⟨h1, h2, -, -⟩ := create_ok h
  simp [Obj.read, h1, h2, hk]

/-- The settings of numeric variables and numeric distributions, in hundredths. -/
def numericVar : Cls String ℕ := ⟨[("min_impurity_improvement", some 0), ("blur", some 0), ("max_std_lbl", some 0),
  ("precision", some 1)], fun k => k = "name" || k = "domain" || k = "max_std", fun k => k = "name" || k = "max_std"⟩

/-- The settings of numeric distributions. -/
def numericDist : Cls String ℕ := ⟨[("precision", some 1)], fun k => k = "values" || k = "labels", fun _ => false⟩

example : Proper numericVar ∧ Proper numericDist := by
  refine ⟨⟨by decide, by decide⟩, ⟨by decide, by decide⟩⟩

example : (match create false numericVar [("blur", none), ("precision", some 20)] with
    | .ok o => (match o.read "precision", o.read "blur", o.distribution numericDist with
      | .ok p, .ok b, .ok q => decide (p = .val (some 20) ∧ b = .val (some 0)) && (match q.read "precision" with
        | .ok x => decide (x = .val (some 20))
        | _ => false)
      | _, _, _ => false)
    | _ => false) = true := by decide +kernel

/-- Disagreement: assigning a setting of a variable has no effect on the distributions it makes: after `v.precision = 0.2` the variable
has the precision 0.2 and its distributions the precision 0.01. -/
theorem C129_violated_assigned : ∃ o o' q, create false numericVar [] = .ok o ∧ o.assign "precision" (some 20) = .ok o' ∧
    o'.distribution numericDist = .ok q ∧ o'.read "precision" = .ok (.val (some 20)) ∧ q.read "precision" = .ok (.val (some 1)) :=
  ⟨_, _, _, rfl, rfl, rfl, rfl, rfl⟩

end Verif.Opts
