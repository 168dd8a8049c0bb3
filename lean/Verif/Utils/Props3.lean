import Verif.Utils.ToJson

/-!
# C122: the JSON representation of arbitrary objects
-/

namespace Verif.ToJson

/-! ## Specification -/

mutual

/-- A JSON document as a Python object: `null` is `None`. -/
def asPy : J → Py
  | .null => .other
  | .bool b => .bool b
  | .num q => .num q
  | .str s => .str s
  | .arr l => .list (asPyList l)
  | .obj d => .dict (asPyDict d)

/-- The elements of a list. -/
def asPyList : List J → List Py
  | [] => []
  | j :: l => asPy j :: asPyList l

/-- The items of a dictionary. -/
def asPyDict : List (String × J) → List (Key × Py)
  | [] => []
  | (k, j) :: d => (.str k, asPy j) :: asPyDict d

end

mutual

/-- No `null` occurs in the document, and no key occurs twice in a dictionary. -/
def Clean : J → Prop
  | .null => False
  | .arr l => CleanList l
  | .obj d => (d.map Prod.fst).Nodup ∧ CleanDict d
  | _ => True

/-- All elements are clean. -/
def CleanList : List J → Prop
  | [] => True
  | j :: l => Clean j ∧ CleanList l

/-- All values are clean. -/
def CleanDict : List (String × J) → Prop
  | [] => True
  | (_, j) :: d => Clean j ∧ CleanDict d

end

mutual

/-- All parts of the object have a JSON representation. -/
def Supported : Py → Prop
  | .obj r => ∃ j, r = .ok j
  | .list l => SupportedList l
  | .dict d => SupportedDict d
  | .other => False
  | _ => True

/-- All elements are supported. -/
def SupportedList : List Py → Prop
  | [] => True
  | v :: l => Supported v ∧ SupportedList l

/-- All values are supported. -/
def SupportedDict : List (Key × Py) → Prop
  | [] => True
  | (_, v) :: d => Supported v ∧ SupportedDict d

end

/-! ## Lemmas -/

theorem set_new {K B : Type} [DecidableEq K] {d : List (K × B)} {k : K} (h : k ∉ d.map Prod.fst) (b : B) :
    Dict.set d k b = d ++ [(k, b)] := if_neg h

/-- A dictionary whose keys have different texts. -/
theorem dictJson_distinct (shw : ℤ → String) : ∀ (d : List (Key × Py)) (acc r : List (String × J)),
    (acc.map Prod.fst ++ d.map fun i => i.1.text shw).Nodup → dictJson shw d acc = .ok r →
    ∃ js, r = acc ++ js ∧ List.Forall₂ (fun i j => j.1 = i.1.text shw ∧ toJson shw i.2 = .ok j.2) d js
  | [], acc, r, _, h => ⟨[], by simp only [dictJson] at h; cases h; simp, .nil⟩
  | (k, v) :: d, acc, r, hn, h => by
    simp only [dictJson, bind, Except.bind] at h
    cases hv : toJson shw v with
    | error e => rw [hv] at h; cases h
    | ok j =>
      rw [hv] at h
      have hk : k.text shw ∉ acc.map Prod.fst := by
        intro hk
        have := List.disjoint_of_nodup_append hn
        exact this hk (by simp)
      simp only [set_new hk] at h
      obtain ⟨js, h1, h2⟩ := dictJson_distinct shw d _ r (by simpa using hn) h
      exact ⟨(k.text shw, j) :: js, by simp [h1], .cons ⟨rfl, hv⟩ h2⟩

theorem dictJson_wf (shw : ℤ → String) : ∀ (d : List (Key × Py)) (acc r : List (String × J)),
    Dict.WF acc → dictJson shw d acc = .ok r → Dict.WF r
  | [], acc, r, hw, h => by simp only [dictJson] at h; cases h; exact hw
  | (k, v) :: d, acc, r, hw, h => by
    simp only [dictJson, bind, Except.bind] at h
    cases hv : toJson shw v with
    | error e => rw [hv] at h; cases h
    | ok j =>
      rw [hv] at h
      exact dictJson_wf shw d _ r (Dict.wf_set hw _ _) h

mutual

theorem plain_of (shw : ℤ → String) : ∀ j : J, Clean j → toJson shw (asPy j) = .ok j
  | .null, h => by simp [Clean] at h
  | .bool b, _ => rfl
  | .num q, _ => rfl
  | .str s, _ => rfl
  | .arr l, h => by
    simp only [Clean] at h
    simp only [asPy, toJson, plainList_of shw l h, bind, Except.bind, pure, Except.pure]
  | .obj d, h => by
    simp only [Clean] at h
    simp only [asPy, toJson, plainDict_of shw d [] h.2 (by simpa using h.1), bind, Except.bind, pure, Except.pure,
      List.nil_append]

theorem plainList_of (shw : ℤ → String) : ∀ l : List J, CleanList l → listJson shw (asPyList l) = .ok l
  | [], _ => rfl
  | j :: l, h => by
    simp only [CleanList] at h
    simp only [asPyList, listJson, plain_of shw j h.1, plainList_of shw l h.2, bind, Except.bind, pure, Except.pure]

theorem plainDict_of (shw : ℤ → String) : ∀ (d acc : List (String × J)), CleanDict d →
    (acc.map Prod.fst ++ d.map Prod.fst).Nodup → dictJson shw (asPyDict d) acc = .ok (acc ++ d)
  | [], acc, _, _ => by simp [asPyDict, dictJson]
  | (k, j) :: d, acc, h, hn => by
    simp only [CleanDict] at h
    have hk : k ∉ acc.map Prod.fst := by
      intro hk
      exact List.disjoint_of_nodup_append hn hk (by simp)
    simp only [asPyDict, dictJson, plain_of shw j h.1, bind, Except.bind, Key.text, set_new hk]
    rw [plainDict_of shw d _ h.2 (by simpa using hn)]
    simp

end

mutual

theorem supported_iff (shw : ℤ → String) : ∀ v : Py, (∃ j, toJson shw v = .ok j) ↔ Supported v
  | .obj r => by simp only [toJson, Supported]
  | .other => by simp [toJson, Supported]
  | .bool b => by simp [toJson, Supported]
  | .num q => by simp [toJson, Supported]
  | .str s => by simp [toJson, Supported]
  | .list l => by
    simp only [Supported, ← supportedList_iff shw l, toJson, bind, Except.bind]
    cases listJson shw l <;> simp [pure, Except.pure]
  | .dict d => by
    simp only [Supported, ← supportedDict_iff shw d [], toJson, bind, Except.bind]
    cases dictJson shw d [] <;> simp [pure, Except.pure]

theorem supportedList_iff (shw : ℤ → String) : ∀ l : List Py, (∃ r, listJson shw l = .ok r) ↔ SupportedList l
  | [] => by simp [listJson, SupportedList]
  | v :: l => by
    simp only [SupportedList, ← supported_iff shw v, ← supportedList_iff shw l, listJson, bind, Except.bind]
    cases toJson shw v <;> cases listJson shw l <;> simp [pure, Except.pure]

theorem supportedDict_iff (shw : ℤ → String) : ∀ (d : List (Key × Py)) (acc : List (String × J)),
    (∃ r, dictJson shw d acc = .ok r) ↔ SupportedDict d
  | [], acc => by simp [dictJson, SupportedDict]
  | (k, v) :: d, acc => by
    simp only [SupportedDict, ← supported_iff shw v, dictJson, bind, Except.bind]
    cases toJson shw v with
    | error e => simp
    | ok j => simp [supportedDict_iff shw d]

end

/-! ## Theorems -/

/-- C122: JSON documents are their own representation.  Missing: `None`, for which this is false. -/
theorem C122_plain_partial (shw : ℤ → String) (j : J) (h : Clean j) : toJson shw (asPy j) = .ok j := plain_of shw j h

/-- C122: an object has a representation just if all its parts have one. -/
theorem C122_supported (shw : ℤ → String) (v : Py) : (∃ j, toJson shw v = .ok j) ↔ Supported v := supported_iff shw v

/-- C122: the representation of a dictionary is one: no key occurs twice. -/
theorem C122_dict (shw : ℤ → String) (d : List (Key × Py)) (j : J) (h : toJson shw (.dict d) = .ok j) :
    ∃ r, j = .obj r ∧ (r.map Prod.fst).Nodup := by
  simp only [toJson, bind, Except.bind] at h
  cases hd : dictJson shw d [] with
  | error e => rw [hd] at h; cases h
  | ok r => rw [hd] at h; cases h; exact ⟨r, rfl, dictJson_wf shw d [] r (by simp [Dict.WF]) hd⟩

/-- C122 for dictionaries whose keys have different texts: the items are represented one by one.  Missing: other dictionaries,
for which this is false. -/
theorem C122_items_partial (shw : ℤ → String) (d : List (Key × Py)) (hn : (d.map fun i => i.1.text shw).Nodup) (j : J)
    (h : toJson shw (.dict d) = .ok j) :
    ∃ r, j = .obj r ∧ List.Forall₂ (fun i x => x.1 = i.1.text shw ∧ toJson shw i.2 = .ok x.2) d r := by
  simp only [toJson, bind, Except.bind] at h
  cases hd : dictJson shw d [] with
  | error e => rw [hd] at h; cases h
  | ok r =>
    rw [hd] at h
    cases h
    obtain ⟨js, h1, h2⟩ := dictJson_distinct shw d [] r (by simpa using hn) hd
    exact ⟨js, by simp [h1], h2⟩

/-- A document with all kinds of parts. -/
def exDoc : J := .obj [("a", .arr [.num 1, .str "x"]), ("b", .obj [("c", .bool true)])]

example : Clean exDoc := by simp [exDoc, Clean, CleanDict, CleanList]

example (shw : ℤ → String) : toJson shw (.dict [(.int 1, .num 2), (.str "x", .list [.obj (.ok (.num 3))])]) =
    .ok (.obj (Dict.set [(shw 1, .num 2)] "x" (.arr [.num 3]))) := rfl

/-- Disagreement: a dictionary with two keys of the same text, as 1 and '1', loses an item in its representation. -/
theorem C122_violated_keys (shw : ℤ → String) :
    toJson shw (.dict [(.int 1, .num 2), (.str (shw 1), .num 3)]) = .ok (.obj [(shw 1, .num 3)]) := by
  simp [toJson, dictJson, Key.text, Dict.set, bind, Except.bind, pure, Except.pure]

/-- Disagreement: `None`, which JSON has as `null`, has no representation; so a map with an unset value has none either. -/
theorem C122_violated_none (shw : ℤ → String) :
    asPy .null = .other ∧ toJson shw (asPy .null) = .error .typeError ∧
    toJson shw (asPy (.arr [.num 1, .null])) = .error .typeError := ⟨rfl, rfl, rfl⟩

end Verif.ToJson
