import Verif.Trees.Hyper

/-!
# C124: the hyperparameters for model tracking
-/

namespace Verif.Hyper

variable {V M : Type}

/-! ## Specification -/

/-- The entries that the result should have. -/
inductive Entry (t : HTree V M) : List Char → Val V M → Prop
  | vars : Entry t "variables".toList (.names (t.vars.map HVar.name))
  | setting {v : HVar V} {s : List Char} {x : V} : v ∈ t.vars → (s, x) ∈ v.settings →
      Entry t (v.name ++ ".".toList ++ s) (.setting x)
  | targets : Entry t "targets".toList (.names t.targets)
  | features : Entry t "features".toList (.names t.features)
  | minSamples : Entry t "min_samples_leaf".toList (.param t.minSamples)
  | minImp : Entry t "min_impurity_improvement".toList (.param t.minImp)
  | maxLeaves : Entry t "max_leaves".toList (.param t.maxLeaves)
  | maxDepth : Entry t "max_depth".toList (.param t.maxDepth)

/-- Variables have different names; a variable has no setting twice; names of settings (`min_impurity_improvement`, `blur`,
`max_std_lbl`, `precision`, `invert_impurity`, …) contain no dot. -/
structure Ok (t : HTree V M) : Prop where
  names : (t.vars.map HVar.name).Nodup
  wf : ∀ v ∈ t.vars, (v.settings.map Prod.fst).Nodup
  noDot : ∀ v ∈ t.vars, ∀ p ∈ v.settings, '.' ∉ p.1

/-! ## Lemmas -/

theorem split_first : ∀ (x y u v : List Char), '.' ∉ x → '.' ∉ y → x ++ '.' :: u = y ++ '.' :: v → x = y ∧ u = v := by
  intro x
  induction x with
  | nil =>
    intro y u v _ hy h
    cases y with
    | nil => simpa using h
    | cons z y => simp at h hy; exact absurd h.1 hy.1
  | cons z x ih =>
    intro y u v hx hy h
    cases y with
    | nil => simp at h hx; exact absurd h.1.symm hx.1
    | cons z' y =>
      simp only [List.cons_append, List.cons.injEq] at h
      obtain ⟨h1, h2⟩ := ih y u v (fun m => hx (List.mem_cons_of_mem _ m)) (fun m => hy (List.mem_cons_of_mem _ m)) h.2
      exact ⟨by rw [h.1, h1], h2⟩

theorem key_inj {n n' s s' : List Char} (hs : '.' ∉ s) (hs' : '.' ∉ s') (h : key n s = key n' s') : n = n' ∧ s = s' := by
  have h' := congrArg List.reverse h
  simp only [key, List.reverse_append, List.reverse_cons, List.append_assoc, List.singleton_append] at h'
  obtain ⟨h1, h2⟩ := split_first _ _ _ _ (by simpa using hs) (by simpa using hs') h'
  exact ⟨List.reverse_injective h2, List.reverse_injective h1⟩

/-- All the items written by the loops. -/
def items (vs : List (HVar V)) : List (List Char × Val V M) :=
  vs.flatMap fun v => v.settings.map fun p => (key v.name p.1, .setting p.2)

theorem addSettings_eq (v : HVar V) (d : List (List Char × Val V M)) :
    addSettings d v = Dict.update d (v.settings.map fun p => (key v.name p.1, .setting p.2)) := by
  rw [addSettings, Dict.update, List.foldl_map]

theorem loops_eq : ∀ (vs : List (HVar V)) (d : List (List Char × Val V M)),
    vs.foldl addSettings d = Dict.update d (items vs)
  | [], d => rfl
  | v :: vs, d => by
    rw [List.foldl_cons, loops_eq vs, addSettings_eq]
    simp only [items, List.flatMap_cons, Dict.update, List.foldl_append]

theorem lookup_update_of {K B : Type} [DecidableEq K] : ∀ (e d : List (K × B)), Dict.WF e → ∀ k,
    (Dict.update d e).lookup k = (e.lookup k).or (d.lookup k)
  | [], d, _, k => by simp [Dict.update]
  | (l, b) :: e, d, h, k => by
    have h2 : Dict.WF e ∧ l ∉ e.map Prod.fst := by
      unfold Dict.WF at h ⊢
      rw [List.map_cons, List.nodup_cons] at h
      exact ⟨h.2, h.1⟩
    have := lookup_update_of e (Dict.set d l b) h2.1 k
    rw [Dict.update, List.foldl_cons]
    rw [Dict.update] at this
    rw [this, Dict.lookup_set, List.lookup_cons]
    by_cases hk : k = l
    · subst hk
      rw [Dict.lookup_none.2 h2.2]
      simp
    · have hb : (k == l) = false := by simpa using hk
      rw [hb, if_neg hk]

theorem items_wf {t : HTree V M} (h : Ok t) : Dict.WF (items (M := M) t.vars) := by
  obtain ⟨h1, h2, h3⟩ := h
  generalize t.vars = vs at *
  unfold Dict.WF
  rw [items, List.map_flatMap, List.nodup_flatMap]
  refine ⟨?_, ?_⟩
  · intro v hv
    rw [List.map_map]
    have := h2 v hv
    have hinj := List.Nodup.map_on (f := key v.name) (l := v.settings.map Prod.fst) ?_ this
    · simpa [List.map_map, Function.comp_def] using hinj
    · intro x hx y hy hxy
      obtain ⟨p, hp, rfl⟩ := List.mem_map.1 hx
      obtain ⟨q, hq, rfl⟩ := List.mem_map.1 hy
      exact (key_inj (h3 v hv p hp) (h3 v hv q hq) hxy).2
  · have h4 := List.pairwise_map.1 h1
    refine h4.imp_of_mem ?_
    intro v w hv hw hne x hx hy
    simp only [List.map_map, List.mem_map, Function.comp_apply] at hx hy
    obtain ⟨p, hp, rfl⟩ := hx
    obtain ⟨q, hq, hpq⟩ := hy
    exact hne (key_inj (h3 w hw q hq) (h3 v hv p hp) hpq).1.symm

theorem dot_key (n s : List Char) : '.' ∈ key n s := by simp [key]

theorem wf_update {K B : Type} [DecidableEq K] : ∀ (e d : List (K × B)), Dict.WF d → Dict.WF (Dict.update d e)
  | [], _, h => h
  | (k, b) :: e, d, h => by
    rw [Dict.update, List.foldl_cons]
    exact wf_update e _ (Dict.wf_set h k b)

theorem mem_iff_lookup {K B : Type} [DecidableEq K] {d : List (K × B)} (h : Dict.WF d) (k : K) (b : B) :
    (k, b) ∈ d ↔ d.lookup k = some b := ⟨Dict.mem_lookup h, Dict.lookup_mem⟩

theorem mem_set_iff {K B : Type} [DecidableEq K] {d : List (K × B)} (h : Dict.WF d) (l : K) (c : B) (k : K) (b : B) :
    (k, b) ∈ Dict.set d l c ↔ (k = l ∧ b = c) ∨ (k ≠ l ∧ (k, b) ∈ d) := by
  rw [mem_iff_lookup (Dict.wf_set h l c), Dict.lookup_set, mem_iff_lookup h]
  by_cases hk : k = l
  · simp [hk, eq_comm]
  · simp [hk]

theorem mem_update_iff {K B : Type} [DecidableEq K] {d e : List (K × B)} (h : Dict.WF d) (he : Dict.WF e) (k : K) (b : B) :
    (k, b) ∈ Dict.update d e ↔ (k, b) ∈ e ∨ (k ∉ e.map Prod.fst ∧ (k, b) ∈ d) := by
  rw [mem_iff_lookup (wf_update e d h), lookup_update_of e d he, mem_iff_lookup h, mem_iff_lookup he]
  rw [← Dict.lookup_none]
  cases e.lookup k <;> simp

theorem mem_items (vs : List (HVar V)) (k : List Char) (x : Val V M) :
    (k, x) ∈ items vs ↔ ∃ v ∈ vs, ∃ p ∈ v.settings, key v.name p.1 = k ∧ Val.setting p.2 = x := by
  simp only [items, List.mem_flatMap, List.mem_map, Prod.mk.injEq]

/-! ## Theorems -/

/-- C124: the items of the result are those it should have. -/
theorem C124_entries {t : HTree V M} (h : Ok t) (k : List Char) (x : Val V M) : (k, x) ∈ hyper t ↔ Entry t k x := by
  have hdot : ∀ l : List Char, l ∈ (items (M := M) t.vars).map Prod.fst → '.' ∈ l := by
    intro l hl
    obtain ⟨⟨l', y⟩, hy, rfl⟩ := List.mem_map.1 hl
    obtain ⟨v, _, p, _, hk, _⟩ := (mem_items _ _ _).1 hy
    exact hk ▸ dot_key _ _
  have h0 : Dict.WF ([] : List (List Char × Val V M)) := by simp [Dict.WF]
  have h1 := Dict.wf_set h0 "variables".toList (.names (t.vars.map HVar.name))
  have h2 := wf_update (items t.vars) _ h1
  have h3 := Dict.wf_set h2 "targets".toList (.names t.targets)
  have h4 := Dict.wf_set h3 "features".toList (.names t.features)
  have h5 := Dict.wf_set h4 "min_samples_leaf".toList (.param t.minSamples)
  have h6 := Dict.wf_set h5 "min_impurity_improvement".toList (.param t.minImp)
  have h7 := Dict.wf_set h6 "max_leaves".toList (.param t.maxLeaves)
  simp only [hyper, loops_eq]
  rw [mem_set_iff h7, mem_set_iff h6, mem_set_iff h5, mem_set_iff h4, mem_set_iff h3, mem_set_iff h2,
    mem_update_iff h1 (items_wf h), mem_set_iff h0, mem_items]
  constructor
  · rintro (⟨rfl, rfl⟩ | ⟨_, ⟨rfl, rfl⟩ | ⟨_, ⟨rfl, rfl⟩ | ⟨_, ⟨rfl, rfl⟩ | ⟨_, ⟨rfl, rfl⟩ | ⟨_, ⟨rfl, rfl⟩ |
      ⟨_, ⟨v, hv, p, hp, rfl, rfl⟩ | ⟨_, ⟨rfl, rfl⟩ | ⟨_, hx⟩⟩⟩⟩⟩⟩⟩⟩)
    · exact .maxDepth
    · exact .maxLeaves
    · exact .minImp
    · exact .minSamples
    · exact .features
    · exact .targets
    · have := Entry.setting (t := t) hv (s := p.1) (x := p.2) hp
      simpa [key] using this
    · exact .vars
    · cases hx
  · intro he
    cases he with
    | vars =>
      refine .inr ⟨by decide, .inr ⟨by decide, .inr ⟨by decide, .inr ⟨by decide, .inr ⟨by decide, .inr ⟨by decide,
        .inr ⟨fun hm => absurd (hdot _ hm) (by decide), .inl ⟨rfl, rfl⟩⟩⟩⟩⟩⟩⟩⟩
    | @setting v s x hv hs =>
      have hk : v.name ++ ".".toList ++ s = key v.name s := by simp [key]
      have hne : ∀ l : List Char, '.' ∉ l → key v.name s ≠ l := fun l hl e => hl (e ▸ dot_key _ _)
      rw [hk]
      exact .inr ⟨hne _ (by decide), .inr ⟨hne _ (by decide), .inr ⟨hne _ (by decide), .inr ⟨hne _ (by decide),
        .inr ⟨hne _ (by decide), .inr ⟨hne _ (by decide), .inl ⟨v, hv, _, hs, rfl, rfl⟩⟩⟩⟩⟩⟩⟩
    | targets =>
      exact .inr ⟨by decide, .inr ⟨by decide, .inr ⟨by decide, .inr ⟨by decide, .inr ⟨by decide, .inl ⟨rfl, rfl⟩⟩⟩⟩⟩⟩
    | features => exact .inr ⟨by decide, .inr ⟨by decide, .inr ⟨by decide, .inr ⟨by decide, .inl ⟨rfl, rfl⟩⟩⟩⟩⟩
    | minSamples => exact .inr ⟨by decide, .inr ⟨by decide, .inr ⟨by decide, .inl ⟨rfl, rfl⟩⟩⟩⟩
    | minImp => exact .inr ⟨by decide, .inr ⟨by decide, .inl ⟨rfl, rfl⟩⟩⟩
    | maxLeaves => exact .inr ⟨by decide, .inl ⟨rfl, rfl⟩⟩
    | maxDepth => exact .inl ⟨rfl, rfl⟩

/-- C124: no name occurs twice, whatever the variables are. -/
theorem C124_keys (t : HTree V M) : ((hyper t).map Prod.fst).Nodup := by
  simp only [hyper, loops_eq]
  exact Dict.wf_set (Dict.wf_set (Dict.wf_set (Dict.wf_set (Dict.wf_set (Dict.wf_set (wf_update _ _
    (Dict.wf_set (by simp [Dict.WF]) _ _)) _ _) _ _) _ _) _ _) _ _) _ _

/-- A tree with two variables, one of which has a dot in its name. -/
def sample : HTree ℕ ℕ :=
  { vars := [⟨"a".toList, [("blur".toList, 1), ("precision".toList, 2)]⟩, ⟨"a.b".toList, [("blur".toList, 3)]⟩],
    targets := ["a".toList], features := ["a.b".toList], minSamples := 4, minImp := 5, maxLeaves := 6, maxDepth := 7 }

example : Ok sample ∧ ("a.b.blur".toList, .setting 3) ∈ hyper sample ∧
    ("a.blur".toList, .setting 1) ∈ hyper sample ∧ (hyper sample).length = 10 :=
  ⟨⟨by decide, by decide, by decide⟩, by decide +kernel, by decide +kernel, by decide +kernel⟩

end Verif.Hyper
