import Verif.Trees.SettingsSpec
import Verif.Vars.Props

/-! # Lemmas on writing and reading the settings of a tree -/

namespace Verif.Trees

open Verif Vars

variable {P M A : Type}

theorem byName_eq {vs : List (Var P)} (h : (vs.map Var.name).Nodup) :
    byName vs = vs.map fun v => (v.name, v) := by
  have key : ∀ (l : List (Var P)) (d : List (String × Var P)), (d.map Prod.fst ++ l.map Var.name).Nodup →
      l.foldl (fun d v => Dict.set d v.name v) d = d ++ l.map fun v => (v.name, v) := by
    intro l
    induction l with
    | nil => intro d _; simp
    | cons v l ih =>
      intro d hn
      rw [List.foldl_cons]
      have hp : v.name ∉ d.map Prod.fst := by
        rw [List.nodup_append] at hn
        intro hd
        exact hn.2.2 _ hd _ (by simp) rfl
      have : Dict.set d v.name v = d ++ [(v.name, v)] := by
        unfold Dict.set; rw [if_neg hp]
      rw [this, ih _ (by simpa using hn)]
      simp
  exact (key vs [] (by simpa using h)).trans (by simp)

theorem byName_values {vs : List (Var P)} (h : (vs.map Var.name).Nodup) : (byName vs).map Prod.snd = vs := by
  rw [byName_eq h, List.map_map]
  exact List.map_id vs

theorem byName_get {vs : List (Var P)} (h : (vs.map Var.name).Nodup) {v : Var P} (hv : v ∈ vs) :
    Dict.get (byName vs) v.name = .ok v := by
  unfold Dict.get
  rw [Dict.mem_lookup (k := v.name) (b := v) (byName_wf vs).1]
  rw [byName_eq h]
  exact List.mem_map.2 ⟨v, hv, rfl⟩

theorem named_ok {vs ts : List (Var P)} (h : (vs.map Var.name).Nodup) (ht : ts ⊆ vs) :
    named (byName vs) (ts.map Var.name) = .ok ts := by
  unfold named
  induction ts with
  | nil => rfl
  | cons t ts ih =>
    rw [List.map_cons, List.mapM_cons, byName_get h (ht List.mem_cons_self),
      ih fun x hx => ht (List.mem_cons_of_mem _ hx)]
    rfl

/-- What the items of a map are. -/
theorem items_form {m : VMap P A} (h : m.WF) : ∃ is, m.items = .ok is ∧
    (is.map fun p => (p.1.name, p.2)) = m.map ∧
    ∀ i ∈ is, m.view.decl i.1.name = some i.1 ∧ m.view.val i.1.name = some i.2 := by
  obtain ⟨is, h1, h2⟩ := VMap.items_ok h
  have hmap : (is.map fun p => (p.1.name, p.2)) = m.map := by
    clear h1
    generalize m.map = l at h2
    induction h2 with
    | nil => rfl
    | cons hp _ ih => rw [List.map_cons, hp.2.1, hp.2.2, ih]
  refine ⟨is, h1, hmap, ?_⟩
  intro i hi
  obtain ⟨p, hp, hpi⟩ := forall₂_mem_right h2 hi
  refine ⟨?_, ?_⟩
  · show m.vars.lookup i.1.name = _
    rw [hpi.2.1]; exact hpi.1
  · show m.map.lookup i.1.name = _
    refine Dict.mem_lookup h.map ?_
    rw [← hmap]
    exact List.mem_map.2 ⟨i, hi, rfl⟩

theorem toJson_form {J : Type} (f : A → J) {m : VMap P A} (h : m.WF) {is : List (Var P × A)}
    (hi : m.items = .ok is) (hmap : (is.map fun p => (p.1.name, p.2)) = m.map) :
    m.toJson f = .ok (is.map fun p => (p.1.name, f p.2)) := by
  have key : ∀ (l : List (Var P × A)) (d : List (String × J)), (d.map Prod.fst ++ l.map fun p => p.1.name).Nodup →
      l.foldl (fun d p => Dict.set d p.1.name (f p.2)) d = d ++ l.map fun p => (p.1.name, f p.2) := by
    intro l
    induction l with
    | nil => intro d _; simp
    | cons p l ih =>
      intro d hn
      rw [List.foldl_cons]
      have hp : p.1.name ∉ d.map Prod.fst := by
        rw [List.nodup_append] at hn
        intro hd
        exact hn.2.2 _ hd _ (by simp) rfl
      have : Dict.set d p.1.name (f p.2) = d ++ [(p.1.name, f p.2)] := by
        unfold Dict.set; rw [if_neg hp]
      rw [this, ih _ (by simpa using hn)]
      simp
  unfold VMap.toJson
  rw [hi]
  simp only [bind, Except.bind, pure, Except.pure]
  rw [key is [], List.nil_append]
  have : (is.map fun p => p.1.name) = m.map.map Prod.fst := by rw [← hmap, List.map_map]; rfl
  rw [List.map_nil, List.nil_append, this]
  exact h.map

theorem loadDeps_ok {vs : List (Var P)} (h : (vs.map Var.name).Nodup) {is : List (Var P × List (Var P))}
    (hi : ∀ i ∈ is, i.1 ∈ vs ∧ i.2 ⊆ vs) :
    (is.map fun p => (p.1.name, p.2.map Var.name)).mapM (loadDep (byName vs)) = .ok is := by
  induction is with
  | nil => rfl
  | cons i is ih =>
    rw [List.map_cons, List.mapM_cons, ih fun x hx => hi x (List.mem_cons_of_mem _ hx)]
    have hd : loadDep (byName vs) (i.1.name, i.2.map Var.name) = .ok i := by
      unfold loadDep
      simp only [byName_get h (hi i List.mem_cons_self).1, named_ok h (hi i List.mem_cons_self).2]
      rfl
    rw [hd]
    rfl

theorem mk_vars (is : List (Var P × A)) (vs : List (Var P)) :
    VMap.mk? (is.map fun p => (Key.var p.1, p.2)) vs
      = .ok (is.foldl (fun m p => m.setVar p.1 p.2) (VMap.empty vs)) := by
  unfold VMap.mk?
  rw [List.foldlM_map]
  exact VMap.foldlM_set is (VMap.empty vs)

/-- Building a map from the items of another gives the same values. -/
theorem mk_items {m : VMap P A} (h : m.WF) {is : List (Var P × A)}
    (hmap : (is.map fun p => (p.1.name, p.2)) = m.map) (vs : List (Var P)) :
    (is.foldl (fun m p => m.setVar p.1 p.2) (VMap.empty vs)).WF ∧
      SameMap (is.foldl (fun m p => m.setVar p.1 p.2) (VMap.empty vs)) m := by
  have hnames : (is.map fun p => p.1.name) = m.map.map Prod.fst := by rw [← hmap, List.map_map]; rfl
  obtain ⟨g1, g2, g3⟩ := VMap.fold_setVar_spec is (by rw [hnames]; exact h.map)
    (VMap.empty vs : VMap P A) (empty_wf _)
  refine ⟨g1, ?_, ?_⟩
  · intro n
    show (VMap.map _).lookup n = m.map.lookup n
    rw [g3, hmap, Dict.lookup_update h.map]
    simp [VMap.empty]
  · show (VMap.map _).map Prod.fst = m.map.map Prod.fst
    rw [g3, hmap, Dict.keys_update h.map]
    simp [VMap.empty]

theorem loadVars_read {readVar : Var P → Except Err (Var P)} {vs : List (Var P)}
    (hr : ∀ v ∈ vs, readVar v = .ok v) : loadVars readVar none vs = .ok (byName vs) := by
  have hm : vs.mapM readVar = .ok vs := by
    induction vs with
    | nil => rfl
    | cons v vs ih =>
      rw [List.mapM_cons, hr v List.mem_cons_self, ih fun x hx => hr x (List.mem_cons_of_mem _ hx)]
      rfl
  unfold loadVars
  simp only [hm, bind, Except.bind, pure, Except.pure]
  unfold byName
  have : ∀ (l : List (Var P)) (d : List (String × Var P)),
      (l.zip l).foldl (fun d p => Dict.set d p.1.name p.2) d = l.foldl (fun d v => Dict.set d v.name v) d := by
    intro l
    induction l with
    | nil => intro d; rfl
    | cons v l ih =>
      intro d
      rw [List.zip_cons_cons, List.foldl_cons, List.foldl_cons]
      exact ih _
  rw [this]

/-- Settings are read as they were written, if the variables are. -/
theorem settings_load [DecidableEq P] {numeric : Var P → Bool} {s : Settings P M} (h : s.OK numeric)
    {readVar : Var P → Except Err (Var P)} {given : Option (List (Var P))}
    (hd : loadVars readVar given s.vars = .ok (byName s.vars)) :
    ∃ j t, s.toJson = .ok j ∧ Settings.fromJson numeric readVar given j = .ok t ∧ SameSettings t s ∧
      t.OK numeric := by
  obtain ⟨is, h1, h2, h3⟩ := items_form h.distsWF
  obtain ⟨ds, e1, e2, e3⟩ := items_form h.depsWF
  have hnum : ((s.vars.filter numeric).map Var.name).Nodup :=
    h.names.sublist (List.filter_sublist.map _)
  obtain ⟨jm, md, m1, m2, m3, m4, m5, m6⟩ := C54_json (J := ℚ) id Except.ok s.minDists h.distsWF
    (s.vars.filter numeric)
    (by
      intro n v hv hdec
      obtain ⟨a, ha⟩ := Option.ne_none_iff_exists'.1 hv
      obtain ⟨w, hw, hwn, hnw⟩ := h.dists n a ha
      have hvn : v.name = n := h.distsWF.names (n, v) (Dict.lookup_mem hdec)
      have hvs := h.distsDecl n v hdec
      have : v = w := List.inj_on_of_nodup_map h.names hvs hw (by rw [hvn, hwn])
      rw [this]
      exact List.mem_filter.2 ⟨hw, hnw⟩) hnum (fun a _ => rfl)
  have hds : ∀ i ∈ ds, i.1 ∈ s.vars ∧ i.2 ⊆ s.vars := fun i hi =>
    ⟨h.depsDecl _ _ (e3 i hi).1, h.depsVals _ _ (e3 i hi).2⟩
  obtain ⟨g1, g2⟩ := mk_items h.depsWF e2 s.vars
  have ht : initTargets s.vars s.targets = s.targets := by
    unfold initTargets
    split_ifs with he
    · rw [he, h.targets_ne he]
    · rfl
  have hf : initFeatures s.vars s.targets s.features = s.features := by
    unfold initFeatures
    split_ifs with he hf hf
    · rw [h.targets_ne he, hf]
    · rfl
    · rw [hf, List.filter_eq_nil_iff]
      intro v hv
      simpa using h.features_ne hf hv
    · rfl
  have hdp : initDepth s.maxDepth = s.maxDepth := by
    have := h.depth
    unfold initDepth
    cases hmd : s.maxDepth with
    | none => rfl
    | some k =>
      cases k with
      | zero => exact absurd hmd this
      | succ k => rfl
  refine ⟨⟨s.vars, s.targets.map Var.name, s.features.map Var.name, s.minSamples, s.minImp, s.maxLeaves,
      s.maxDepth, jm, ds.map fun p => (p.1.name, p.2.map Var.name)⟩,
    ⟨s.vars, s.targets, s.features, s.minSamples, s.minImp, s.maxLeaves, s.maxDepth, md,
      ds.foldl (fun m p => m.setVar p.1 p.2) (VMap.empty s.vars)⟩, ?_, ?_, ?_, ?_⟩
  · unfold Settings.toJson
    rw [m1, toJson_form _ h.depsWF e1 e2]
    rfl
  · unfold Settings.fromJson
    simp only [hd, named_ok h.names h.targets, named_ok h.names h.features, loadDeps_ok h.names hds,
      bind, Except.bind, pure, Except.pure, Settings.init, initDeps, mk_vars, byName_values h.names, m2,
      ht, hf, hdp, Option.getD_some]
  · exact ⟨rfl, rfl, rfl, rfl, rfl, rfl, rfl, ⟨m4, m5⟩, g2⟩
  · refine ⟨h.names, h.targets, h.targets_ne, h.features, h.features_ne, h.depth, m3, ?_, ?_, g1, ?_, ?_⟩
    · intro n a ha
      exact h.dists n a ((m4 n).symm.trans ha)
    · intro n v hv
      have := m6 n
      rw [hv] at this
      split_ifs at this with hn
      exact h.distsDecl n v this.symm
    · intro n v hv
      obtain ⟨q1, q2, q3⟩ := VMap.fold_setVar_spec ds (by
        have : (ds.map fun p => p.1.name) = s.deps.map.map Prod.fst := by rw [← e2, List.map_map]; rfl
        rw [this]; exact h.depsWF.map) (VMap.empty s.vars : VMap P (List (Var P))) (empty_wf _)
      have hq : (ds.foldl (fun m p => m.setVar p.1 p.2) (VMap.empty s.vars)).vars.lookup n = some v := hv
      rw [q2] at hq
      have hb : ∀ w, (byName s.vars).lookup n = some w → w ∈ s.vars := by
        intro w hw
        have := Dict.lookup_mem hw
        rw [byName_eq h.names] at this
        obtain ⟨x, hx, hxe⟩ := List.mem_map.1 this
        simp only [Prod.mk.injEq] at hxe
        rw [← hxe.2]; exact hx
      cases hl : (byName s.vars).lookup n with
      | some w =>
        have hw : (VMap.empty s.vars : VMap P (List (Var P))).vars.lookup n = some w := hl
        rw [hw, Option.some_or] at hq
        cases hq
        exact hb _ hl
      | none =>
        have hw : (VMap.empty s.vars : VMap P (List (Var P))).vars.lookup n = none := hl
        rw [hw, Option.none_or] at hq
        obtain ⟨i, hi, hie⟩ := List.mem_map.1 (Dict.lookup_mem hq)
        simp only [Prod.mk.injEq] at hie
        rw [← hie.2]
        exact (hds i hi).1
    · intro n l hl
      exact h.depsVals n l ((g2.1 n).symm.trans hl)

end Verif.Trees
