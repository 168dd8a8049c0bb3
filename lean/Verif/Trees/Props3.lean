import Verif.Trees.Lemmas10
import Verif.Trees.Props2
import Verif.Vars.Props2

/-!
# Properties of storing and copying trees

C52 (a tree written to JSON and read back, which is also what `copy` and pickling do).
-/

namespace Verif.Trees

open Verif Vars Learn

variable {D E K P M : Type}

/-- Writing a tree to JSON and reading it back gives the same nodes: the same leaves with the same
numbers, priors, sample counts and distributions, the same decision nodes, the same paths; hence the same
answers. -/
theorem C52_nodes {o : DistOps D E} {ok : K → D → Prop} {fits : K → Region → Prop} {Pr : D → Region → ℚ}
    {kind : ℕ → K} {full : ℕ → Region} {n : ℕ} {h : Heap D} (L : Laws o ok fits Pr)
    (hT : TreeOK ok fits Pr kind full n h) (hsort : Sorted h) (priors : List (ℕ × D))
    (hp : ∀ b ∈ priors, ∃ k, ok k b.2) :
    copy o h = .ok h ∧ copyPriors o priors = .ok priors := by
  refine ⟨?_, ?_⟩
  · apply copy_eq hT.shape hT.noNone hsort
    intro l hl d hd
    obtain ⟨v, hv⟩ := List.getElem?_of_mem hd
    exact L.reload _ _ ((hT.dists l hl).2 v d hv)
  · unfold copyPriors mapVals
    rw [mapM_ok (g := fun b => b)]
    · rw [List.map_id']
    · intro b hb
      obtain ⟨k, hk⟩ := hp b hb
      rw [L.reload k _ hk]
      rfl

/-- For all trees learned over symbolic and integer variables. -/
theorem C52_learned {L : Type} [DecidableEq L] (c : Cfg) (kind : ℕ → Bool × Disc.Dom L) (data : Data)
    (total : ℕ) (hk : Discrete c kind) (hdata : DataOK c data total) (h : Heap (DD L))
    (hl : learn c data total (fitDisc kind data) = .ok h) : copy (discOps L) h = .ok h :=
  (C52_nodes disc_laws (learned_ok hk hdata hl) (learned_binary hdata hl).2 [] (by simp)).1

example : ∃ h, exLearn exA = .ok h ∧ 1 < h.leaves.length ∧ 0 < h.inner.length ∧ copy (discOps ℤ) h = .ok h := by
  obtain ⟨h, h1, h2, h3⟩ : ∃ h, exLearn exA = .ok h ∧ 1 < h.leaves.length ∧ 0 < h.inner.length :=
    exists_ok (by decide +kernel)
  exact ⟨h, h1, h2, h3, C52_learned _ exKind _ _ exA_kind exA_data h h1⟩

/-- What a user passes to the constructor: variables with distinct names, the others among them. -/
structure ArgsOK (vs targets features : List (Var P)) (ds : Option (List (Var P × List (Var P)))) : Prop where
  names : (vs.map Var.name).Nodup
  featuresNodup : features.Nodup
  targets : targets ⊆ vs
  features : features ⊆ vs
  deps : ∀ l, ds = some l → (l.map fun p => p.1.name).Nodup ∧ ∀ p ∈ l, p.1 ∈ vs ∧ p.2 ⊆ vs

theorem decl_empty {A : Type} {vs : List (Var P)} (h : (vs.map Var.name).Nodup) {n : String} {v : Var P}
    (hv : (VMap.empty vs : VMap P A).view.decl n = some v) : v ∈ vs := by
  have h1 : (byName vs).lookup n = some v := hv
  have h2 := Dict.lookup_mem h1
  rw [byName_eq h] at h2
  obtain ⟨x, hx, hxe⟩ := List.mem_map.1 h2
  simp only [Prod.mk.injEq] at hxe
  rw [← hxe.2]; exact hx

/-- A map filled with items of variables in a list. -/
theorem fold_items {A : Type} {vs ws : List (Var P)} (hw : (ws.map Var.name).Nodup)
    (hws : ws ⊆ vs) (is : List (Var P × A)) (hn : (is.map fun p => p.1.name).Nodup) (hi : ∀ p ∈ is, p.1 ∈ vs) :
    (is.foldl (fun m p => m.setVar p.1 p.2) (VMap.empty ws)).WF ∧
    (∀ n v, (is.foldl (fun m p => m.setVar p.1 p.2) (VMap.empty ws)).view.decl n = some v → v ∈ vs) ∧
    (∀ n a, (is.foldl (fun m p => m.setVar p.1 p.2) (VMap.empty ws)).view.val n = some a →
      ∃ p ∈ is, p.1.name = n ∧ p.2 = a) := by
  obtain ⟨q1, q2, q3⟩ := VMap.fold_setVar_spec is hn (VMap.empty ws : VMap P A) (empty_wf _)
  refine ⟨q1, ?_, ?_⟩
  · intro n v hv
    have hv' : List.lookup n (VMap.vars _) = some v := hv
    rw [q2] at hv'
    cases hl : (VMap.empty ws : VMap P A).vars.lookup n with
    | some w =>
      rw [hl, Option.some_or] at hv'
      cases hv'
      exact hws (decl_empty hw hl)
    | none =>
      rw [hl, Option.none_or] at hv'
      obtain ⟨i, hi', hie⟩ := List.mem_map.1 (Dict.lookup_mem hv')
      simp only [Prod.mk.injEq] at hie
      rw [← hie.2]
      exact hi i hi'
  · intro n a ha
    have ha' : List.lookup n (VMap.map _) = some a := ha
    rw [q3, Dict.lookup_update] at ha'
    · have e : (VMap.empty ws : VMap P A).map.lookup n = none := rfl
      rw [e, Option.or_none] at ha'
      obtain ⟨i, hi', hie⟩ := List.mem_map.1 (Dict.lookup_mem ha')
      simp only [Prod.mk.injEq] at hie
      exact ⟨i, hi', hie.1, hie.2⟩
    · unfold Dict.WF
      rw [List.map_map]
      exact hn

/-- The settings of every new tree are well-formed. -/
theorem init_ok [DecidableEq P] {numeric : Var P → Bool} {vs targets features : List (Var P)}
    {ds : Option (List (Var P × List (Var P)))} (h : ArgsOK vs targets features ds) (ms : M) (mi : Option ℚ)
    (ml md : Option ℕ) : ∃ s, Settings.init vs targets features ms mi ml md ds = .ok s ∧ s.OK numeric ∧
      s.vars = vs ∧ s.minDists = VMap.empty vs := by
  have ht : initTargets vs targets ⊆ vs := by
    unfold initTargets
    split_ifs
    · exact List.Subset.refl _
    · exact h.targets
  have hf : initFeatures vs targets features ⊆ vs := by
    unfold initFeatures
    split_ifs
    · exact List.Subset.refl _
    · exact h.features
    · exact fun v hv => (List.mem_filter.1 hv).1
    · exact h.features
  have hnames : (vs.map Var.name).Nodup := h.names
  have hfn : (initFeatures vs targets features).Nodup := by
    have hvs : vs.Nodup := h.names.of_map
    unfold initFeatures
    split_ifs
    · exact hvs
    · exact h.featuresNodup
    · exact hvs.filter _
    · exact h.featuresNodup
  have hfnn : ((initFeatures vs targets features).map Var.name).Nodup := by
    rw [List.nodup_map_iff_inj_on hfn]
    intro x hx y hy hxy
    exact List.inj_on_of_nodup_map h.names (hf hx) (hf hy) hxy
  obtain ⟨deps, hd, d1, d2, d3⟩ : ∃ deps, initDeps vs (initTargets vs targets) (initFeatures vs targets features) ds
      = .ok deps ∧ deps.WF ∧ (∀ n v, deps.view.decl n = some v → v ∈ vs) ∧
      (∀ n l, deps.view.val n = some l → l ⊆ vs) := by
    cases ds with
    | none =>
      have e : (initFeatures vs targets features).map (fun v => (Key.var v, initTargets vs targets))
          = ((initFeatures vs targets features).map fun v => (v, initTargets vs targets)).map
            fun p => (Key.var p.1, p.2) := by rw [List.map_map]; rfl
      obtain ⟨w1, w2, w3⟩ := fold_items (vs := vs) (ws := []) (by simp) (by simp)
        ((initFeatures vs targets features).map fun v => (v, initTargets vs targets))
        (by rw [List.map_map]; exact hfnn)
        (by
          intro p hp
          obtain ⟨v, hv, rfl⟩ := List.mem_map.1 hp
          exact hf hv)
      refine ⟨_, (congrArg (fun l => VMap.mk? l []) e).trans (mk_vars _ _), w1, w2, ?_⟩
      intro n l hl
      obtain ⟨p, hp, -, rfl⟩ := w3 n l hl
      obtain ⟨v, hv, rfl⟩ := List.mem_map.1 hp
      exact ht
    | some l =>
      obtain ⟨l1, l2⟩ := h.deps l rfl
      obtain ⟨w1, w2, w3⟩ := fold_items hnames (List.Subset.refl _) l l1 (fun p hp => (l2 p hp).1)
      refine ⟨_, mk_vars _ _, w1, w2, ?_⟩
      intro n a ha
      obtain ⟨p, hp, -, rfl⟩ := w3 n a ha
      exact (l2 p hp).2
  refine ⟨_, by unfold Settings.init; rw [hd]; rfl, ?_, rfl, rfl⟩
  refine ⟨h.names, ht, ?_, hf, ?_, ?_, empty_wf _, ?_, fun n v hv => decl_empty h.names hv, d1, d2, d3⟩
  · intro he
    have he' : initTargets vs targets = [] := he
    unfold initTargets at he'
    split_ifs at he' with hc
    · exact he'
    · exact absurd he' hc
  · intro he
    have he' : initFeatures vs targets features = [] := he
    show vs ⊆ initTargets vs targets
    unfold initFeatures at he'
    unfold initTargets
    split_ifs at he' ⊢ with hc hd hd
    · exact List.Subset.refl _
    · exact List.Subset.refl _
    · rw [List.filter_eq_nil_iff] at he'
      intro v hv
      simpa using he' v hv
    · exact absurd he' hd
  · show initDepth md ≠ some 0
    unfold initDepth
    cases md with
    | none => simp
    | some k => cases k <;> simp
  · intro n a ha
    cases ha

/-- The settings of every learned tree are well-formed. -/
theorem learn_settings {numeric : Var P → Bool} {s : Settings P M} (h : s.OK numeric)
    (he : s.minDists = VMap.empty s.vars) (dist : Var P → ℚ) : (s.learn numeric dist).OK numeric := by
  have e : (s.vars.filter numeric).foldl (fun m v => m.setVar v (dist v)) s.minDists
      = ((s.vars.filter numeric).map fun v => (v, dist v)).foldl (fun m p => m.setVar p.1 p.2) (VMap.empty s.vars) := by
    rw [he, List.foldl_map]
  obtain ⟨w1, w2, w3⟩ := fold_items h.names (List.Subset.refl _)
    ((s.vars.filter numeric).map fun v => (v, dist v))
    (by rw [List.map_map]; exact h.names.sublist (List.filter_sublist.map _))
    (by
      intro p hp
      obtain ⟨v, hv, rfl⟩ := List.mem_map.1 hp
      exact (List.mem_filter.1 hv).1)
  rw [← e] at w1 w2 w3
  refine ⟨h.names, h.targets, h.targets_ne, h.features, h.features_ne, h.depth, w1, ?_, w2, h.depsWF, h.depsDecl,
    h.depsVals⟩
  intro n a ha
  obtain ⟨p, hp, hn, -⟩ := w3 n a ha
  obtain ⟨v, hv, rfl⟩ := List.mem_map.1 hp
  exact ⟨v, (List.mem_filter.1 hv).1, hn, (List.mem_filter.1 hv).2⟩

/-- Settings, partial: for all arguments of the constructor, before and after learning, a copy of the tree
has the same variables, targets, features, minimal number of samples, minimal improvement, maximal number of
leaves, maximal depth, minimal distances and dependencies; so has a tree read from the JSON object if the
variables are given, or if each variable survives its own JSON object.  What is missing: that happens
only with default settings (`C52_violated_variables`), and `==` may fail (`C52_violated_eq`). -/
theorem C52_settings_partial [DecidableEq P] (numeric : Var P → Bool) (vs targets features : List (Var P))
    (ds : Option (List (Var P × List (Var P)))) (h : ArgsOK vs targets features ds) (ms : M) (mi : Option ℚ)
    (ml md : Option ℕ) (readVar : Var P → Except Err (Var P)) (dist : Var P → ℚ) :
    ∃ s, Settings.init vs targets features ms mi ml md ds = .ok s ∧
      ∀ t, t = s ∨ t = s.learn numeric dist →
        (∃ u, t.copy numeric readVar = .ok u ∧ SameSettings u t) ∧
        ((∀ v ∈ vs, readVar v = .ok v) → ∃ j u, t.toJson = .ok j ∧
          Settings.fromJson numeric readVar none j = .ok u ∧ SameSettings u t) := by
  obtain ⟨s, h1, h2, h3, h4⟩ := init_ok (numeric := numeric) h ms mi ml md
  refine ⟨s, h1, ?_⟩
  intro t ht
  have hok : t.OK numeric ∧ t.vars = vs := by
    rcases ht with rfl | rfl
    · exact ⟨h2, h3⟩
    · exact ⟨learn_settings h2 (by rw [h4, h3]) dist, h3⟩
  refine ⟨?_, ?_⟩
  · obtain ⟨j, u, j1, j2, j3, -⟩ := settings_load (readVar := readVar) (given := some t.vars) hok.1 rfl
    refine ⟨u, ?_, j3⟩
    unfold Settings.copy
    rw [j1]
    exact j2
  · intro hr
    obtain ⟨j, u, j1, j2, j3, -⟩ := settings_load (readVar := readVar) (given := none) hok.1
      (loadVars_read (by rw [hok.2]; exact hr))
    exact ⟨j, u, j1, j2, j3⟩

/-- `Variable.from_json` on the JSON object of a variable. -/
def readVariable (v : Var Variable) : Except Err (Var Variable) := do
  let w ← Variable.ofJson v.info.toJson
  return ⟨w.name, w⟩

/-- A variable with a domain survives its JSON object if its settings are the defaults. -/
theorem C52_variables_partial (v : Variable) (d : Domain) (hd : v.domain = some d) (h : d.Serialisable)
    (hs : v.settings = v.kind.settings) : readVariable ⟨v.name, v⟩ = .ok ⟨v.name, v⟩ := by
  have h1 : Variable.ofJson v.toJson = .ok v := (C55_copy_partial v d hd h).2 hs
  unfold readVariable
  simp only [h1]
  rfl

/-- A tree over two numeric variables `x` and `y`, `y` being the target. -/
def exSettings (prec : Option SVal) : Except Err (Settings Variable ℕ) := do
  let x ← numericVariable "x" (some (.numeric "Numeric")) none none none prec
  let y ← numericVariable "y" (some (.numeric "Numeric")) none none none none
  Settings.init [⟨"x", x⟩, ⟨"y", y⟩] [⟨"y", y⟩] [] 1 none none none none

example : ∃ s, exSettings none = .ok s ∧ (s.features.map Var.name = ["x"] ∧ s.targets.map Var.name = ["y"]) ∧
    okAnd ((s.learn (fun _ => true) (fun _ => 2)).copy (fun _ => true) readVariable) (fun u =>
      decide (u.features = s.features ∧ u.targets = s.targets ∧ u.minDists.map = [("x", 2), ("y", 2)] ∧
        u.deps.map = s.deps.map)) = true := exists_ok (by decide +kernel)

/-- C52 is violated: a tree with a proper subset of the variables as features does not equal its own copy,
because the copy's dependencies are declared over all variables, the original's over the features only. -/
theorem C52_violated_eq : ∃ s, exSettings none = .ok s ∧ s.eq s = true ∧
    okAnd (s.copy (fun _ => true) readVariable) (fun u => !s.eq u) = true :=
  exists_ok (by decide +kernel)

/-- C52 is violated: the precision of a variable is lost when the tree is read from its JSON object (as in
pickling) without passing the variables, and then the tree does not equal the original even if its
dependencies do. -/
theorem C52_violated_variables : ∃ s, exSettings (some (.num (1 / 2))) = .ok s ∧
    okAnd (do let j ← s.toJson; Settings.fromJson (fun _ => true) readVariable none j)
      (fun u => decide (u.vars ≠ s.vars) && !s.eq u && decide (u.vars.map (fun v => v.info.settings.lookup "precision")
        = [some (.num (1 / 100)), some (.num (1 / 100))])) = true :=
  exists_ok (by decide +kernel)

end Verif.Trees
