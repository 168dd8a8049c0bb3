import Verif.Trees.Settings

/-!
# When the settings of two trees are the same, and what a tree's settings look like
-/

namespace Verif.Trees

open Verif Vars

variable {P M A : Type}

/-- Two maps hold the same values under the same names in the same order. -/
def SameMap (m o : VMap P A) : Prop :=
  (∀ n, m.view.val n = o.view.val n) ∧ m.view.order = o.view.order

/-- Two trees have the same settings. -/
structure SameSettings (s t : Settings P M) : Prop where
  vars : s.vars = t.vars
  targets : s.targets = t.targets
  features : s.features = t.features
  minSamples : s.minSamples = t.minSamples
  minImp : s.minImp = t.minImp
  maxLeaves : s.maxLeaves = t.maxLeaves
  maxDepth : s.maxDepth = t.maxDepth
  minDists : SameMap s.minDists t.minDists
  deps : SameMap s.deps t.deps

/-- Settings as a constructor and `learn` leave them: distinct names; targets, features and
dependencies among the variables; distances of numeric variables only. -/
structure Settings.OK (numeric : Var P → Bool) (s : Settings P M) : Prop where
  names : (s.vars.map Var.name).Nodup
  targets : s.targets ⊆ s.vars
  targets_ne : s.targets = [] → s.vars = []
  features : s.features ⊆ s.vars
  features_ne : s.features = [] → s.vars ⊆ s.targets
  depth : s.maxDepth ≠ some 0
  distsWF : s.minDists.WF
  dists : ∀ n a, s.minDists.view.val n = some a → ∃ v ∈ s.vars, v.name = n ∧ numeric v = true
  distsDecl : ∀ n v, s.minDists.view.decl n = some v → v ∈ s.vars
  depsWF : s.deps.WF
  depsDecl : ∀ n v, s.deps.view.decl n = some v → v ∈ s.vars
  depsVals : ∀ n l, s.deps.view.val n = some l → l ⊆ s.vars

end Verif.Trees
