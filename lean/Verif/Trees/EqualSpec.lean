import Verif.Trees.NumDist
import Verif.Intervals.Spec

/-!
# Specification of equal trees
-/

namespace Verif.Trees

open Iv (FP CS)

variable {D : Type}

/-- Two sets of values with the same members; the members of an interval are floats. -/
inductive SameRegion (idx : ℚ → ℤ) : Region → Region → Prop
  | num {a b : Vars.RI} : (∀ x, (toCS idx a).Mem x ↔ (toCS idx b).Mem x) → SameRegion idx (.num a) (.num b)
  | set {l m : List ℤ} : (∀ z, z ∈ l ↔ z ∈ m) → SameRegion idx (.set l) (.set m)

/-- The interval is well-formed and its infinite bounds are open. -/
def RegularRegion (idx : ℚ → ℤ) : Region → Prop
  | .num a => (toCS idx a).WF ∧ (toCS idx a).Reg
  | .set _ => True

/-- Two inner nodes with the same parent, children, splits, variable and number of samples. -/
structure SameInner (idx : ℚ → ℤ) (a b : Inner) : Prop where
  parent : a.parent = b.parent
  children : a.children = b.children
  splits : List.Forall₂ (SameRegion idx) a.splits b.splits
  var : a.var = b.var
  samples : a.samples = b.samples

/-- Two leaves with the same path, number of samples, distributions and prior. -/
structure SameLeaf (idx : ℚ → ℤ) (same : D → D → Prop) (a b : Leaf D) : Prop where
  path : List.Forall₂ (fun s t => s.1 = t.1 ∧ SameRegion idx s.2 t.2) a.path b.path
  samples : a.samples = b.samples
  dists : List.Forall₂ same a.dists b.dists
  prior : a.prior = b.prior

/-- Two trees with the same numbers for nodes, and the same nodes and priors. -/
structure SameTree (idx : ℚ → ℤ) (same : D → D → Prop) (h h' : Heap D) (priors priors' : List (ℕ × D)) : Prop where
  inner : ∀ k, Option.Rel (SameInner idx) (h.inner.lookup k) (h'.inner.lookup k)
  leaves : ∀ k, Option.Rel (SameLeaf idx same) (h.leaves.lookup k) (h'.leaves.lookup k)
  priors : ∀ k, Option.Rel same (priors.lookup k) (priors'.lookup k)

/-- All sets of values in the nodes are regular. -/
structure RegularTree (idx : ℚ → ℤ) (h : Heap D) : Prop where
  inner : ∀ p ∈ h.inner, ∀ s ∈ p.2.splits, RegularRegion idx s
  leaves : ∀ p ∈ h.leaves, ∀ s ∈ p.2.path, RegularRegion idx s.2

end Verif.Trees
