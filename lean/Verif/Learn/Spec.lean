import Verif.Learn.Model
import Mathlib.Algebra.BigOperators.Group.Finset.Basic

/-!
# Specification of the learner

What the English properties talk about, without the learner's own functions.
-/

namespace Verif.Learn

open Trees

/-- A sample with one number for every variable: a discrete variable holds one of its value indices. -/
def Valid (c : Cfg) (x : ℕ → ℚ) : Prop :=
  ∀ v n : ℕ, c.vars[v]? = some (.integer n) ∨ c.vars[v]? = some (.symbolic n) → ∃ i : ℕ, i < n ∧ x v = (i : ℚ)

/-- The sample meets every restriction on a path. -/
def Sat (path : Path) (x : ℕ → ℚ) : Prop := ∀ e ∈ path, e.2.Mem (.fin (x e.1))

instance (path : Path) (x : ℕ → ℚ) : Decidable (Sat path x) := by unfold Sat; infer_instance

/-- All rows of the training data are valid samples. -/
def DataOK (c : Cfg) (data : Data) (total : ℕ) : Prop := ∀ r, r < total → Valid c (data r)

/-- The mean of finitely many numbers. -/
def mean (xs : List ℚ) : ℚ := xs.sum / (xs.length : ℚ)

/-- The mean squared deviation from the mean. -/
def variance (xs : List ℚ) : ℚ := mean (xs.map (fun x => (x - mean xs) * (x - mean xs)))

/-- The relative reduction of the variance by dividing the numbers into `xs` and `ys`. -/
def relReduction (all xs ys : List ℚ) : ℚ :=
  (variance all - ((xs.length : ℚ) * variance xs + (ys.length : ℚ) * variance ys) / (all.length : ℚ))
    / variance all

/-- The gini impurity of values among `0, …, k-1`, divided by its maximum. -/
def gini (k : ℕ) (vs : List ℕ) : ℚ :=
  (1 - ∑ j ∈ Finset.range k, ((vs.count j : ℚ) / (vs.length : ℚ)) ^ 2) / (1 - 1 / (k : ℚ))

/-- A column of the data. -/
def col (data : Data) (rows : List ℕ) (t : ℕ) : List ℚ := rows.map (fun r => data r t)

/-- A column of value indices. -/
def vals (data : Data) (rows : List ℕ) (t : ℕ) : List ℕ := rows.map (fun r => (data r t).floor.toNat)

/-- How the code combines the reductions of several numeric targets; for at most one target this is
the average. -/
def combine (rs : List ℚ) : ℚ :=
  (rs.foldl (fun acc r => (acc.1 * acc.2 + r / (acc.2 + 1), acc.2 + 1)) ((0, 0) : ℚ × ℚ)).1

/-- The average gini impurity of the symbolic targets, each divided by its maximum; `symbols` has the
number of values of the targets. -/
def giniMean (c : Cfg) (data : Data) (rows : List ℕ) : ℚ :=
  mean (c.symT.mapIdx (fun i t =>
    if c.symbols.getD i 1 = 1 then 0
    else if c.invert t then 1 - gini (c.symbols.getD i 1) (vals data rows t)
    else gini (c.symbols.getD i 1) (vals data rows t)))

/-- The improvement of dividing `rows` into `L` and `R` by feature `v`: the relative reduction of
variance (of the numeric targets other than `v`) and of impurity (of the symbolic targets), weighted
by the numbers of targets. -/
def improvement (c : Cfg) (data : Data) (v : ℕ) (rows L R : List ℕ) : ℚ :=
  combine ((c.numT.filter (fun t => decide (t ≠ v ∧ variance (col data rows t) ≠ 0))).map
      (fun t => relReduction (col data rows t) (col data L t) (col data R t))) * c.wNumeric +
    (if giniMean c data rows ≠ 0 then
      (giniMean c data rows - giniMean c data L * ((L.length : ℚ) / (rows.length : ℚ))
        - giniMean c data R * ((R.length : ℚ) / (rows.length : ℚ))) / giniMean c data rows
        * (1 - c.wNumeric)
    else 0)

/-- A way to divide rows by a feature: at a threshold, or one value against the others; both sides
have a row. -/
def Division (c : Cfg) (data : Data) (v : ℕ) (rows L R : List ℕ) : Prop :=
  v < c.vars.length ∧ v ∈ c.features ∧ rows.Perm (L ++ R) ∧ L ≠ [] ∧ R ≠ [] ∧
  (c.isNum v = true ∧ (∃ θ, (∀ r ∈ L, data r v ≤ θ) ∧ ∀ r ∈ R, θ < data r v) ∨
    c.isSym v = true ∧ ∃ w, (∀ r ∈ L, data r v = w) ∧ ∀ r ∈ R, data r v ≠ w)

/-- There are symbolic targets, or no symbolic features: where `min_samples_leaf` counts right. -/
def Respects (c : Cfg) : Prop := c.hasSym = true ∨ c.symF = []

/-- A node with its parent and path. -/
def NodeAt {D : Type} (h : Heap D) (j : ℕ) (parent : Option ℕ) (path : Path) : Prop :=
  (∃ n, h.inner.lookup j = some n ∧ n.parent = parent ∧ n.path = path) ∨
  (∃ l, h.leaves.lookup j = some l ∧ l.parent = parent ∧ l.path = path)

/-- The nodes form a tree: distinct indices, children point to their parents and the other way round,
paths follow the splits, and children come after their parents. -/
structure Shape {D : Type} (h : Heap D) : Prop where
  nodup : (h.inner.map Prod.fst ++ h.leaves.map Prod.fst).Nodup
  arity : ∀ k n, h.inner.lookup k = some n → n.children.length = n.splits.length
  kids : ∀ (k : ℕ) (n : Inner) (i j : ℕ), h.inner.lookup k = some n → n.children[i]? = some (some j) →
    k < j ∧ ∃ s, n.splits[i]? = some s ∧ NodeAt h j (some k) (n.path ++ [(n.var, s)])
  parents : ∀ j path, NodeAt h j none path → h.root = some j ∧ path = []
  parents' : ∀ j k path, NodeAt h j (some k) path →
    ∃ (n : Inner) (i : ℕ), h.inner.lookup k = some n ∧ n.children[i]? = some (some j)
  once : ∀ (k : ℕ) (n : Inner) (i i' j : ℕ), h.inner.lookup k = some n → n.children[i]? = some (some j) →
    n.children[i']? = some (some j) → i = i'
  root : ∀ r, h.root = some r → NodeAt h r none []

end Verif.Learn
