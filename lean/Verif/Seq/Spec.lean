import Verif.Seq.Model
import Verif.Trees.Spec
import Mathlib.Algebra.BigOperators.Ring.Finset
import Mathlib.Data.Fintype.Pi

/-!
# Specification for sequential trees
-/

namespace Verif.Seq

open Trees Learn

/-- All pairs of neighbours in the sequences. -/
def neighbours (encs : List (List ℕ)) : List (ℕ × ℕ) := encs.flatMap (fun s => s.zip s.tail)

/-- The relative frequency of a pair. -/
def frequency (ps : List (ℕ × ℕ)) (p : ℕ × ℕ) : ℚ := (ps.count p : ℚ) / (ps.length : ℚ)

/-- What a training row of the joint tree should hold for the window starting at step `i`: all variables
at that step, then the targets at each of the `w - 1` later steps. -/
def windowRow (vars : ℕ) (targets : List ℕ) (w : ℕ) (s : Sequence) (i : ℕ) : List ℚ :=
  (List.range vars).map (rowAt s i) ++
    (List.range (w - 1)).flatMap (fun k => targets.map (rowAt s (i + (k + 1))))

/-- A sample that fits the variables. -/
def Fits (vars : List Kind) (x : ℕ → ℚ) : Prop :=
  ∀ v n : ℕ, vars[v]? = some (.integer n) ∨ vars[v]? = some (.symbolic n) → ∃ i : ℕ, i < n ∧ x v = (i : ℚ)

/-- The number that belongs to a leaf in a list that follows the order of the leaves. -/
def weightOf (keys : List ℕ) (d : List ℚ) (k : ℕ) : ℚ := d.getD (keys.idxOf k) 0

/-- The tree with its leaf priors multiplied by given weights and normalised. -/
def Reweighted {D : Type} (h : Heap D) (f : ℕ → ℚ) (r : Heap D) : Prop :=
  r.inner = h.inner ∧ r.root = h.root ∧
  r.leaves = h.leaves.map (fun l => (l.1, { l.2 with
    prior := l.2.prior * f l.1 / (h.leaves.map (fun l => l.2.prior * f l.1)).sum }))

/-- `r` is `d` up to a positive factor, after a tenth of its smallest entry has been put in place of
zeros. -/
def Smoothed (d r : List ℚ) : Prop :=
  ∃ m z : ℚ, m ∈ d ∧ 0 < m ∧ (∀ x ∈ d, x ≠ 0 → m ≤ x) ∧ 0 < z ∧
    r = d.map (fun x => z * (if x = 0 then m / 10 else x))

/-- The probability of each leaf given the evidence, in the order of the leaves. -/
def posterior {D : Type} (P : D → Region → ℚ) (h : Heap D) (e : Query) : List ℚ :=
  h.leaves.map (fun l => l.2.prior * leafProb P l.2 e / mass P h e)

/-- The unnormalised probability of a sequence of leaves in the grounded model: the product of the
factors of all steps and of the transition model at all neighbouring steps. -/
def weight (n m : ℕ) (model : Fin m → Fin m → ℚ) (factor : Fin n → Fin m → ℚ) (a : Fin n → Fin m) : ℚ :=
  (∏ t, factor t (a t)) * ∏ t : Fin (n - 1), model (a ⟨t, by omega⟩) (a ⟨t + 1, by omega⟩)

/-- The unnormalised marginal of step `t`. -/
def marginal (n m : ℕ) (model : Fin m → Fin m → ℚ) (factor : Fin n → Fin m → ℚ) (t : Fin n)
    (l : Fin m) : ℚ := ∑ a : Fin n → Fin m, if a t = l then weight n m model factor a else 0

/-- The entry of a matrix. -/
def entryOf (m : List (List ℚ)) (i j : ℕ) : ℚ := (m.getD i []).getD j 0

/-- The contract of belief propagation on a chain: for each step it returns the marginal, up to a
positive factor. -/
def Exact (model factors dists : List (List ℚ)) (m : ℕ) : Prop :=
  dists.length = factors.length ∧ ∀ t : Fin factors.length, ∃ z : ℚ, 0 < z ∧
    dists.getD t [] = (List.finRange m).map (fun l => z * marginal factors.length m
      (fun i j => entryOf model i j) (fun s i => entryOf factors s i) t l)

end Verif.Seq
