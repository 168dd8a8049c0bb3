import Verif.Trees.LikelihoodSpec

/-!
# Specification of the most probable explanations of trees with numeric variables
-/

namespace Verif.Trees

open Iv (FP NS)
open Learn (Data)

variable {L : Type} [DecidableEq L]

/-- A float or a label for every variable. -/
def World (val : ℤ → ℚ) (kind : ℕ → MK L) (n : ℕ) (w : ℕ → Cell L) : Prop := ∀ v, v < n → CellOK val (kind v) (w v)

/-- The world agrees with the evidence. -/
def Agrees (kind : ℕ → MK L) (e : Query) (w : ℕ → Cell L) : Prop :=
  ∀ i ∈ e, ∀ q, Stored (kind i.1) (w i.1) q → i.2.Mem (.fin q)

/-- The values that a state of one variable stands for. -/
def InState (val : ℤ → ℚ) : NS ⊕ Disc.Arg L → Cell L → Prop
  | .inl S, .inl y => ∃ n, y = val n ∧ S.Mem (.fin n)
  | .inr s, .inr x => x ∈ s.elems
  | _, _ => False

/-- The worlds that an explanation stands for. -/
def Explained (val : ℤ → ℚ) (n : ℕ) (s : List (NS ⊕ Disc.Arg L)) (w : ℕ → Cell L) : Prop :=
  List.Forall₂ (InState val) s ((List.range n).map w)

/-- The densities of the variables in a leaf: the relative frequencies of the labels, and the slopes of the cdf fitted to
the numbers; where all numbers of the leaf are the same, the density at this number is `top`. -/
structure LeafDensity (val : ℤ → ℚ) (idx : ℚ → ℤ) (eps : ℚ) (kind : ℕ → MK L) (n : ℕ) (data : Data) (top : ℕ → ℚ)
    (l : Leaf (MD L)) (g : ℕ → Cell L → ℚ) : Prop where
  label : ∀ v, v < n → ∀ k, kind v = .inr k → ∀ x ∈ k.2.labels, g v (.inr x) =
    (l.rows.countP (fun r => decide (data r v = (k.2.labels.idxOf x : ℚ))) : ℚ) / l.rows.length
  number : ∀ v, v < n → kind v = .inl () → ∃ p F, Num.fit val eps (l.rows.map (fun r => idx (data r v))) = .ok p ∧
    (∀ m, p.eval val m = .ok (some (F m))) ∧
    NumDensity val (top v) (l.rows.map (fun r => idx (data r v))) F (fun m => g v (.inl (val m)))

/-- The density of a world in a leaf, times the prior of the leaf. -/
def jointDensity (n : ℕ) (g : ℕ → Cell L → ℚ) (l : Leaf (MD L)) (w : ℕ → Cell L) : ℚ :=
  l.prior * ((List.range n).map (fun v => g v (w v))).prod

end Verif.Trees
