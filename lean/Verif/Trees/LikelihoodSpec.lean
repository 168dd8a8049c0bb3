import Verif.Trees.Likelihood

/-!
# Specification of the likelihood of worlds
-/

namespace Verif.Trees

variable {L : Type}

/-- `q` is how the value `x` of a variable is stored: numbers as they are, labels by their position. -/
def Stored : MK L → Cell L → ℚ → Prop
  | .inl _, .inl y, q => q = y
  | .inr k, .inr l, q => ∃ i : ℕ, k.2.labels[i]? = some l ∧ q = i
  | _, _, _ => False

/-- A value of a variable of the given kind: a float or a label of its domain. -/
def CellOK (val : ℤ → ℚ) (k : MK L) (x : Cell L) : Prop :=
  match k, x with
  | .inl _, .inl y => ∃ n, y = val n
  | .inr k, .inr l => l ∈ k.2.labels
  | _, _ => False

/-- `g` is the density of the numbers `s` with the cdf `F`.  If they are all the same it is `top` at this number,
otherwise the slope of the cdf from the least to the greatest number. -/
def NumDensity (val : ℤ → ℚ) (top : ℚ) (s : List ℤ) (F g : ℤ → ℚ) : Prop :=
  ∃ lo hi, lo ∈ s ∧ hi ∈ s ∧ (∀ x ∈ s, lo ≤ x ∧ x ≤ hi) ∧
    (lo = hi → ∀ n, g n = if n = lo then top else 0) ∧
    (lo < hi → (∀ n, lo ≤ n → n < hi → 0 < g n ∧ g n = (F (n + 1) - F n) / (val (n + 1) - val n)) ∧
      g hi = g (hi - 1) ∧ ∀ n, n < lo ∨ hi < n → g n = 0)

/-- All worlds over variables with the given labels. -/
def worlds : List (List L) → List (List L)
  | [] => [[]]
  | ls :: r => ls.flatMap (fun l => (worlds r).map (fun w => l :: w))

/-- The labels of a variable. -/
def labelsOf (kind : ℕ → MK L) (v : ℕ) : List L :=
  match kind v with
  | .inl _ => []
  | .inr k => k.2.labels

/-- The set with one label of a symbolic or integer variable, given by its position. -/
def worldRegion [DecidableEq L] (k : MK L) (x : L) : Region :=
  match k with
  | .inl _ => .set []
  | .inr k => .set [((k.2.labels.idxOf x : ℕ) : ℤ)]

/-- The query for one world. -/
def worldQuery [DecidableEq L] (kind : ℕ → MK L) (n : ℕ) (w : ℕ → L) : Query :=
  (List.range n).map (fun v => (v, worldRegion (kind v) (w v)))

end Verif.Trees
