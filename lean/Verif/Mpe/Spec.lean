import Verif.Discrete.Model
import Mathlib.Order.WithBot
import Mathlib.Data.List.Basic
import Mathlib.Algebra.BigOperators.Group.List.Basic

/-! # What the k-MPE solver has to enumerate

The problem is a list of variables, each with its possible values and their costs; the cost of an
impossible value is `⊤`, the cost of a value of infinite likelihood is `⊥`. -/

namespace Verif.Mpe

variable {V A K : Type}

/-- A raw cost counts as the number `k`: a number is itself, `⊥` counts as zero, `⊤` as nothing. -/
def Counts [Zero K] (c : WithBot (WithTop K)) (k : K) : Prop :=
  c = ((k : WithTop K) : WithBot (WithTop K)) ∨ (c = ⊥ ∧ k = 0)

/-- The variable `v` can take the value `a`, at cost `k`. -/
def Allowed [Zero K] (vals : List (V × List (A × WithBot (WithTop K)))) (v : V) (a : A) (k : K) :
    Prop :=
  ∃ vs, (v, vs) ∈ vals ∧ ∃ c, (a, c) ∈ vs ∧ Counts c k

/-- `st` assigns every variable exactly one possible value, and `c` is the sum of the costs. -/
def Complete [AddMonoid K] (vals : List (V × List (A × WithBot (WithTop K)))) (st : List (V × A))
    (c : K) : Prop :=
  (st.map Prod.fst).Perm (vals.map Prod.fst) ∧
    ∃ ks, List.Forall₂ (fun p k => Allowed vals p.1 p.2 k) st ks ∧ c = ks.sum

/-- Every variable has a value of finite cost, and neither variables nor values occur twice.  Where
a value has infinite likelihood, all others are divided by the largest finite one, so that there are
no negative costs. -/
structure Problem [LE K] [Zero K] (vals : List (V × List (A × WithBot (WithTop K)))) : Prop where
  nonempty : vals ≠ []
  vars : (vals.map Prod.fst).Nodup
  values : ∀ v ∈ vals, (v.2.map Prod.fst).Nodup
  possible : ∀ v ∈ vals, ∃ x ∈ v.2, x.2 ≠ ((⊤ : WithTop K) : WithBot (WithTop K))
  costs : ∀ v ∈ vals, (∀ x ∈ v.2, x.2 ≠ ⊥) ∨ ∀ x ∈ v.2, ∀ k : K, Counts x.2 k → 0 ≤ k

/-! ## Symbolic and integer variables -/

/-- `f` chooses for each variable one of the positive probabilities of its distribution. -/
def Choice {L : Type} (dists : List (V × Disc.Dist L)) (f : V → ℚ) : Prop :=
  ∀ x ∈ dists, f x.1 ∈ x.2.params ∧ f x.1 ≠ 0

/-- A result of the solver: each variable is assigned the set of all states of the probability
chosen by `f`, and the likelihood is the product of the probabilities. -/
def Shows {L : Type} (dists : List (V × Disc.Dist L)) (f : V → ℚ) (x : List (V × List ℤ) × ℚ) : Prop :=
  (x.1.map Prod.fst).Perm (dists.map Prod.fst) ∧
  (∀ p ∈ x.1, ∀ d, (p.1, d) ∈ dists →
    p.2.Nodup ∧ ∀ z : ℤ, z ∈ p.2 ↔ ∃ i : ℕ, z = i ∧ d.params[i]? = some (f p.1)) ∧
  x.2 = (dists.map fun v => f v.1).prod

end Verif.Mpe
