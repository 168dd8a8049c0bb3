import Verif.Trees.Discrete
import Verif.Numeric.Json
import Verif.Numeric.Compare

/-!
# Trees over numeric variables: the distributions

The operations of a tree on numeric distributions.  A tree passes intervals of numbers; the models of numeric
distributions work with floats, which are numbered by integers: `val n` is the `n`-th float and `idx q` the index
of the float `q`.
-/

namespace Verif.Trees

open Iv (FP CS Br NS)
open Vars (RI)
open Fun (PF)

/-- The index of a bound. -/
def toFP (idx : ℚ → ℤ) : XQ → FP
  | .ninf => .ninf
  | .fin q => .fin (idx q)
  | .pinf => .pinf

/-- An interval with numbered floats as bounds. -/
def toCS (idx : ℚ → ℤ) (c : RI) : CS := ⟨toFP idx c.lower, toFP idx c.upper, c.left, c.right⟩

/-- The argument of `_p` and `_crop` (numeric.py 267-286, 362-403).  A set of value indices is never passed for a
numeric variable. -/
def numArg (idx : ℚ → ℤ) : Region → Except Err Num.Arg
  | .num c => .ok (.interval (toCS idx c))
  | .set _ => .error .typeError

/-- The operations of numeric distributions (numeric.py).  `rnd` is the float next to a number. -/
def numOps (val : ℤ → ℚ) (idx rnd : ℚ → ℤ) : DistOps PF NS where
  p d r := do
    let a ← numArg idx r
    Num.prob val d a
  pdf d x := do
    let f ← Num.pdf d
    Num.densAt f (toFP idx x)
  crop d r := do
    let a ← numArg idx r
    let c ← Num.cropTo val rnd d a
    return c.1
  merge ds ws := Num.merge val rnd ds (some (ws.map some))
  mpe d := do
    let f ← Num.pdf d
    Num.mpe f
  similarity d e := do
    let f ← Num.pdf d
    let g ← Num.pdf e
    Num.jaccard val rnd (decide (d = e)) f g
  reload := Num.reload

/-- The operations of trees with variables of both kinds: `K₁` and `K₂` list the operations of the two kinds of
distributions.  Distributions of different kinds never meet, as all leaves have the same variables. -/
def sumOps {D₁ D₂ E₁ E₂ : Type} (o₁ : DistOps D₁ E₁) (o₂ : DistOps D₂ E₂) : DistOps (D₁ ⊕ D₂) (E₁ ⊕ E₂) where
  p d r := match d with
    | .inl d => o₁.p d r
    | .inr d => o₂.p d r
  pdf d x := match d with
    | .inl d => o₁.pdf d x
    | .inr d => o₂.pdf d x
  crop d r := match d with
    | .inl d => (o₁.crop d r).map .inl
    | .inr d => (o₂.crop d r).map .inr
  merge ds ws :=
    if ds.all Sum.isLeft then (o₁.merge (ds.filterMap Sum.getLeft?) ws).map .inl
    else if ds.all Sum.isRight then (o₂.merge (ds.filterMap Sum.getRight?) ws).map .inr
    else .error .typeError
  mpe d := match d with
    | .inl d => (o₁.mpe d).map (fun m => (.inl m.1, m.2))
    | .inr d => (o₂.mpe d).map (fun m => (.inr m.1, m.2))
  similarity d e := match d, e with
    | .inl d, .inl e => o₁.similarity d e
    | .inr d, .inr e => o₂.similarity d e
    | _, _ => .error .typeError
  reload d := match d with
    | .inl d => (o₁.reload d).map .inl
    | .inr d => (o₂.reload d).map .inr

end Verif.Trees
