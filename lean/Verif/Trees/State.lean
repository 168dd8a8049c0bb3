import Verif.Trees.NumDist

/-!
# `posterior` with the effect it has on the tree

`_crop` of a numeric distribution may overwrite the distribution it is called on (numeric.py 388-397, 176-184), and
`posterior` calls it on the distributions of the leaves (trees.py 1165-1174) without copying them.
-/

namespace Verif.Trees

open Iv (FP CS Br NS)
open Fun (PF)

variable {D E : Type}

/-- `_crop`: the result, and the distribution itself afterwards. -/
abbrev CropSt (D : Type) := D → Region → Except Err (D × D)

/-- The asked distribution of a leaf (trees.py 1166-1175), and the leaf afterwards. -/
def Leaf.posteriorSt (crop : CropSt D) (full : ℕ → Region) (e : Query) (l : Leaf D) (v : ℕ) :
    Except Err (D × Leaf D) := do
  let d ← l.dist v
  match e.lookup v with
  | none => return (d, l)
  | some r =>
    match (pathMap full l.path).lookup v with
    | none => return (d, l)
    | some R => do
      let c ← crop d (r.inter R)
      return (c.1, { l with dists := l.dists.set v c.2 })

/-- The loop over the asked variables (trees.py 1166-1175). -/
def Leaf.posteriorsSt (crop : CropSt D) (full : ℕ → Region) (e : Query) (l : Leaf D) :
    List ℕ → Except Err (List D × Leaf D)
  | [] => .ok ([], l)
  | v :: vs => do
    let x ← l.posteriorSt crop full e v
    let y ← x.2.posteriorsSt crop full e vs
    return (x.1 :: y.1, y.2)

/-- What one leaf contributes (trees.py 1135-1175), and the leaf afterwards. -/
def Leaf.contributionSt (o : DistOps D E) (crop : CropSt D) (full : ℕ → Region) (vs : List ℕ) (e : Query)
    (l : Leaf D) : Except Err (Option (ℚ × List D) × Leaf D) := do
  let x ← l.evidence o full e
  match x with
  | none => return (none, l)
  | some x => do
    let y ← l.posteriorsSt crop full e vs
    return (some (x * l.prior, y.1), y.2)

/-- `JPT.posterior` (trees.py 1097-1197): the result, and the tree afterwards.  Errors are modelled without the
changes that precede them. -/
def posteriorSt (o : DistOps D E) (crop : CropSt D) (n : ℕ) (full : ℕ → Region) (h : Heap D) (vs : List ℕ)
    (e : Query) : Except Err (List (ℕ × D) × Heap D) := do
  checkQuery n e
  let ls ← apply n h e
  let cs ← ls.mapM (fun l => do
    let c ← l.2.contributionSt o crop full vs e
    return (c.1, (l.1, c.2)))
  let after := cs.map Prod.snd
  let cs := cs.filterMap Prod.fst
  let ws ← weightsOf (cs.map Prod.fst)
  let res ← vs.zipIdx.mapM (fun vi => do
    let d ← o.merge (cs.filterMap (fun c => c.2[vi.2]?)) ws
    return (vi.1, d))
  return (res, { h with leaves := h.leaves.map (fun l => (l.1, (after.lookup l.1).getD l.2)) })

/-- `Numeric._crop` (numeric.py 362-403). -/
def numCrop (val : ℤ → ℚ) (idx rnd : ℚ → ℤ) : CropSt PF := fun d r => do
  let a ← numArg idx r
  Num.cropTo val rnd d a

/-- `_crop` of the two kinds of distributions.  Symbolic and integer distributions crop a copy
(multinomial.py 368-387, integer.py 316-338). -/
def sumCrop {D₁ D₂ : Type} (crop : CropSt D₁) (o : DistOps D₂ E) : CropSt (D₁ ⊕ D₂) := fun d r =>
  match d with
  | .inl d => (crop d r).map (fun c => (.inl c.1, .inl c.2))
  | .inr d => (o.crop d r).map (fun c => (.inr c, .inr d))

end Verif.Trees
