import Verif.Learn.Model
import Verif.Trees.Json
import Verif.Utils.Model
import Mathlib.Data.Char
import Mathlib.Data.List.Lex

/-!
# Model of `src/jpt/sequential_trees.py`

Sequences are taken after `JPT._preprocess_data`, which works column by column, the copies of a variable
having the same domain, so that it commutes with the unfolding.  Leaf numbers are `ℕ`; the float array
of `JPT.encode` holds them exactly.  The library `factorgraph` is a parameter.
-/

namespace Verif.Seq

open Trees Learn

/-- A sequence of samples; `s[t]` is the row at step `t`. -/
abbrev Sequence := List (ℕ → ℚ)

/-- The row at a step. -/
def rowAt (s : Sequence) (t : ℕ) : ℕ → ℚ := s.getD t (fun _ => 0)

/-! ## The table for the joint tree -/

/-- The entry `[i, v, k]` of `sliding_window_view(sequence, (w,), axis=0)`
(sequential_trees.py 72); its shape is `(len(sequence) - w + 1, #variables, w)`. -/
def windowAt (s : Sequence) (i v k : ℕ) : ℚ := rowAt s (i + k) v

/-- The number of windows; `ValueError` if the window is longer than the sequence
(sequential_trees.py 72, numpy `sliding_window_view`). -/
def windowCount (w : ℕ) (len : ℕ) : Except Err ℕ :=
  if len < w then .error .valueError else .ok (len - w + 1)

/-- The entry `[i, c]` of an array of shape `(n, V, w)` after `reshape((n, V * w), order="F")`
(sequential_trees.py 73): both arrays are read with the first index running fastest, so the entry is
at position `i + n * c` of that order. -/
def reshapeF (n V : ℕ) (a : ℕ → ℕ → ℕ → ℚ) (i c : ℕ) : ℚ :=
  let p := i + n * c
  a (p % n) (p / n % V) (p / n / V)

/-- `target_indices` (sequential_trees.py 39-43). -/
def targetIndices (a : Args) : List ℕ :=
  (List.range a.vars.length).filter (fun v => a.allTargets.contains v)

/-- `data_indices` (sequential_trees.py 36, 46-53). -/
def dataIndices (a : Args) (w : ℕ) : List ℕ :=
  List.range a.vars.length ++
    (List.range' 1 (w - 1)).flatMap (fun t => (targetIndices a).map (fun v => v + t * a.vars.length))

/-- `unfolded` for one sequence (sequential_trees.py 72-75): a row for every window. -/
def unfoldSeq (a : Args) (w : ℕ) (s : Sequence) : Except Err (List (List ℚ)) := do
  let n ← windowCount w s.length
  return (List.range n).map (fun i =>
    (dataIndices a w).map (fun c => reshapeF n a.vars.length (windowAt s) i c))

/-- The loop over the sequences (sequential_trees.py 66-81).  Without a sequence `data` stays `None`,
which `learn` rejects (trees.py 1686-1687). -/
def unfoldAll (a : Args) (w : ℕ) (ss : List Sequence) : Except Err (List (List ℚ)) := do
  let tables ← ss.mapM (unfoldSeq a w)
  match tables with
  | [] => .error .valueError
  | _ => return tables.flatten

/-- The arguments of the expanded tree (sequential_trees.py 32-63): the targets of later steps follow
the variables; they are the targets.  Features and dependencies are not passed. -/
def expanded (a : Args) (w : ℕ) : Args where
  vars := a.vars ++ (List.range' 1 (w - 1)).flatMap (fun _ =>
    (targetIndices a).map (fun v => a.vars.getD v .numeric))
  targets := List.range' a.vars.length ((w - 1) * (targetIndices a).length)
  features := []
  minSamplesLeaf := a.minSamplesLeaf
  minImp := a.minImp
  maxDepth := a.maxDepth
  deps := none
  invert := fun i => a.invert ((dataIndices a w).getD i 0 % a.vars.length)

/-- A table as the learner reads it. -/
def tableData (rows : List (List ℚ)) : Data := fun r c => (rows.getD r []).getD c 0

/-! ## The transition model -/

/-- The transitions of one encoded sequence, `sliding_window_view(encoded, (2,), axis=0)`
(sequential_trees.py 106). -/
def transitionsOf (enc : List ℕ) : Except Err (List (ℕ × ℕ)) := do
  let n ← windowCount 2 enc.length
  return (List.range n).map (fun i => (enc.getD i 0, enc.getD (i + 1) 0))

/-- The loop over the sequences (sequential_trees.py 98-112).  Without a sequence `transition_data`
stays `None`, which cannot be indexed. -/
def transitionData (encs : List (List ℕ)) : Except Err (List (ℕ × ℕ)) := do
  let tables ← encs.mapM transitionsOf
  match tables with
  | [] => .error .typeError
  | _ => return tables.flatten

/-- The entry of a pair of leaves (sequential_trees.py 121-122). -/
def entry (data : List (ℕ × ℕ)) (i j : ℕ) : ℚ :=
  (data.countP (fun p => decide (p.1 = i) && decide (p.2 = j)) : ℚ) / (data.length : ℚ)

/-- `transition_model` (sequential_trees.py 115-124). -/
def transitionModel (keys : List ℕ) (encs : List (List ℕ)) : Except Err (List (List ℚ)) := do
  let data ← transitionData encs
  return keys.map (fun i => keys.map (fun j => entry data i j))

/-! ## `fit` -/

/-- What is kept of a leaf of the expanded tree: the distributions of the template's variables, which
come first (sequential_trees.py 89-91). -/
def keepLeaf {D : Type} (n : ℕ) (l : Leaf D) : Leaf D := { l with dists := l.dists.take n }

/-- The template tree after learning (sequential_trees.py 87-92): root and decision nodes are replaced,
the leaves are added to those already there. -/
def adopt {D : Type} (n : ℕ) (old new : Heap D) : Heap D :=
  ⟨new.inner, Dict.update old.leaves (new.leaves.map (fun e => (e.1, keepLeaf n e.2))), new.root⟩

/-- `SequentialJPT.fit` (sequential_trees.py 25-126), without the priors of the variables.  `old` are the
nodes of the template before, `fitD data rows v` is the distribution fitted to a column.  `full` gives the
domain of a variable. -/
def fit {D : Type} (a : Args) (full : ℕ → Region) (fitD : Data → List ℕ → ℕ → D) (old : Heap D) (w : ℕ)
    (ss : List Sequence) : Except Err (Heap D × List (List ℚ)) := do
  let rows ← unfoldAll a w ss
  let new ← learn ((expanded a w).cfg rows.length) (tableData rows) rows.length (fitD (tableData rows))
  let h := adopt a.vars.length old new
  let m ← transitionModel (h.leaves.map Prod.fst) (ss.map (fun s => s.map (encode full h)))
  return (h, m)

/-! ## `independent_marginals` -/

/-- `"t%s" % t` (sequential_trees.py 169), as its characters. -/
def rvName (t : ℕ) : List Char := 't' :: Nat.toDigits 10 t

/-- The factor of one step (sequential_trees.py 203-211). -/
def priorFactor {D : Type} (keys : List ℕ) (c : Heap D) : List ℚ :=
  keys.map (fun k => ((c.leaves.lookup k).map (fun l => l.prior)).getD 0)

/-- `ground` (sequential_trees.py 151-220): the conditional trees, and the factor of every step.  The
other factors are the transition model, once for every pair of neighbouring steps. -/
def ground {D E : Type} (o : DistOps D E) (n : ℕ) (full : ℕ → Region) (h : Heap D) (priors : List (ℕ × D))
    (es : List Query) : Except Err (List (Heap D) × List (List ℚ)) := do
  let cs ← es.mapM (fun e => (conditional o n full h priors e).map Prod.fst)
  return (cs, cs.map (priorFactor (h.leaves.map Prod.fst)))

/-- Comparison of names (`key=itemgetter(0)`), by code points. -/
def nameLe (a b : List Char × List ℚ) : Prop := a.1 ≤ b.1

instance : DecidableRel nameLe := fun a b => inferInstanceAs (Decidable (a.1 ≤ b.1))

/-- `leaf_distribution`, sorted (sequential_trees.py 312-315, 325-326): `dists[t]` is the marginal of
the random variable of step `t`. -/
def sortedDists (dists : List (List ℚ)) : List (List ℚ) :=
  (((List.range dists.length).map rvName).zip dists |>.insertionSort nameLe).map Prod.snd

/-- `prior` (sequential_trees.py 329-334). -/
def leafPrior (keys : List ℕ) (d : List ℚ) : List (ℕ × ℚ) := (keys.insertionSort (· ≤ ·)).zip d

/-- `normalized(dist, zeros=.1)` (sequential_trees.py 313). -/
def smooth (d : List ℚ) : Except Err (List ℚ) := Ut.normValues false false (1 / 10) d

/-- `SequentialJPT.independent_marginals` (sequential_trees.py 281-341).  `lbp model factors` are the
marginals that belief propagation (library `factorgraph`, 100 iterations) returns for the steps, given
the transition model and the factors of the steps. -/
def independentMarginals {D E : Type} (o : DistOps D E) (n : ℕ) (full : ℕ → Region) (h : Heap D)
    (priors : List (ℕ × D)) (model : List (List ℚ))
    (lbp : List (List ℚ) → List (List ℚ) → List (List ℚ)) (es : List Query) :
    Except Err (List (Heap D)) := do
  let g ← ground o n full h priors es
  let dists ← (lbp model g.2).mapM smooth
  ((sortedDists dists).zip g.1).mapM (fun p =>
    multiplyPriors p.2 (leafPrior (h.leaves.map Prod.fst) p.1))

/-! ## JSON -/

/-- `SequentialJPT.to_json`, `from_json` (sequential_trees.py 343-355) on the nodes and the transition
model; `None.tolist()` fails. -/
def jsonRoundTrip {D E : Type} (o : DistOps D E) (h : Heap D) (model : Option (List (List ℚ))) :
    Except Err (Heap D × Option (List (List ℚ))) := do
  let j ← toJson h
  match model with
  | none => .error .attributeError
  | some m => do
    let h' ← fromJson o j
    return (h', some m)

end Verif.Seq
