import Verif.Trees.Heap
import Verif.CUtils.Model
import Mathlib.Order.WithBot
import Mathlib.Algebra.BigOperators.Group.List.Basic

/-!
# Model of `learning/impurity.pyx` and of the learning part of `trees.py`

The training data is a matrix `data row column` of numbers; a symbolic or integer cell holds the index
of its value.  Numbers are exact.  Cells are finite, so the branch of `col_is_constant` for `inf` and
`nan` (impurity.pyx 769-770) does not occur.  Buffers indexed by the position of a target
(`sums_left[i]`, `symbols_left[v, i]`, …) are functions of the target variable here, except that
`symbols[i]` keeps its position (see `Cfg.symbols`).
-/

namespace Verif.Learn

open Trees

/-- The kind of a variable; a domain of `n` values has the value indices `0, …, n-1`. -/
inductive Kind
  | numeric
  | integer (n : ℕ)
  | symbolic (n : ℕ)
  deriving DecidableEq

/-- The hyperparameters of a `JPT` (trees.py 702-770) that the learner uses. `maxDepth = none` is
`inf`.  `deps` is `dependencies` by variable index (impurity.pyx 635-648). -/
structure Cfg where
  vars : List Kind
  targets : List ℕ
  features : List ℕ
  deps : ℕ → List ℕ
  invert : ℕ → Bool
  minSamples : ℚ
  minImp : ℚ
  maxDepth : Option ℕ

namespace Cfg

/-- `v.symbolic`. -/
def isSym (c : Cfg) (i : ℕ) : Bool :=
  match c.vars[i]? with
  | some (.symbolic _) => true
  | _ => false

/-- `v.numeric or v.integer`. -/
def isNum (c : Cfg) (i : ℕ) : Bool :=
  match c.vars[i]? with
  | some .numeric => true
  | some (.integer _) => true
  | _ => false

/-- `get_indices_of_numeric_targets_from_tree` (impurity.pyx 565-573). -/
def numT (c : Cfg) : List ℕ :=
  (List.range c.vars.length).filter (fun i => c.isNum i && c.targets.contains i)

/-- `get_indices_of_symbolic_targets_from_tree` (impurity.pyx 575-583). -/
def symT (c : Cfg) : List ℕ :=
  (List.range c.vars.length).filter (fun i => c.isSym i && c.targets.contains i)

/-- `get_indices_of_numeric_features_from_tree` (impurity.pyx 603-608). -/
def numF (c : Cfg) : List ℕ :=
  (List.range c.vars.length).filter (fun i => c.isNum i && c.features.contains i)

/-- `get_indices_of_symbolic_features_from_tree` (impurity.pyx 610-615). -/
def symF (c : Cfg) : List ℕ :=
  (List.range c.vars.length).filter (fun i => c.isSym i && c.features.contains i)

/-- `get_size_of_symbolic_variables_domain_from_tree` (impurity.pyx 617-622): one entry for every
symbolic *variable*, not only for the targets. -/
def symbols (c : Cfg) : List ℕ :=
  c.vars.filterMap (fun k => match k with | .symbolic n => some n | _ => none)

/-- `w_numeric` (impurity.pyx 522). -/
def wNumeric (c : Cfg) : ℚ := (c.numT.length : ℚ) / ((c.numT.length + c.symT.length : ℕ) : ℚ)

/-- `has_numeric_vars(except_var)` (impurity.pyx 683-694), as a condition. -/
def hasNum (c : Cfg) (except : Option ℕ) : Bool :=
  match except with
  | none => decide (c.numT.length ≠ 0)
  | some v => decide (c.numT.length - (if v ∈ c.numT then 1 else 0) ≠ 0)

/-- `has_symbolic_vars` (impurity.pyx 696-700), as a condition. -/
def hasSym (c : Cfg) : Bool := decide (c.symT.length ≠ 0)

end Cfg

/-- The training data. -/
abbrev Data := ℕ → ℕ → ℚ

/-- `sum_at` (impurity.pyx 94-116) at one column. -/
def sumAt (data : Data) (rows : List ℕ) (col : ℕ) : ℚ := rows.foldl (fun s r => s + data r col) 0

/-- `sq_sum_at` (impurity.pyx 131-156) at one column. -/
def sqSumAt (data : Data) (rows : List ℕ) (col : ℕ) : ℚ :=
  rows.foldl (fun s r => s + data r col * data r col) 0

/-- `variances` (impurity.pyx 170-201) at one position. -/
def varianceOf (sq s : ℚ) (n : ℕ) : ℚ := if n ≤ 1 then 0 else (sq - s * s / (n : ℚ)) / (n : ℚ)

/-- `<SIZE_t> data[...]`: the value index in a symbolic cell. -/
def valIdx (q : ℚ) : ℕ := q.floor.toNat

/-- `bincount` (impurity.pyx 232-251): how often each value occurs in a column. -/
def binCount (data : Data) (rows : List ℕ) (col : ℕ) : ℕ → ℤ :=
  rows.foldl (fun c r w => if w = valIdx (data r col) then c w + 1 else c w) (fun _ => 0)

/-- One pass of the loop of `compute_var_improvements` (impurity.pyx 53-67): the running value and the
divisor. -/
def varImprStep (old left right : ℕ → ℚ) (nl nr : ℕ) (skip : Option ℕ) (acc : ℚ × ℚ) (t : ℕ) :
    ℚ × ℚ :=
  if skip = some t ∨ old t = 0 then acc
  else
    (acc.1 * acc.2 +
      ((old t - (left t * nl + right t * nr) / ((nl + nr : ℕ) : ℚ)) / old t) / (acc.2 + 1), acc.2 + 1)

/-- `compute_var_improvements` (impurity.pyx 29-69). -/
def varImpr (ts : List ℕ) (old left right : ℕ → ℚ) (nl nr : ℕ) (skip : Option ℕ) : ℚ :=
  (ts.foldl (varImprStep old left right nl nr skip) (0, 0)).1

/-- `gini_impurity` (impurity.pyx 709-746) of one histogram of a variable with `k` values. -/
def giniOf (k : ℕ) (counts : ℕ → ℤ) (n : ℕ) (inv : Bool) : ℚ :=
  if k = 1 then 0
  else
    let sq : ℚ := (List.range k).foldl (fun s j => s + ((counts j * counts j : ℤ) : ℚ)) 0
    let g := (sq / ((n * n : ℕ) : ℚ) - 1) / (1 / (k : ℚ) - 1)
    if inv then 1 - g else g

/-- `gini_impurity` (impurity.pyx 709-746) of all symbolic targets: the `i`-th target is measured with
`symbols[i]`. -/
def giniAll (c : Cfg) (counts : ℕ → ℕ → ℤ) (n : ℕ) : List ℚ :=
  c.symT.mapIdx (fun i t => giniOf (c.symbols.getD i 1) (counts t) n (c.invert t))

/-- The statistics of the rows of a node (impurity.pyx 818-864). -/
structure Totals where
  sum : ℕ → ℚ
  sq : ℕ → ℚ
  var : ℕ → ℚ
  cnt : ℕ → ℕ → ℤ
  gini : ℚ

/-- The first part of `compute_best_split` (impurity.pyx 812-866). -/
def totals (c : Cfg) (data : Data) (rows : List ℕ) : Totals where
  sum := sumAt data rows
  sq := sqSumAt data rows
  var t := varianceOf (sqSumAt data rows t) (sumAt data rows t) rows.length
  cnt t := binCount data rows t
  gini := if c.hasSym then
      CU.mean (giniAll c (fun t => binCount data rows t) rows.length)
    else 0

/-- The state of the loop over the split positions (impurity.pyx 1006-1160): the statistics on both
sides, the counter `num_samples[LEFT]`, the best improvement (`⊥` is `-inf`) and its position. -/
structure ESt where
  sl : ℕ → ℚ
  ql : ℕ → ℚ
  sr : ℕ → ℚ
  qr : ℕ → ℚ
  cl : ℕ → ℕ → ℤ
  cr : ℕ → ℕ → ℤ
  num : ℕ
  best : WithBot ℚ
  pos : Option ℕ

/-- The state before the loop (impurity.pyx 1000-1012). -/
def ESt.init (T : Totals) : ESt where
  sl _ := 0
  ql _ := 0
  sr := T.sum
  qr := T.sq
  cl _ _ := 0
  cr := T.cnt
  num := 0
  best := ⊥
  pos := none

/-- `update_numeric_stats_with_dependencies` and `update_symbolic_stats_with_dependencies`
(impurity.pyx 1165-1228), and the counter (1046-1049): row `r` moves to the left side. -/
def ESt.add (T : Totals) (data : Data) (deps : List ℕ) (r : ℕ) (st : ESt) : ESt :=
  let sl := fun t => if t ∈ deps then st.sl t + data r t else st.sl t
  let ql := fun t => if t ∈ deps then st.ql t + data r t * data r t else st.ql t
  let cl := fun t w => if t ∈ deps ∧ w = valIdx (data r t) then st.cl t w + 1 else st.cl t w
  { sl := sl
    ql := ql
    sr := fun t => if t ∈ deps then T.sum t - sl t else st.sr t
    qr := fun t => if t ∈ deps then T.sq t - ql t else st.qr t
    cl := cl
    cr := fun t w => if t ∈ deps ∧ w = valIdx (data r t) then T.cnt t w - cl t w else st.cr t w
    num := st.num + 1
    best := st.best
    pos := st.pos }

/-- The improvement of a split (impurity.pyx 1077-1124). -/
def gainOf (c : Cfg) (T : Totals) (v n : ℕ) (st : ESt) : ℚ :=
  (if c.hasNum (some v) then
      varImpr c.numT T.var (fun t => varianceOf (st.ql t) (st.sl t) st.num)
        (fun t => varianceOf (st.qr t) (st.sr t) (n - st.num)) st.num (n - st.num) (some v) * c.wNumeric
    else 0) +
  (if c.hasSym then
      if T.gini ≠ 0 then
        (T.gini - CU.mean (giniAll c st.cl st.num) * ((st.num : ℚ) / (n : ℚ))
          - CU.mean (giniAll c st.cr (n - st.num)) * (((n - st.num : ℕ) : ℚ) / (n : ℚ))) / T.gini
          * (1 - c.wNumeric)
      else 0
    else 0)

/-- The reset after each value of a symbolic feature (impurity.pyx 1126-1140).  `num_samples` is reset
only if there are symbolic targets. -/
def ESt.reset (c : Cfg) (T : Totals) (v : ℕ) (st : ESt) : ESt :=
  let st1 : ESt := if c.hasSym then { st with cl := fun _ _ => 0, cr := T.cnt, num := 0 } else st
  if c.hasNum (some v) then { st1 with sl := fun _ => 0, ql := fun _ => 0 } else st1

/-- The improvement, or `-inf` if a side has too few rows (impurity.pyx 1142-1144). -/
def legalGain (c : Cfg) (T : Totals) (v n : ℕ) (st : ESt) : WithBot ℚ :=
  if (st.num : ℚ) < c.minSamples ∨ ((n - st.num : ℕ) : ℚ) < c.minSamples then ⊥
  else ((gainOf c T v n st : ℚ) : WithBot ℚ)

/-- Keep the better position (impurity.pyx 1147-1149). -/
def ESt.consider (st : ESt) (gain : WithBot ℚ) (p : ℕ) : ESt :=
  if gain > st.best then { st with best := gain, pos := some p } else st

/-- `subsequent_equal` (impurity.pyx 1071): the next row carries the same value. -/
def sameNext (data : Data) (v r : ℕ) : List ℕ → Bool
  | [] => false
  | r' :: _ => decide (data r v = data r' v)

/-- The loop over the split positions (impurity.pyx 1036-1160); `p` is the current position and the
list holds the sorted rows from there on. -/
def evalLoop (c : Cfg) (T : Totals) (data : Data) (v n : ℕ) (symbolic : Bool) :
    List ℕ → ℕ → ESt → ESt
  | [], _, st => st
  | r :: rest, p, st =>
    let last : Bool := if symbolic then rest.length == 0 else rest.length == 1
    let st1 := st.add T data (c.deps v) r
    if (!symbolic || !last) && sameNext data v r rest then
      if !symbolic && last then st1 else evalLoop c T data v n symbolic rest (p + 1) st1
    else
      let st2 := if symbolic then st1.reset c T v else st1
      let st3 := st2.consider (legalGain c T v n st1) p
      if last then st3 else evalLoop c T data v n symbolic rest (p + 1) st3

/-- `sort(&f[0], &index_buffer[0], n_samples)` (impurity.pyx 978-981; cutils.pxd 69-81): the rows in
the order of a key. -/
def sortRows (key : ℕ → ℚ) (rows : List ℕ) : List ℕ :=
  (List.range' 0 rows.length).map (CU.sort key (fun i => rows.getD i 0) rows.length)

/-- `col_is_constant` (impurity.pyx 752-776) on finite cells. -/
def colConstant (data : Data) (rows : List ℕ) (v : ℕ) : Bool :=
  match rows with
  | [] => true
  | r :: rest => rest.all (fun r' => decide (data r' v = data r v))

/-- `evaluate_variable` (impurity.pyx 951-1163): the best improvement on a variable, its position, and
the sorted index buffer. -/
def evaluate (c : Cfg) (T : Totals) (data : Data) (rows buf : List ℕ) (v : ℕ) (symbolic : Bool) :
    WithBot ℚ × Option ℕ × List ℕ :=
  let buf' := sortRows (fun r => data r v) buf
  if colConstant data rows v then (⊥, none, buf')
  else
    let st := evalLoop c T data v rows.length symbolic buf' 0 (ESt.init T)
    (st.best, st.pos, buf')

/-- What `compute_best_split` leaves behind (impurity.pyx 875-923): the best improvement, variable and
position, the rows of the node, and the index buffer. -/
structure Best where
  gain : WithBot ℚ
  var : Option ℕ
  pos : Option ℕ
  rows : List ℕ
  buf : List ℕ

/-- One feature in the loop of `compute_best_split` (impurity.pyx 884-913). -/
def bestStep (c : Cfg) (T : Totals) (data : Data) (b : Best) (v : ℕ) : Best :=
  let e := evaluate c T data b.rows b.buf v (c.symF.contains v)
  if e.1 > b.gain then ⟨e.1, some v, e.2.1, e.2.2, e.2.2⟩ else { b with buf := e.2.2 }

/-- `move_best_values_to_front` (impurity.pyx 925-949): the rows with the value come first; the
position is that of the last of them. -/
def moveToFront (data : Data) (rows : List ℕ) (v : ℕ) (value : ℚ) : List ℕ × ℕ :=
  (sortRows (fun r => if data r v = value then -1 else data r v) rows,
    (rows.filter (fun r => decide (data r v = value))).length - 1)

/-- `compute_best_split` (impurity.pyx 778-923) on the rows of a node. -/
def bestSplit (c : Cfg) (data : Data) (rows : List ℕ) : Best :=
  let b := (c.numF ++ c.symF).foldl (bestStep c (totals c data rows) data) ⟨⊥, none, none, rows, rows⟩
  match b.gain, b.var, b.pos with
  | some _, some v, some p =>
    if c.symF.contains v then
      let m := moveToFront data b.rows v (data (b.rows.getD p 0) v)
      { b with rows := m.1, pos := some m.2 }
    else b
  | _, _, _ => b

/-! ## Growing the tree -/

/-- A call of `c45` in the queue (trees.py 1531-1539): the range of rows, the parent and the position
among its children, and the depth. -/
structure Item where
  start : ℕ
  stop : ℕ
  parent : Option ℕ
  child : ℕ
  depth : ℕ
  deriving DecidableEq

/-- The state of the learner: the tree, `indices`, and `c45queue`. -/
structure LSt (D : Type) where
  heap : Heap D
  indices : List ℕ
  queue : List Item

/-- `self.indices[start:end]`. -/
def slice (l : List ℕ) (start stop : ℕ) : List ℕ := (l.take stop).drop start

/-- `int(x)` of a number. -/
def toInt (q : ℚ) : ℤ := if 0 ≤ q then q.floor else q.ceil

/-- The value indices of a domain with `n` values. -/
def domainOf (n : ℕ) : List ℤ := (List.range n).map (fun i : ℕ => (i : ℤ))

/-- The splits of a decision node (trees.py 1573-1601); `rows` are the rows of the node. -/
def splitsOf (c : Cfg) (data : Data) (rows : List ℕ) (v p : ℕ) : Except Err (List Region) :=
  match c.vars[v]? with
  | none => .error .indexError
  | some (.symbolic n) =>
    let z := toInt (data (rows.getD p 0) v)
    .ok [.set [z], .set ((domainOf n).filter (fun w => decide (w ≠ z)))]
  | some .numeric =>
    let s := (data (rows.getD p 0) v + data (rows.getD (p + 1) 0) v) / 2
    .ok [.num ⟨.ninf, .fin s, .exc, .exc⟩, .num ⟨.fin s, .pinf, .inc, .exc⟩]
  | some (.integer n) =>
    let z := toInt (data (rows.getD (p + 1) 0) v)
    match (domainOf n).idxOf? z with
    | none => .error .valueError
    | some i => .ok [.set ((domainOf n).take i), .set ((domainOf n).drop i)]

/-- `depth < self.max_depth`. -/
def depthOK (c : Cfg) (depth : ℕ) : Bool :=
  match c.maxDepth with
  | none => true
  | some m => decide (depth < m)

/-- `max_gain >= min_impurity_improvement`. -/
def gainOK (c : Cfg) (b : Best) : Bool :=
  match b.gain with
  | none => false
  | some g => decide (c.minImp ≤ g)

/-- `c45` (trees.py 1531-1632).  `fit rows v` is the distribution of variable `v` fitted to the rows,
`total` is `data.shape[0]`. -/
def c45 {D : Type} (c : Cfg) (data : Data) (total : ℕ) (fit : List ℕ → ℕ → D) (st : LSt D)
    (it : Item) : Except Err (LSt D) := do
  let b := bestSplit c data (slice st.indices it.start it.stop)
  let indices := st.indices.take it.start ++ b.rows ++ st.indices.drop it.stop
  let n := it.stop - it.start
  let id := st.heap.inner.length + st.heap.leaves.length
  let (h, path) ← st.heap.attach it.parent it.child id
  let root := h.root.or (some id)
  if gainOK c b && depthOK c it.depth then
    match b.var, b.pos with
    | some v, some p => do
      let splits ← splitsOf c data b.rows v p
      return ⟨⟨Dict.set h.inner id ⟨v, splits, splits.map (fun _ => none), it.parent, n, path⟩,
          h.leaves, root⟩, indices,
        st.queue ++ [⟨it.start, it.start + p + 1, some id, 0, it.depth + 1⟩,
          ⟨it.start + p + 1, it.stop, some id, 1, it.depth + 1⟩]⟩
    | _, _ => .error .typeError
  else
    let rows := slice indices it.start it.stop
    return ⟨⟨h.inner, Dict.set h.leaves id ⟨it.parent, path,
        (List.range c.vars.length).map (fit rows), (n : ℚ) / (total : ℚ), n, rows⟩, root⟩,
      indices, st.queue⟩

/-- The loop of `learn` (trees.py 1838-1840); `fuel` bounds the number of rounds. -/
def grow {D : Type} (c : Cfg) (data : Data) (total : ℕ) (fit : List ℕ → ℕ → D) :
    ℕ → LSt D → Except Err (LSt D)
  | 0, st => if st.queue = [] then .ok st else .error .outOfFuel
  | k + 1, st =>
    match st.queue with
    | [] => .ok st
    | it :: queue => do
      grow c data total fit k (← c45 c data total fit { st with queue := queue } it)

/-- `learn` (trees.py 1739-1846) on preprocessed data with `total` rows, without `postprocess_leaves`
(which only changes numeric distributions) and without the prior distributions.  `ValueError` if there
is no row.  A tree with `total` rows has at most `2 * total - 1` nodes, which bounds the loop. -/
def learn {D : Type} (c : Cfg) (data : Data) (total : ℕ) (fit : List ℕ → ℕ → D) :
    Except Err (Heap D) :=
  if total = 0 then .error .valueError
  else do
    let st ← grow c data total fit (2 * total)
      ⟨Heap.empty, List.range total, [⟨0, total, none, 0, 0⟩]⟩
    return st.heap

/-! ## Hyperparameters -/

/-- `min_samples_leaf`: a number of rows or a fraction. -/
inductive MinArg
  | int (z : ℤ)
  | float (q : ℚ)

/-- The arguments of `JPT(…)` (trees.py 702-770); an omitted list is `[]`. -/
structure Args where
  vars : List Kind
  targets : List ℕ
  features : List ℕ
  minSamplesLeaf : MinArg
  minImp : Option ℚ
  maxDepth : Option ℕ
  deps : Option (ℕ → List ℕ)
  invert : ℕ → Bool

/-- The choice of targets (trees.py 729-732). -/
def Args.allTargets (a : Args) : List ℕ :=
  if a.targets = [] then List.range a.vars.length else a.targets

/-- The choice of features (trees.py 735-744). -/
def Args.allFeatures (a : Args) : List ℕ :=
  if a.features = [] then
    if a.targets = [] then List.range a.vars.length
    else (List.range a.vars.length).filter (fun v => !a.targets.contains v)
  else a.features

/-- The leaf size for `total` rows (trees.py 1801-1808).  The learner stores it in an unsigned integer
(impurity.pxd), so other numbers than these do not occur in practice. -/
def minSamplesOf (arg : MinArg) (total : ℕ) : ℚ :=
  match arg with
  | .int z => (z : ℚ)
  | .float q => if 0 < q ∧ q < 1 then ((max 1 (toInt (q * total)) : ℤ) : ℚ) else q

/-- What the learner works with (trees.py 725-770, 1531, 1801-1813): `max_depth or inf`,
`ifnone(min_impurity_improvement, 0)`, and without `dependencies` all targets depend on all
features. -/
def Args.cfg (a : Args) (total : ℕ) : Cfg where
  vars := a.vars
  targets := a.allTargets
  features := a.allFeatures
  deps := match a.deps with
    | none => fun _ => a.allTargets
    | some d => d
  invert := a.invert
  minSamples := minSamplesOf a.minSamplesLeaf total
  minImp := a.minImp.getD 0
  maxDepth := if a.maxDepth = some 0 then none else a.maxDepth

end Verif.Learn
