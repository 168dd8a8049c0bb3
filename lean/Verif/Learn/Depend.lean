import Verif.Dict
import Mathlib.Data.Rat.Defs

/-!
# Model of the dependency structure in the learner

From the dictionary `dependencies` to the statistics of a split: `get_dependency_indices_from_tree` (impurity.pyx 629-641), the dependency
matrices (impurity.pyx 530-562) and the loops that use them (impurity.pyx 1165-1228).  `K` is the type of variables.
-/

namespace Verif.Dep

variable {K : Type} [DecidableEq K]

/-- `tree.variables.index(v)`: `ValueError` if it is not a variable of the tree. -/
def indexOf (vars : List K) (v : K) : Except Err ℕ :=
  if v ∈ vars then .ok (vars.idxOf v) else .error .valueError

/-- `get_dependency_indices_from_tree` (impurity.pyx 629-641). -/
def depIndices (vars : List K) : List (K × List K) → List (ℕ × List ℕ) → Except Err (List (ℕ × List ℕ))
  | [], acc => .ok acc
  | (v, ds) :: r, acc => do
    let i ← indexOf vars v
    let js ← ds.mapM (indexOf vars)
    depIndices vars r (Dict.set acc i js)

/-- `[i for i, v in enumerate(targets) if v in dep]` (impurity.pyx 549-551, 556-558). -/
def positions (targets dep : List ℕ) : List ℕ := (List.range targets.length).filter (fun i => decide (targets.getD i 0 ∈ dep))

/-- A row of a dependency matrix of the given width: filled with -1 (impurity.pyx 540-545), then `M[idx_var, :len] = indices`
(impurity.pyx 552-553, 559-560), which is a `ValueError` in numpy if the row is too short. -/
def row (width : ℕ) (idx : List ℕ) : Except Err (List Int) :=
  if idx.length > width then .error .valueError
  else .ok (idx.map (fun i => (i : Int)) ++ List.replicate (width - idx.length) (-1))

/-- `dependency_indices[idx_var]` (impurity.pyx 550, 557): the comprehension looks it up once for every target, so not at all if there is
none of this kind. -/
def entry (targets : List ℕ) (dep : List (ℕ × List ℕ)) (v : ℕ) : Except Err (List ℕ) :=
  if targets = [] then .ok [] else Dict.get dep v

/-- The loop over the features (impurity.pyx 547-560) for one of the two matrices; rows of other variables stay filled with -1. -/
def matrix (width : ℕ) (targets : List ℕ) (dep : List (ℕ × List ℕ)) : List ℕ → (ℕ → List Int) → Except Err (ℕ → List Int)
  | [], M => .ok M
  | v :: fs, M => do
    let d ← entry targets dep v
    let r ← row width (positions targets d)
    matrix width targets dep fs (fun x => if x = v then r else M x)

/-- The matrix for `targets` (impurity.pyx 536-560) out of all `n` targets. -/
def build (vars : List K) (deps : List (K × List K)) (features targets : List ℕ) (n : ℕ) : Except Err (ℕ → List Int) := do
  let dep ← depIndices vars deps []
  matrix n targets dep features (fun _ => List.replicate n (-1))

/-- The dictionary built when no dependencies are given: every feature with all targets (trees.py 768-771). -/
def default (features targets : List K) : List (K × List K) := features.map (fun v => (v, targets))

/-- `for i in range(…)` up to the first -1 (impurity.pyx 1180-1187, 1213-1220). -/
def walk {S : Type} (f : ℕ → S → S) : List Int → S → S
  | [], s => s
  | i :: r, s => if i = -1 then s else walk f r (f i.toNat s)

/-- Sums and sums of squares on both sides, by position among the numeric targets. -/
structure Sums where
  left : ℕ → ℚ
  right : ℕ → ℚ
  sqLeft : ℕ → ℚ
  sqRight : ℕ → ℚ

/-- The body of the loop for numeric targets (impurity.pyx 1189-1196). -/
def addNum (x : ℕ → ℚ) (targets : List ℕ) (total sqTotal : ℕ → ℚ) (i : ℕ) (s : Sums) : Sums :=
  let y := x (targets.getD i 0)
  let l := s.left i + y
  let q := s.sqLeft i + y * y
  { left := fun j => if j = i then l else s.left j
    right := fun j => if j = i then total i - l else s.right j
    sqLeft := fun j => if j = i then q else s.sqLeft j
    sqRight := fun j => if j = i then sqTotal i - q else s.sqRight j }

/-- Histograms on both sides, by position among the symbolic targets and value. -/
structure Hists where
  left : ℕ → ℕ → Int
  right : ℕ → ℕ → Int

/-- The body of the loop for symbolic targets (impurity.pyx 1221-1228); `x` are the value indices of the row. -/
def addSym (x : ℕ → ℕ) (targets : List ℕ) (total : ℕ → ℕ → Int) (i : ℕ) (s : Hists) : Hists :=
  let w := x (targets.getD i 0)
  { left := fun j v => if j = i ∧ v = w then s.left i w + 1 else s.left j v
    right := fun j v => if j = i ∧ v = w then total i w - (s.left i w + 1) else s.right j v }

end Verif.Dep
