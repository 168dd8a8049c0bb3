import Verif.Trees.Model
import Verif.Vars.Lemmas

/-!
# Model of the settings of a tree: `JPT.__init__`, `to_json`, `from_json`

`numeric` says whether a variable is a `NumericVariable`.  `M` is the type of `min_samples_leaf` (an
integer or a float).
-/

namespace Verif.Trees

open Verif Vars

variable {P M : Type}

/-- The attributes of a `JPT` that are not nodes (trees.py 724-770).  `maxDepth = none` is
`float('inf')`. -/
structure Settings (P M : Type) where
  vars : List (Var P)
  targets : List (Var P)
  features : List (Var P)
  minSamples : M
  minImp : ℚ
  maxLeaves : Option ℕ
  maxDepth : Option ℕ
  minDists : VMap P ℚ
  deps : VMap P (List (Var P))
  deriving DecidableEq

/-- The targets (trees.py 729-732); the model takes variables, not names. -/
def initTargets (vs targets : List (Var P)) : List (Var P) := if targets = [] then vs else targets

/-- The features (trees.py 735-744). -/
def initFeatures [DecidableEq P] (vs targets features : List (Var P)) : List (Var P) :=
  if targets = [] then (if features = [] then vs else features)
  else (if features = [] then vs.filter (fun v => decide (v ∉ targets)) else features)

/-- `max_depth or float('inf')` (trees.py 758). -/
def initDepth : Option ℕ → Option ℕ
  | some 0 => none
  | d => d

/-- The dependencies (trees.py 766-775): by default from every feature to all targets. -/
def initDeps (vs targets features : List (Var P)) :
    Option (List (Var P × List (Var P))) → Except Err (VMap P (List (Var P)))
  | none => VMap.mk? (features.map fun v => (.var v, targets)) []
  | some ds => VMap.mk? (ds.map fun p => (.var p.1, p.2)) vs

/-- `JPT.__init__` (trees.py 702-775). -/
def Settings.init [DecidableEq P] (vs targets features : List (Var P)) (ms : M) (mi : Option ℚ)
    (ml md : Option ℕ) (ds : Option (List (Var P × List (Var P)))) : Except Err (Settings P M) := do
  let deps ← initDeps vs (initTargets vs targets) (initFeatures vs targets features) ds
  return ⟨vs, initTargets vs targets, initFeatures vs targets features, ms, mi.getD 0, ml, initDepth md,
    VMap.empty vs, deps⟩

/-- What `learn` adds (trees.py 1764-1768): a minimal distance for every numeric variable.  `dist` is
computed from the data. -/
def Settings.learn (numeric : Var P → Bool) (dist : Var P → ℚ) (s : Settings P M) : Settings P M :=
  { s with minDists := (s.vars.filter numeric).foldl (fun m v => m.setVar v (dist v)) s.minDists }

/-- The JSON object (trees.py 838-856) without the nodes; a variable stands for its own JSON object. -/
structure JSettings (P M : Type) where
  vars : List (Var P)
  targets : List String
  features : List String
  minSamples : M
  minImp : ℚ
  maxLeaves : Option ℕ
  maxDepth : Option ℕ
  minDists : List (String × ℚ)
  deps : List (String × List String)
  deriving DecidableEq

/-- `JPT.to_json` (trees.py 838-856), settings. -/
def Settings.toJson (s : Settings P M) : Except Err (JSettings P M) := do
  let md ← s.minDists.toJson id
  let ds ← s.deps.toJson (fun l => l.map Var.name)
  return ⟨s.vars, s.targets.map Var.name, s.features.map Var.name, s.minSamples, s.minImp, s.maxLeaves,
    s.maxDepth, md, ds⟩

/-- The variables a tree is loaded with (trees.py 869-877): the ones given, else the ones in the JSON
object, read by `Variable.from_json`. -/
def loadVars (readVar : Var P → Except Err (Var P)) (given : Option (List (Var P))) (vs : List (Var P)) :
    Except Err (List (String × Var P)) :=
  match given with
  | some g => .ok (byName g)
  | none => do
    let l ← vs.mapM readVar
    return (vs.zip l).foldl (fun d p => Dict.set d p.1.name p.2) []

/-- `[variables[v] for v in names]` (trees.py 880-887, 893). -/
def named (d : List (String × Var P)) (ns : List String) : Except Err (List (Var P)) :=
  ns.mapM fun n => Dict.get d n

/-- One dependency (trees.py 893-894). -/
def loadDep (d : List (String × Var P)) (e : String × List String) :
    Except Err (Var P × List (Var P)) := do
  let v ← Dict.get d e.1
  let l ← named d e.2
  return (v, l)

/-- `JPT.from_json` (trees.py 858-900), settings. -/
def Settings.fromJson [DecidableEq P] (numeric : Var P → Bool) (readVar : Var P → Except Err (Var P))
    (given : Option (List (Var P))) (j : JSettings P M) : Except Err (Settings P M) := do
  let d ← loadVars readVar given j.vars
  let ts ← named d j.targets
  let fs ← named d j.features
  let ds ← j.deps.mapM (loadDep d)
  let s ← Settings.init (d.map Prod.snd) ts fs j.minSamples (some j.minImp) j.maxLeaves j.maxDepth (some ds)
  let md ← VMap.fromJson Except.ok (s.vars.filter numeric) j.minDists
  return { s with minDists := md }

/-- `JPT.copy` (trees.py 2175-2182), settings. -/
def Settings.copy [DecidableEq P] (numeric : Var P → Bool) (readVar : Var P → Except Err (Var P))
    (s : Settings P M) : Except Err (Settings P M) := do
  let j ← s.toJson
  Settings.fromJson numeric readVar (some s.vars) j

/-- `JPT.__eq__` (trees.py 943-955), settings. -/
def Settings.eq [DecidableEq P] [DecidableEq M] (s o : Settings P M) : Bool :=
  decide (s.minSamples = o.minSamples) && decide (s.minImp = o.minImp) && decide (s.targets = o.targets) &&
    decide (s.vars = o.vars) && decide (s.maxDepth = o.maxDepth) && decide (s.maxLeaves = o.maxLeaves) &&
    s.deps.eq o.deps

end Verif.Trees
