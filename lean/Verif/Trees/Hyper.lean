import Verif.Dict

/-!
# Model of `JPT.get_hyperparameters_dict` (trees.py 2564-2582)

Names are lists of characters.  `V` is the type of the values of settings, `M` that of the other parameters of a tree.
-/

namespace Verif.Hyper

/-- What the function reads of a variable: its name and the items of `to_json()["settings"]` (variables.py 160-168). -/
structure HVar (V : Type) where
  name : List Char
  settings : List (List Char × V)

/-- What the function reads of a tree. -/
structure HTree (V M : Type) where
  vars : List (HVar V)
  targets : List (List Char)
  features : List (List Char)
  minSamples : M
  minImp : M
  maxLeaves : M
  maxDepth : M

/-- A value of the result: a list of names, the value of a setting or a parameter of the tree. -/
inductive Val (V M : Type)
  | names (l : List (List Char))
  | setting (v : V)
  | param (m : M)
  deriving DecidableEq

variable {V M : Type}

/-- `f"{variable.name}.{setting}"` (trees.py 2573). -/
def key (n s : List Char) : List Char := n ++ '.' :: s

/-- The inner loop (trees.py 2572-2573). -/
def addSettings (d : List (List Char × Val V M)) (v : HVar V) : List (List Char × Val V M) :=
  v.settings.foldl (fun d p => Dict.set d (key v.name p.1) (.setting p.2)) d

/-- `get_hyperparameters_dict` (trees.py 2564-2582). -/
def hyper (t : HTree V M) : List (List Char × Val V M) :=
  let d := Dict.set [] "variables".toList (.names (t.vars.map HVar.name))
  let d := t.vars.foldl addSettings d
  let d := Dict.set d "targets".toList (.names t.targets)
  let d := Dict.set d "features".toList (.names t.features)
  let d := Dict.set d "min_samples_leaf".toList (.param t.minSamples)
  let d := Dict.set d "min_impurity_improvement".toList (.param t.minImp)
  let d := Dict.set d "max_leaves".toList (.param t.maxLeaves)
  Dict.set d "max_depth".toList (.param t.maxDepth)

end Verif.Hyper
