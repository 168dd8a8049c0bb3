import Verif.Json

/-!
# Model of `to_json` of arbitrary objects

`to_json` (base/utils.py 154-172), used for the values of variable maps (variables.py 678, 805).
-/

namespace Verif.ToJson

/-- A key of a dictionary. -/
inductive Key
  | str (s : String)
  | int (i : ℤ)
  deriving DecidableEq

/-- A Python object: numbers (booleans are numbers, too), strings, lists, dictionaries, objects with a method `to_json` and the
result of this method, and objects of other types, among them `None`, tuples and sets. -/
inductive Py
  | bool (b : Bool)
  | num (q : ℚ)
  | str (s : String)
  | list (l : List Py)
  | dict (d : List (Key × Py))
  | obj (r : Except Err J)
  | other

/-- `str(k)`, where `show` writes integers. -/
def Key.text (shw : ℤ → String) : Key → String
  | .str s => s
  | .int i => shw i

mutual

/-- `to_json` (base/utils.py 154-172). -/
def toJson (shw : ℤ → String) : Py → Except Err J
  | .obj r => r
  | .list l => do
    let r ← listJson shw l
    return .arr r
  | .dict d => do
    let r ← dictJson shw d []
    return .obj r
  | .str s => .ok (.str s)
  | .num q => .ok (.num q)
  | .bool b => .ok (.bool b)
  | .other => .error .typeError

/-- The list comprehension (base/utils.py 164). -/
def listJson (shw : ℤ → String) : List Py → Except Err (List J)
  | [] => .ok []
  | v :: l => do
    let j ← toJson shw v
    let r ← listJson shw l
    return j :: r

/-- The dictionary comprehension (base/utils.py 166): a later item replaces an earlier one with the same text as key. -/
def dictJson (shw : ℤ → String) : List (Key × Py) → List (String × J) → Except Err (List (String × J))
  | [], acc => .ok acc
  | (k, v) :: d, acc => do
    let j ← toJson shw v
    dictJson shw d (Dict.set acc (k.text shw) j)

end

end Verif.ToJson
