import Verif.Dict
import Mathlib.Data.Rat.Defs

/-!
# JSON documents

The documents `json.loads(json.dumps(·))` keeps as they are: dictionaries with string keys, lists,
numbers (exact), strings, booleans and `None`.
-/

namespace Verif

/-- A JSON document. -/
inductive J
  | null
  | bool (b : Bool)
  | num (q : ℚ)
  | str (s : String)
  | arr (l : List J)
  | obj (d : List (String × J))

namespace J

/-- `data[k]`: `KeyError` if the key is missing, `TypeError` if `data` is no dictionary. -/
def key (j : J) (k : String) : Except Err J :=
  match j with
  | obj d => Dict.get d k
  | _ => .error .typeError

/-- `data.get(k)`. -/
def getKey (j : J) (k : String) : Except Err J :=
  match j with
  | obj d => .ok ((d.lookup k).getD null)
  | _ => .error .attributeError

/-- `data[i]` of a list. -/
def idx (j : J) (i : ℕ) : Except Err J :=
  match j with
  | arr l => match l[i]? with | none => .error .indexError | some x => .ok x
  | _ => .error .typeError

/-- A string where one is needed. -/
def asStr : J → Except Err String
  | str s => .ok s
  | _ => .error .typeError

/-- A number where one is needed. -/
def asNum : J → Except Err ℚ
  | num q => .ok q
  | _ => .error .typeError

/-- A list where one is needed. -/
def asArr : J → Except Err (List J)
  | arr l => .ok l
  | _ => .error .typeError

/-- The items of a dictionary. -/
def asObj : J → Except Err (List (String × J))
  | obj d => .ok d
  | _ => .error .typeError

end J

end Verif
