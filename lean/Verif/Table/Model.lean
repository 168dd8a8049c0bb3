import Verif.Common
import Mathlib.Data.List.Dedup
import Mathlib.Algebra.Order.Field.Rat
import Mathlib.Data.List.Basic

/-!
# Model of `JPT._preprocess_data` (`trees.py`) and of `infer_from_dataframe` (`variables.py`)

Cells of different types are different here, whereas Python's dicts take `1`, `1.0` and `True` to be the same key.
Infinite numbers are not modelled.  What `pandas` does with the types of columns is not modelled either.
-/

namespace Verif.Tab

/-- A cell of a table; `nan` is a missing value. -/
inductive Cell
  | str (s : String)
  | bool (b : Bool)
  | int (z : ℤ)
  | num (q : ℚ)
  | nan
  deriving DecidableEq

/-- `float(x)`, for text that is no numeral. -/
def Cell.number : Cell → Option ℚ
  | num q => some q
  | int z => some z
  | bool b => some (if b then 1 else 0)
  | _ => none

/-- `domain.values`: an `OrderedDictProxy` of the labels (`multinomial.py` 645-654, `integer.py` 571-580), `Identity` or a
`DataScalerProxy` (`distributions/utils.py` 72-204).  Mean and scale are any numbers here. -/
inductive Enc
  | dict (labels : List Cell)
  | ident
  | scaled (mean scale : ℚ)
  deriving DecidableEq

/-- A cell of the array `_preprocess_data` returns, which is allocated without being initialised (`trees.py` 1709). -/
inductive Entry
  | num (q : ℚ)
  | nan
  | unset
  deriving DecidableEq

/-- `labels` has `x`: its index. -/
def lookup (labels : List Cell) (x : Cell) : Option ℕ :=
  if x ∈ labels then some (labels.idxOf x) else none

/-- `var.domain.values[v]` and its conversion to a float (`trees.py` 1735-1736, `utils.py` 78-79, 108-115, 186-187). -/
def encode : Enc → Cell → Except Err Entry
  | .dict labels, x => match lookup labels x with
    | some i => .ok (.num i)
    | none => .error .keyError
  | .ident, .nan => .ok .nan
  | .ident, x => match x.number with
    | some q => .ok (.num q)
    | none => .error .valueError
  | .scaled _ _, .nan => .ok (.num 0)
  | .scaled m s, x => match x.number with
    | some q => .ok (.num ((q - m) / s))
    | none => .error .typeError

/-- `data[col].map(transformer, na_action='ignore')` at one cell (`trees.py` 1722-1729, `utils.py` 175-184). -/
def encodeFrame : Enc → Cell → Except Err Entry
  | _, .nan => .ok .nan
  | .dict labels, x => match lookup labels x with
    | some i => .ok (.num i)
    | none => .error .valueError
  | e, x => encode e x

/-- A variable: its name and the values of its domain. -/
structure Var where
  name : String
  enc : Enc
  deriving DecidableEq

/-- What can be passed as data: a list of lists, an array (with the length of its second axis) or a data frame. -/
inductive Src
  | list (l : List (List Cell))
  | array (width : ℕ) (l : List (List Cell))
  | frame (names : List String) (cols : List (List Cell))

/-- `data_[:, i] = l` (`trees.py` 1736) for `n` rows: one value is repeated. -/
def writeCol (n : ℕ) (l : List Entry) : Except Err (List Entry) :=
  if l.length = n then .ok l
  else match l with
    | [x] => .ok (List.replicate n x)
    | _ => .error .valueError

/-- One round of the loop over the columns (`trees.py` 1735-1736). -/
def column (n : ℕ) (x : Var × List Cell) : Except Err (List Entry) := do
  let l ← x.2.mapM (encode x.1.enc)
  writeCol n l

/-- The table, as a list of columns (`trees.py` 1709, 1734-1737): `zip` stops with the variables or the columns. -/
def fromColumns (vars : List Var) (n : ℕ) (cols : List (List Cell)) : Except Err (List (List Entry)) := do
  let t ← (vars.zip cols).mapM (column n)
  .ok (t ++ List.replicate (cols.length - vars.length) (List.replicate n .unset))

/-- `[row[i] for row in rows]` (`trees.py` 1695). -/
def pick (rows : List (List Cell)) (i : ℕ) : Except Err (List Cell) :=
  rows.mapM (fun row => match row[i]? with
    | some x => .ok x
    | none => .error .indexError)

/-- The table of a data frame (`trees.py` 1710-1733).  That the names are the same follows if they are in the same order. -/
def fromFrame (vars : List Var) (names : List String) (cols : List (List Cell)) : Except Err (List (List Entry)) :=
  if names ≠ vars.map (·.name) then .error .valueError
  else (vars.zip cols).mapM (fun x => x.2.mapM (encodeFrame x.1.enc))

/-- `rows` after `trees.py` 1691-1692. -/
def rowsOf (data rows : Option Src) : Option Src :=
  match data with
  | some (.list l) => some (.list l)
  | some (.array w l) => if l ≠ [] then some (.array w l) else rows
  | _ => rows

/-- `columns` after `trees.py` 1694-1697. -/
def columnsOf (vars : List Var) (rows columns : Option Src) : Except Err (Option Src) :=
  match rows with
  | some (.list (r :: l)) => do .ok (some (.list (← (List.range vars.length).mapM (pick (r :: l)))))
  | some (.array w (r :: l)) => do .ok (some (.array (l.length + 1) (← (List.range w).mapM (pick (r :: l)))))
  | _ => .ok columns

/-- `_preprocess_data` (`trees.py` 1676-1737). -/
def preprocess (vars : List Var) (data rows columns : Option Src) : Except Err (List (List Entry)) :=
  if ([data, rows, columns].filter Option.isSome).length ≠ 1 then .error .valueError
  else do
    match ← columnsOf vars (rowsOf data rows) columns with
    | some (.list (c :: l)) => fromColumns vars c.length (c :: l)
    | some (.array w l) => fromColumns vars w l
    | _ => match data with
      | some (.frame names cols) => fromFrame vars names cols
      | _ => .error .valueError

/-- The types of columns `infer_from_dataframe` tells apart (`variables.py` 503, 517, 536). -/
inductive DType
  | object
  | bool
  | float
  | int
  | other
  deriving DecidableEq

/-- `Series.unique()`: the values in the order of their first occurrence. -/
def unique (l : List Cell) : List Cell := l.reverse.dedup.reverse

/-- The labels of an `IntegerType` (`integer.py` 571-580). -/
def intLabels (lo hi : ℤ) : List Cell := (List.range (hi - lo + 1).toNat).map (fun i : ℕ => .int (lo + i))

/-- The integers in a column. -/
def ints (l : List Cell) : List ℤ := l.filterMap (fun x => match x with | .int z => some z | _ => none)

/-- The numbers in a column. -/
def nums (l : List Cell) : List ℚ := l.filterMap (fun x => match x with | .num q => some q | _ => none)

/-- `NumericType` (`numeric.py` 758-767) and the `DataScaler` of the values (`utils.py` 25-35).  `std` stands for
`numpy.std`; the mean of no values is NaN, and 0 here. -/
def numericType (std : List ℚ → ℚ) (l : List Cell) : Except Err Enc :=
  if .nan ∈ l then .error .valueError
  else .ok (.scaled ((nums l).sum / (nums l).length) (if std (nums l) = 0 then 1 else std (nums l)))

/-- One round of the loop of `infer_from_dataframe` (`variables.py` 502-548); `excluded` are the domains given for the column. -/
def inferCol (std : List ℚ → ℚ) (scale removeNan : Bool) (excluded : String → Option Enc)
    (x : String × DType × List Cell) : Except Err Var :=
  match x with
  | (name, dtype, col) =>
    match dtype, excluded name with
    | .other, _ => .error .typeError
    | _, some e => .ok ⟨name, e⟩
    | .bool, none => .ok ⟨name, .dict [.bool false, .bool true]⟩
    | .object, none =>
      if unique col = [] then .error .valueError
      else .ok ⟨name, .dict (unique col)⟩
    | .float, none =>
      if scale then do
        let e ← numericType std (unique (if removeNan then col.filter (fun x => x ≠ .nan) else col))
        .ok ⟨name, e⟩
      else .ok ⟨name, .ident⟩
    | .int, none =>
      match (ints col).min?, (ints col).max? with
      | some lo, some hi => .ok ⟨name, .dict (intLabels lo hi)⟩
      | _, _ => .error .typeError

/-- `infer_from_dataframe` (`variables.py` 461-549). -/
def infer (std : List ℚ → ℚ) (scale removeNan : Bool) (excluded : String → Option Enc)
    (df : List (String × DType × List Cell)) : Except Err (List Var) :=
  df.mapM (inferCol std scale removeNan excluded)

end Verif.Tab
